import Verif.Spec.Hostile
import Verif.Spec.Extract
import Verif.Proof.ExtractGen
/-!
# Extracting any table without links: everything happens below the output directory
-/
namespace Arx

/-! ## Walks, with what is known of the entries read -/

section
variable {E C F L D : Type} {op : Operator E C F L D} {a : Archive} {B : Builder F L D}

/-- `I` survives every call with an entry of the archive. -/
structure Operator.KeepsFor (op : Operator E C F L D) (a : Archive) (B : Builder F L D) (I : C → Prop) : Prop where
  enter : ∀ c i r d, a.create B i = .ok (.dir r d) → I c → I (op.onEnter c d).1
  exit : ∀ c d, I c → I (op.onExit c d).1
  file : ∀ c i f, a.create B i = .ok (.file f) → I c → I (op.onFile c f).1
  link : ∀ c i l, a.create B i = .ok (.link l) → I c → I (op.onLink c l).1

theorem forEach_inv_mem {X E : Type} {body : C → X → C × Except E Unit} {I : C → Prop} :
    ∀ (l : List X), (∀ c, ∀ x ∈ l, I c → I (body c x).1) → ∀ (c : C), I c → I (forEach body c l).1 := by
  intro l
  induction l with
  | nil => intro _ c hc; exact hc
  | cons x xs ih =>
    intro h c hc
    have := h c x (by simp) hc
    simp only [forEach]
    revert this
    cases body c x with
    | mk c' r =>
      intro h'
      cases r with
      | error e => exact h'
      | ok u => exact ih (fun c y hy => h c y (by simp [hy])) _ h'

theorem Archive.walkRange_invFor {I : C → Prop} (hop : op.KeepsFor a B I) :
    ∀ (f : Nat) (rg : Range) (c : C), I c → I (a.walkRange B op f rg c).1 := by
  intro f
  induction f with
  | zero => intro rg c hc; exact hc
  | succ f ih =>
    intro rg c hc
    unfold Archive.walkRange
    refine forEach_inv_mem _ ?_ c hc
    intro c x hx hc
    obtain ⟨i, _, rfl⟩ := List.mem_map.mp hx
    cases he : a.create B i with
    | error x => exact hc
    | ok y =>
      cases y with
      | file e => simp only [walkEntry, liftOp_fst]; exact hop.file c i e he hc
      | link e => simp only [walkEntry, liftOp_fst]; exact hop.link c i e he hc
      | dir r d =>
        have h1 := hop.enter c i r d he hc
        simp only [walkEntry]
        revert h1
        cases op.onEnter c d with
        | mk c1 r1 =>
          intro h1
          cases r1 with
          | error x => exact h1
          | ok b =>
            cases b with
            | false => simp only [Bool.false_eq_true, if_false, liftOp_fst]; exact hop.exit _ _ h1
            | true =>
              have h2 := ih r c1 h1
              simp only [if_true]
              revert h2
              cases a.walkRange B op f r c1 with
              | mk c2 r2 =>
                intro h2
                cases r2 with
                | error x => exact h2
                | ok u => simp only [liftOp_fst]; exact hop.exit _ _ h2

theorem Archive.walkFrom_invFor {I : C → Prop} (hop : op.KeepsFor a B I)
    (hstart : ∀ c, I c → I (op.onStart c).1) (hstop : ∀ c, I c → I (op.onStop c).1)
    (f : Nat) (rg : Range) (c : C) (hc : I c) : I (a.walkFrom B op f rg c).1 := by
  have h1 := hstart c hc
  simp only [Archive.walkFrom]
  revert h1
  cases op.onStart c with
  | mk c1 r1 =>
    intro h1
    cases r1 with
    | error x => exact h1
    | ok u =>
      have h2 := Archive.walkRange_invFor hop f rg c1 h1
      simp only
      revert h2
      cases a.walkRange B op f rg c1 with
      | mk c2 r2 =>
        intro h2
        cases r2 with
        | error x => exact h2
        | ok u => simp only [liftOp_fst]; exact hstop _ h2
end

/-! ## Paths -/

theorem comps_dropLeadSep (n : Bytes) : comps (dropLeadSep n) = comps n := by
  unfold dropLeadSep
  split
  · split
    · rename_i h; rw [h, comps_sep_cons]
    · rfl
  · rfl

theorem comps_push_any (p : RPath) (n : Bytes) : comps (RPath.push p n) = comps p ++ comps n := by
  unfold RPath.push
  simp only
  split
  · rw [comps_append, comps_dropLeadSep]
  · rename_i h
    by_cases hp : p = []
    · subst hp; rw [List.nil_append, comps_dropLeadSep]; rfl
    · have hl : p.getLast? = some SEP := Classical.byContradiction fun hn => h ⟨hp, hn⟩
      obtain ⟨q, rfl⟩ : ∃ q, p = q ++ [SEP] := by
        rw [List.getLast?_eq_some_iff] at hl
        exact hl
      rw [List.append_assoc, List.singleton_append, comps_append, comps_append_sep, comps_dropLeadSep]

theorem mem_comps_pop {p : RPath} {c : Bytes} (h : c ∈ comps (RPath.pop p)) : c ∈ comps p := by
  unfold RPath.pop at h
  cases hp : RPath.parent p with
  | none => rw [hp] at h; exact h
  | some q =>
    rw [hp] at h
    simp only [Option.getD_some] at h
    rw [comps_parent hp] at h
    have h1 := List.dropLast_subset _ h
    unfold dropTrailingCur at h1
    have h2 := List.mem_reverse.mp h1
    exact List.mem_reverse.mp ((List.dropWhile_sublist _).subset h2)

/-- the path without `"."` -/
def noCur (p : List Bytes) : List Bytes := p.filter (fun c => decide (c ≠ CUR))

theorem noCur_append (p q : List Bytes) : noCur (p ++ q) = noCur p ++ noCur q := by simp [noCur]

theorem noCur_id {p : List Bytes} (h : ∀ c ∈ p, c ≠ CUR) : noCur p = p := by
  unfold noCur
  rw [List.filter_eq_self]
  intro c hc; simpa using h c hc

theorem noCur_noCur (p : List Bytes) : noCur (noCur p) = noCur p := by simp [noCur]

theorem Along.init {base p : List Bytes} {c : Bytes} (h : Along base (p ++ [c])) : Along base p := by
  rcases h with h | h
  · exact .inl ((List.prefix_append _ _).trans h)
  · rcases List.prefix_concat_iff.mp h with h | h
    · exact .inl (by rw [h]; exact List.prefix_append _ _)
    · exact .inr h

theorem Along.of_append {base p q : List Bytes} (h : Along base (p ++ q)) : Along base p := by
  rcases h with h | h
  · exact .inl ((List.prefix_append _ _).trans h)
  · rcases List.prefix_or_prefix_of_prefix h (List.prefix_append p q) with h | h
    · exact .inr h
    · exact .inl h

/-- in a path along `base` only `"."` can be special, so it leads where it says -/
theorem resAux_along {base : List Bytes} {fs : FS} (hl : NoLinks base fs) {follow : Bool}
    {retry : List Bytes → List Bytes → Except HErr Loc} : ∀ (todo cur : List Bytes), PARENT ∉ todo →
    Along base (cur ++ noCur todo) → ∀ l, resAux fs follow retry todo cur = .ok l →
      match l with
      | .found q => q = cur ++ noCur todo
      | .missing d n => d ++ [n] = cur ++ noCur todo := by
  intro todo
  induction todo with
  | nil =>
    intro cur _ _ l h
    cases h
    simp [noCur]
  | cons c rest ih =>
    intro cur hp ha l h
    have hp' : PARENT ∉ rest := fun x => hp (by simp [x])
    simp only [resAux] at h
    split at h
    · rename_i hc
      have e : noCur (c :: rest) = noCur rest := by simp [noCur, hc]
      rw [e] at ha ⊢
      exact ih cur hp' ha l h
    · rename_i hc
      have e : noCur (c :: rest) = c :: noCur rest := by simp [noCur, hc]
      rw [e] at ha ⊢
      have hcp : ¬ c = PARENT := fun x => hp (by simp [x])
      rw [if_neg hcp] at h
      have e2 : cur ++ c :: noCur rest = (cur ++ [c]) ++ noCur rest := by simp
      rw [e2] at ha ⊢
      cases hn : fs.nodes (cur ++ [c]) with
      | none =>
        rw [hn] at h
        simp only at h
        split at h
        · rename_i hr
          cases h
          simp [hr, noCur]
        · cases h
      | some x =>
        rw [hn] at h
        cases x with
        | dir t => exact ih _ hp' ha l h
        | file i =>
          simp only at h
          split at h
          · rename_i hr
            cases h
            simp [hr, noCur]
          · cases h
        | link t s => exact absurd hn (hl _ ha.of_append t s)

theorem FS.resolve_along {base : List Bytes} {fs : FS} (hl : NoLinks base fs) {follow : Bool} {p : List Bytes} (hp : PARENT ∉ p)
    (ha : Along base (noCur p)) {l : Loc} (h : fs.resolve follow p = .ok l) :
    match l with
    | .found q => q = noCur p
    | .missing d n => d ++ [n] = noCur p := by
  unfold FS.resolve at h
  split at h
  · cases h
  · have := resAux_along hl p [] hp (by simpa using ha) l h
    clear h
    cases l <;> simpa using this

/-! ## The invariant -/

/-- inode `i` is that of a file outside of `base` -/
def OutsideIno (base : List Bytes) (fs : FS) (i : Nat) : Prop := ∃ q, ¬ base <+: q ∧ fs.nodes q = some (.file i)

structure Confined (base : List Bytes) (fs0 : FS) (w : World) : Prop where
  next : fs0.next ≤ w.fs.next
  links : NoLinks base w.fs
  nodes : ∀ q, ¬ base <+: q → w.fs.nodes q = fs0.nodes q ∨ (q <+: base ∧ fs0.nodes q = none ∧ ∃ t, w.fs.nodes q = some (.dir t))
  inside : ∀ q i, base <+: q → w.fs.nodes q = some (.file i) → ¬ OutsideIno base fs0 i
  data : ∀ i, OutsideIno base fs0 i → w.fs.data i = fs0.data i
  own : ∀ i ∈ w.tasks.map Task.ino, ¬ OutsideIno base fs0 i

section
variable {base : List Bytes} {fs0 : FS} {w : World}

theorem Confined.steps (h : Confined base fs0 w) (l : List (Nat × WriteRes)) : Confined base fs0 (w.steps l) := by
  obtain ⟨a1, a2, _, _, a5, a6⟩ := w.steps_fs l
  have hi := map_ino_of a5
  refine ⟨by rw [a2]; exact h.next, ?_, by rw [a1]; exact h.nodes, by rw [a1]; exact h.inside, ?_, by rw [hi]; exact h.own⟩
  · intro q; rw [a1]; exact h.links q
  · intro i ho
    rw [a6 i (fun hc => h.own i hc ho), h.data i ho]

theorem Confined.pre (h : Confined base fs0 w) (env : Env) : Confined base fs0 (w.pre env) := by
  have := h.steps (env.sched w.tick)
  exact ⟨this.next, this.links, this.nodes, this.inside, this.data, this.own⟩

/-- a path the extractor may use -/
structure Usable (base p : List Bytes) : Prop where
  up : PARENT ∉ p
  along : Along base (noCur p)

theorem Usable.parent {p : List Bytes} (h : Usable base p) : Usable base (parentOf p) where
  up hc := by
    have h1 := List.dropLast_subset _ hc
    exact h.up (List.mem_filter.mp h1).1
  along := by
    have e : parentOf p = (noCur p).dropLast := rfl
    rw [e]
    have e2 : noCur (noCur p).dropLast = (noCur p).dropLast := by
      refine noCur_id fun c hc => ?_
      have := List.dropLast_subset _ hc
      simpa [noCur] using (List.mem_filter.mp this).2
    rw [e2]
    rcases List.eq_nil_or_concat (noCur p) with h0 | ⟨l, c, h0⟩
    · rw [h0]; exact .inl (by simp)
    · have := h.along
      rw [h0] at this ⊢
      simpa using Along.init (p := l) (c := c) (by simpa using this)

theorem Confined.mkdir (h : Confined base fs0 w) {p : List Bytes} (hp : Usable base p) {fs : FS}
    (hop : w.fs.mkdir p = .ok ((), fs)) : Confined base fs0 { w with fs := fs } := by
  simp only [FS.mkdir] at hop
  split at hop
  · cases hop
  · cases hop
  · rename_i d n hr
    have hnone := FS.resolve_missing hr
    have hloc := FS.resolve_along h.links hp.up hp.along hr
    simp only at hloc
    simp only [Except.ok.injEq, Prod.mk.injEq, true_and] at hop
    subst hop
    refine ⟨h.next, ?_, ?_, ?_, h.data, h.own⟩
    · intro q hq t s
      simp only [FS.set_nodes]
      split
      · simp
      · exact h.links q hq t s
    · intro q hq
      simp only [FS.set_nodes]
      split
      · rename_i e
        right
        have ha := hp.along
        rw [← hloc, ← e] at ha
        refine ⟨ha.resolve_right hq, ?_, _, rfl⟩
        rcases h.nodes q hq with h1 | ⟨_, h1, _⟩
        · rw [← h1, e]; exact hnone
        · exact h1
      · exact h.nodes q hq
    · intro q i hq hn
      simp only [FS.set_nodes] at hn
      split at hn
      · cases hn
      · exact h.inside q i hq hn

theorem Confined.create (h : Confined base fs0 w) (hwf : ∀ q i, fs0.nodes q = some (.file i) → i < fs0.next)
    {p : List Bytes} (hp : Usable base p) (hin : base <+: noCur p) {b : Bytes}
    {ino : Nat} {fs : FS} (hop : w.fs.createNew p = .ok (ino, fs)) : Confined base fs0 (World.spawn { w with fs := fs } ino b) := by
  simp only [FS.createNew] at hop
  split at hop
  · cases hop
  · split at hop <;> cases hop
  · rename_i d n hr
    have hloc := FS.resolve_along h.links hp.up hp.along hr
    simp only at hloc
    simp only [Except.ok.injEq, Prod.mk.injEq] at hop
    obtain ⟨rfl, rfl⟩ := hop
    have hnew : ¬ OutsideIno base fs0 w.fs.next := by
      rintro ⟨q, _, hq⟩
      have := hwf q _ hq
      have := h.next
      omega
    refine ⟨Nat.le_succ_of_le h.next, ?_, ?_, ?_, ?_, ?_⟩
    · intro q hq t s
      simp only [World.spawn, FS.setData, FS.set_nodes]
      split
      · simp
      · exact h.links q hq t s
    · intro q hq
      simp only [World.spawn, FS.setData, FS.set_nodes]
      rw [if_neg]
      · exact h.nodes q hq
      · intro e
        rw [e, hloc] at hq
        exact hq hin
    · intro q i hq hn
      simp only [World.spawn, FS.setData, FS.set_nodes] at hn
      split at hn
      · cases hn; exact hnew
      · exact h.inside q i hq hn
    · intro i ho
      simp only [World.spawn, FS.setData]
      rw [if_neg (by intro e; subst e; exact hnew ho)]
      exact h.data i ho
    · intro i hi
      simp only [World.spawn, List.map_append, List.mem_append, List.map_cons, List.map_nil, List.mem_singleton] at hi
      rcases hi with hi | hi
      · exact h.own i hi
      · subst hi; exact hnew

theorem Confined.reopen (h : Confined base fs0 w) {p : List Bytes} (hp : Usable base p) (hin : base <+: noCur p) {b : Bytes}
    {ino : Nat} {fs : FS} (hop : w.fs.openTrunc p = .ok (ino, fs)) : Confined base fs0 (World.spawn { w with fs := fs } ino b) := by
  simp only [FS.openTrunc] at hop
  split at hop
  · cases hop
  · cases hop
  · rename_i q hr
    have hloc := FS.resolve_along h.links hp.up hp.along hr
    simp only at hloc
    split at hop
    · rename_i i hn
      simp only [Except.ok.injEq, Prod.mk.injEq] at hop
      obtain ⟨rfl, rfl⟩ := hop
      have hnot : ¬ OutsideIno base fs0 i := h.inside q i (by rw [hloc]; exact hin) hn
      refine ⟨h.next, h.links, h.nodes, h.inside, ?_, ?_⟩
      · intro j ho
        simp only [World.spawn, FS.setData]
        rw [if_neg (by intro e; subst e; exact hnot ho)]
        exact h.data j ho
      · intro j hj
        simp only [World.spawn, List.map_append, List.mem_append, List.map_cons, List.map_nil, List.mem_singleton] at hj
        rcases hj with hj | hj
        · exact h.own j hj
        · subst hj; exact hnot
    · cases hop

theorem Confined.isDir (h : Confined base fs0 w) (env : Env) (p : List Bytes) : Confined base fs0 (w.isDir env p).1 := by
  simp only [World.isDir]
  rcases w.sys_cases env (fun fs => .ok (fs.isDir p, fs)) with ⟨e, h1, _⟩ | ⟨x, fs, _, ho, h1⟩
  · rw [h1]; exact h.pre env
  · rw [h1]; cases ho; exact h.pre env

theorem Confined.sysMkdir (h : Confined base fs0 w) (env : Env) {p : List Bytes} (hp : Usable base p) :
    Confined base fs0 (w.sys env (fun fs => fs.mkdir p)).1 := by
  rcases w.sys_cases env (fun fs => fs.mkdir p) with ⟨e, h1, _⟩ | ⟨x, fs, _, ho, h1⟩
  · rw [h1]; exact h.pre env
  · rw [h1]; exact (h.pre env).mkdir hp ho

theorem Confined.createDirAll (env : Env) : ∀ (f : Nat) (w : World) (p : List Bytes), Confined base fs0 w → Usable base p →
    Confined base fs0 (World.createDirAll env f w p).1 := by
  intro f
  induction f with
  | zero => intro w p h _; exact h
  | succ f ih =>
    intro w p h hp
    have htail : ∀ (w : World) (e : HErr), Confined base fs0 w →
        Confined base fs0 (match w.isDir env p with | (w, true) => (w, (Except.ok () : Except HErr Unit)) | (w, false) => (w, .error e)).1 := by
      intro w e hw
      have := hw.isDir env p
      revert this
      cases w.isDir env p with
      | mk w' b => intro h; cases b <;> exact h
    have h1 := h.sysMkdir env hp
    simp only [World.createDirAll]
    revert h1
    cases w.sys env (fun fs => fs.mkdir p) with
    | mk w1 r1 =>
      intro h1
      cases r1 with
      | ok u => exact h1
      | error e =>
        cases e with
        | notFound =>
          simp only
          split
          · exact h1
          · have h2 := ih w1 (parentOf p) h1 hp.parent
            revert h2
            cases World.createDirAll env f w1 (parentOf p) with
            | mk w2 r2 =>
              intro h2
              cases r2 with
              | error e => exact h2
              | ok u =>
                have h3 := h2.sysMkdir env hp
                simp only
                revert h3
                cases w2.sys env (fun fs => fs.mkdir p) with
                | mk w3 r3 =>
                  intro h3
                  cases r3 with
                  | ok u => exact h3
                  | error e => exact htail w3 e h3
        | _ => exact htail w1 _ h1

end

section
variable {cfg : XCfg} {fs0 : FS} {w : World}

theorem Confined.mkdirs (h : Confined cfg.base fs0 w) {p : List Bytes} (hp : Usable cfg.base p) :
    Confined cfg.base fs0 (cfg.mkdirs w p).1 := by
  have := Confined.createDirAll cfg.env (p.length + 1) w p h hp
  simp only [XCfg.mkdirs]
  revert this
  cases World.createDirAll cfg.env (p.length + 1) w p with
  | mk w' r => intro h; cases r <;> exact h

theorem Confined.sysReopen (h : Confined cfg.base fs0 w) {p : List Bytes} (hp : Usable cfg.base p)
    (hin : cfg.base <+: noCur p) (b : Bytes) :
    Confined cfg.base fs0 (match w.sys cfg.env (fun fs => fs.openTrunc p) with
      | (w, .error e) => (w, (Except.error (EErr.host e) : Except EErr Unit))
      | (w, .ok ino) => (w.spawn ino b, Except.ok ())).1 := by
  rcases w.sys_cases cfg.env (fun fs => fs.openTrunc p) with ⟨e, h1, _⟩ | ⟨x, fs, _, ho, h1⟩
  · rw [h1]; exact h.pre cfg.env
  · rw [h1]; exact (h.pre cfg.env).reopen hp hin ho

theorem Confined.writeFile (h : Confined cfg.base fs0 w) (hwf : ∀ q i, fs0.nodes q = some (.file i) → i < fs0.next)
    {p : List Bytes} (hp : Usable cfg.base p) (hin : cfg.base <+: noCur p) (mtime : Nat) (b : Bytes) :
    Confined cfg.base fs0 (cfg.writeFile w p mtime b).1 := by
  have h1 := h.pre cfg.env
  simp only [XCfg.writeFile]
  rcases w.sys_cases cfg.env (fun fs => fs.createNew p) with ⟨e, e1, _⟩ | ⟨ino, fs, _, ho, e1⟩
  · rw [e1]
    cases e with
    | «exists» =>
      cases hmode : cfg.mode with
      | skip => exact h1
      | warn => exact h1
      | error => exact h1
      | overwrite => exact h1.sysReopen hp hin b
      | newer =>
        simp only
        have h2 : Confined cfg.base fs0 ((w.pre cfg.env).sys cfg.env (fun fs => fs.mtime true p)).1 := by
          rcases (w.pre cfg.env).sys_cases cfg.env (fun fs => fs.mtime true p) with ⟨e, e2, _⟩ | ⟨x, fs, _, ho, e2⟩
          · rw [e2]; exact h1.pre cfg.env
          · rw [e2]
            have : fs = ((w.pre cfg.env).pre cfg.env).fs := by
              simp only [FS.mtime] at ho
              split at ho
              · cases ho
              · cases ho
              · unfold FS.mtimeAt at ho
                split at ho <;> cases ho <;> rfl
            subst this
            exact h1.pre cfg.env
        revert h2
        cases (w.pre cfg.env).sys cfg.env (fun fs => fs.mtime true p) with
        | mk w' r =>
          intro h2
          cases r with
          | error e => exact h2
          | ok t =>
            simp only
            cases newTime mtime with
            | none => exact h2
            | some x =>
              simp only
              split
              · exact Confined.sysReopen (w := w') h2 hp hin b
              · exact h2
    | _ => exact h1
  · rw [e1]; exact h1.create hwf hp hin ho

/-- the walk of the extraction of a table without links and `".."` keeps to `base` -/
theorem extractor_confined (hwf : ∀ q i, fs0.nodes q = some (.file i) → i < fs0.next)
    (hbase : ∀ c ∈ cfg.base, c ≠ CUR ∧ c ≠ PARENT)
    (hrows : ∀ (i : Nat) (r : RawEntry), cfg.a.entries[i]? = some r → PARENT ∉ comps r.name ∧ r.variant ≠ 2) :
    (extractor cfg).KeepsFor cfg.a extractBuilder (fun c => PARENT ∉ comps c.cur ∧ Confined cfg.base fs0 c.w) := by
  have habs : ∀ cur, PARENT ∉ comps cur → Usable cfg.base (cfg.absPath cur) ∧ cfg.base <+: noCur (cfg.absPath cur) := by
    intro cur hc
    have hin : cfg.base <+: noCur (cfg.absPath cur) := by
      unfold XCfg.absPath
      rw [noCur_append, noCur_id (fun c h => (hbase c h).1)]
      exact List.prefix_append _ _
    refine ⟨⟨?_, .inr hin⟩, hin⟩
    intro hm
    unfold XCfg.absPath at hm
    rcases List.mem_append.mp hm with h | h
    · exact (hbase _ h).2 rfl
    · exact hc h
  have hpush : ∀ cur n, PARENT ∉ comps cur → PARENT ∉ comps n → PARENT ∉ comps (RPath.push cur n) := by
    intro cur n h1 h2
    rw [comps_push_any]
    simp [h1, h2]
  have hname : ∀ i e, cfg.a.create extractBuilder i = .ok e →
      match e with
      | .file f => PARENT ∉ comps f.path
      | .dir _ d => PARENT ∉ comps d
      | .link _ => False := by
    intro i e he
    unfold Archive.create at he
    cases hr : cfg.a.entries[i]? with
    | none => rw [hr] at he; cases he
    | some r =>
      obtain ⟨h1, h2⟩ := hrows i r hr
      rw [hr] at he
      simp only at he
      cases ht : EntryType.tryFrom r.variant with
      | none => rw [ht] at he; cases he
      | some t =>
        rw [ht] at he
        cases t with
        | file =>
          simp only [extractBuilder] at he
          split at he
          · cases he; exact h1
          · cases he
        | dir =>
          simp only [extractBuilder] at he
          split at he
          · cases he; exact h1
          · cases he
        | link =>
          exfalso
          apply h2
          unfold EntryType.tryFrom at ht
          split at ht <;> simp_all
  constructor
  · intro c i r d hd hc
    have hn := hname i _ hd
    simp only at hn
    have hp := hpush _ _ hc.1 hn
    simp only [extractor, XCfg.onEnter]
    split
    · exact ⟨hp, hc.2⟩
    · have := hc.2.mkdirs (habs _ hp).1
      revert this
      cases cfg.mkdirs c.w (cfg.absPath (RPath.push c.cur d)) with
      | mk w' r => intro h; cases r <;> exact ⟨hp, h⟩
  · intro c d hc
    exact ⟨fun h => hc.1 (mem_comps_pop h), hc.2⟩
  · intro c i f hf hc
    have hn := hname i _ hf
    simp only at hn
    have hp := hpush _ _ hc.1 hn
    simp only [extractor, XCfg.onFile]
    split
    · exact hc
    · split
      · exact hc
      · exact hc
      · exact ⟨hc.1, hc.2.writeFile hwf (habs _ hp).1 (habs _ hp).2 _ _⟩
  · intro c i l hl _
    exact (hname i _ hl).elim

end

end Arx
