import Verif.Spec.Inside
import Verif.Proof.HostileExtract
import Verif.Proof.ExtractMain
import Verif.Proof.HostProof
/-!
# Extracting entries that stay inside
-/
namespace Arx

/-! ## Where paths lead -/

theorem leadsFrom_append (cur p q : List Bytes) : leadsFrom cur (p ++ q) = leadsFrom (leadsFrom cur p) q := by
  simp [leadsFrom, List.foldl_append]

theorem leadsFrom_plain : ∀ (p cur : List Bytes), (∀ c ∈ p, c ≠ CUR ∧ c ≠ PARENT) → leadsFrom cur p = cur ++ p := by
  intro p
  induction p with
  | nil => intro cur _; simp [leadsFrom]
  | cons c p ih =>
    intro cur h
    obtain ⟨h1, h2⟩ := h c (by simp)
    show leadsFrom (leadStep cur c) p = _
    rw [ih _ (fun x hx => h x (by simp [hx]))]
    simp [leadStep, h1, h2]

theorem StaysInside.prefix {p q : List Bytes} (h : StaysInside p) (hq : q <+: p) : StaysInside q :=
  fun r hr => h r (hr.trans hq)

theorem leadsFrom_inside : ∀ (n : Nat) (p cur : List Bytes), p.length = n → CUR ∉ p → StaysInside p →
    leadsFrom cur p = cur ++ leadsFrom [] p ∧ (leadsFrom [] p).length + 2 * p.count PARENT = p.length := by
  intro n
  induction n with
  | zero =>
    intro p cur hn _ _
    have : p = [] := List.eq_nil_of_length_eq_zero hn
    subst this
    simp [leadsFrom]
  | succ n ih =>
    intro p cur hn hc hs
    rcases nil_or_snoc p with rfl | ⟨q, c, rfl⟩
    · simp at hn
    · simp at hn
      obtain ⟨e1, e2⟩ := ih q cur (by omega) (fun h => hc (by simp [h])) (hs.prefix (List.prefix_append _ _))
      rw [leadsFrom_append, leadsFrom_append, e1]
      have hcc : c ≠ CUR := fun h => hc (by simp [h])
      have step : ∀ x, leadsFrom x [c] = leadStep x c := fun _ => rfl
      rw [step, step]
      unfold leadStep
      rw [if_neg hcc, if_neg hcc]
      by_cases hp : c = PARENT
      · rw [if_pos hp, if_pos hp]
        have hb := hs (q ++ [c]) List.prefix_rfl
        rw [hp] at hb ⊢
        simp only [List.count_append, List.length_append, List.length_cons, List.length_nil] at hb ⊢
        simp only [List.count_singleton_self] at hb ⊢
        have hl : leadsFrom [] q ≠ [] := by
          intro h0; rw [h0] at e2; simp at e2; omega
        rw [List.dropLast_append_of_ne_nil hl]
        refine ⟨rfl, ?_⟩
        rw [List.length_dropLast]
        have : 0 < (leadsFrom [] q).length := List.length_pos_iff.mpr hl
        omega
      · rw [if_neg hp, if_neg hp]
        refine ⟨by simp, ?_⟩
        simp only [List.count_append, List.length_append, List.length_cons, List.length_nil]
        rw [List.count_eq_zero_of_not_mem (by simp [Ne.symm hp] : PARENT ∉ [c])]
        omega

/-! ## Resolution -/

/-- no symbolic link on the way to `base`, at it or below it, but at the places `LP` -/
def LinksAt (base : List Bytes) (LP : List Bytes → Prop) (fs : FS) : Prop :=
  ∀ q, Along base q → ∀ t s, fs.nodes q = some (.link t s) → LP q

theorem resAux_leads {base : List Bytes} {LP : List Bytes → Prop} {fs : FS} (hl : LinksAt base LP fs) {follow : Bool}
    {retry : List Bytes → List Bytes → Except HErr Loc} : ∀ (todo cur : List Bytes), CUR ∉ todo →
    (∀ q, q <+: todo → Along base (leadsFrom cur q)) →
    (∀ q, q <+: todo → q ≠ [] → (q ≠ todo ∨ follow = true) → ¬ LP (leadsFrom cur q)) →
    ∀ l, resAux fs follow retry todo cur = .ok l →
      match l with
      | .found q => q = leadsFrom cur todo
      | .missing d n => d ++ [n] = leadsFrom cur todo := by
  intro todo
  induction todo with
  | nil =>
    intro cur _ _ _ l h
    cases h
    rfl
  | cons c rest ih =>
    intro cur hp ha hf l h
    have hc : ¬ c = CUR := fun x => hp (by simp [x])
    have hp' : CUR ∉ rest := fun x => hp (by simp [x])
    have ha' : ∀ q, q <+: rest → Along base (leadsFrom (leadStep cur c) q) :=
      fun q hq => ha (c :: q) (List.cons_prefix_cons.mpr ⟨rfl, hq⟩)
    have hf' : ∀ q, q <+: rest → q ≠ [] → (q ≠ rest ∨ follow = true) → ¬ LP (leadsFrom (leadStep cur c) q) :=
      fun q hq _ hx => hf (c :: q) (List.cons_prefix_cons.mpr ⟨rfl, hq⟩) (by simp) (hx.imp (fun h e => h (by injection e)) id)
    have e : leadsFrom cur (c :: rest) = leadsFrom (leadStep cur c) rest := rfl
    rw [e]
    simp only [resAux, if_neg hc] at h
    by_cases hcp : c = PARENT
    · rw [if_pos hcp] at h
      have es : leadStep cur c = cur.dropLast := by unfold leadStep; rw [if_neg hc, if_pos hcp]
      rw [es] at ha' hf' ⊢
      exact ih _ hp' ha' hf' l h
    · rw [if_neg hcp] at h
      have es : leadStep cur c = cur ++ [c] := by simp [leadStep, hc, hcp]
      rw [es] at ha' hf' ⊢
      cases hn : fs.nodes (cur ++ [c]) with
      | none =>
        rw [hn] at h
        simp only at h
        split at h
        · rename_i hr
          cases h
          simp [hr, leadsFrom]
        · cases h
      | some x =>
        rw [hn] at h
        cases x with
        | dir t => exact ih _ hp' ha' hf' l h
        | file i =>
          simp only at h
          split at h
          · rename_i hr
            cases h
            simp [hr, leadsFrom]
          · cases h
        | link t s =>
          simp only at h
          have hLP : LP (cur ++ [c]) := hl _ (ha' [] (List.nil_prefix)) t s hn
          split at h
          · rename_i hr
            cases h
            simp [hr.1, leadsFrom]
          · rename_i hr
            have := hf [c] (List.cons_prefix_cons.mpr ⟨rfl, List.nil_prefix⟩) (by simp) (by
              by_cases h0 : rest = []
              · right
                cases follow with
                | true => rfl
                | false => exact absurd ⟨h0, rfl⟩ hr
              · left
                intro e'; injection e' with _ e'; exact h0 e'.symm)
            rw [show leadsFrom cur [c] = leadStep cur c from rfl, es] at this
            exact absurd hLP this

/-- a path the extractor may use -/
structure LeadsAlong (base : List Bytes) (LP : List Bytes → Prop) (p : List Bytes) : Prop where
  cur : CUR ∉ p
  along : ∀ q, q <+: p → Along base (leadsFrom [] q)
  free : ∀ q, q <+: p → q ≠ [] → q ≠ p → ¬ LP (leadsFrom [] q)

theorem FS.resolve_leads {base : List Bytes} {LP : List Bytes → Prop} {fs : FS} (hl : LinksAt base LP fs) {follow : Bool}
    {p : List Bytes} (hp : LeadsAlong base LP p) (hf : follow = true → ¬ LP (leadsFrom [] p)) {l : Loc} (h : fs.resolve follow p = .ok l) :
    match l with
    | .found q => q = leadsFrom [] p
    | .missing d n => d ++ [n] = leadsFrom [] p := by
  unfold FS.resolve at h
  split at h
  · cases h
  · have := resAux_leads hl p [] hp.cur hp.along (fun q hq h0 hx => ?_) l h
    · clear h; cases l <;> exact this
    by_cases he : q = p
    · rcases hx with hx | hx
      · exact absurd he hx
      · rw [he]; exact hf hx
    · exact hp.free q hq h0 he

theorem LeadsAlong.parent {base : List Bytes} {LP : List Bytes → Prop} {p : List Bytes} (h : LeadsAlong base LP p) : LeadsAlong base LP (parentOf p) := by
  have e : parentOf p = p.dropLast := by
    unfold parentOf
    rw [List.filter_eq_self.mpr (fun c hc => by simp; rintro rfl; exact h.cur hc)]
  rw [e]
  have hpre : p.dropLast <+: p := List.dropLast_prefix p
  refine ⟨fun hc => h.cur (hpre.subset hc), fun q hq => h.along q (hq.trans hpre), fun q hq h0 hne => h.free q (hq.trans hpre) h0 ?_⟩
  rintro rfl
  have h1 := hq.length_le
  rw [List.length_dropLast] at h1
  have : 0 < q.length := List.length_pos_iff.mpr h0
  omega

/-! ## The invariant -/

structure StaysBelow (base : List Bytes) (LP : List Bytes → Prop) (fs0 : FS) (w : World) : Prop where
  next : fs0.next ≤ w.fs.next
  links : LinksAt base LP w.fs
  nodes : ∀ q, ¬ base <+: q → w.fs.nodes q = fs0.nodes q ∨ (q <+: base ∧ fs0.nodes q = none ∧ ∃ t, w.fs.nodes q = some (.dir t))
  inside : ∀ q i, base <+: q → w.fs.nodes q = some (.file i) → ¬ OutsideIno base fs0 i
  data : ∀ i, OutsideIno base fs0 i → w.fs.data i = fs0.data i
  own : ∀ i ∈ w.tasks.map Task.ino, ¬ OutsideIno base fs0 i

section
variable {base : List Bytes} {LP : List Bytes → Prop} {fs0 : FS} {w : World}

theorem StaysBelow.steps (h : StaysBelow base LP fs0 w) (l : List (Nat × WriteRes)) : StaysBelow base LP fs0 (w.steps l) := by
  obtain ⟨a1, a2, _, _, a5, a6⟩ := w.steps_fs l
  have hi := map_ino_of a5
  refine ⟨by rw [a2]; exact h.next, ?_, by rw [a1]; exact h.nodes, by rw [a1]; exact h.inside, ?_, by rw [hi]; exact h.own⟩
  · intro q; rw [a1]; exact h.links q
  · intro i ho
    rw [a6 i (fun hc => h.own i hc ho), h.data i ho]

theorem StaysBelow.pre (h : StaysBelow base LP fs0 w) (env : Env) : StaysBelow base LP fs0 (w.pre env) := by
  have := h.steps (env.sched w.tick)
  exact ⟨this.next, this.links, this.nodes, this.inside, this.data, this.own⟩

theorem StaysBelow.mkdir (h : StaysBelow base LP fs0 w) {p : List Bytes} (hp : LeadsAlong base LP p) {fs : FS}
    (hop : w.fs.mkdir p = .ok ((), fs)) : StaysBelow base LP fs0 { w with fs := fs } := by
  simp only [FS.mkdir] at hop
  split at hop
  · cases hop
  · cases hop
  · rename_i d n hr
    have hnone := FS.resolve_missing hr
    have hloc := FS.resolve_leads h.links hp (fun h => by cases h) hr
    simp only at hloc
    simp only [Except.ok.injEq, Prod.mk.injEq, true_and] at hop
    subst hop
    refine ⟨h.next, ?_, ?_, ?_, h.data, h.own⟩
    · intro q hq t s
      simp only [FS.set_nodes]
      split
      · simp
      · exact h.links q hq t s
    · intro q hq
      simp only [FS.set_nodes]
      split
      · rename_i e
        right
        have ha := hp.along p List.prefix_rfl
        rw [← hloc, ← e] at ha
        refine ⟨ha.resolve_right hq, ?_, _, rfl⟩
        rcases h.nodes q hq with h1 | ⟨_, h1, _⟩
        · rw [← h1, e]; exact hnone
        · exact h1
      · exact h.nodes q hq
    · intro q i hq hn
      simp only [FS.set_nodes] at hn
      split at hn
      · cases hn
      · exact h.inside q i hq hn

theorem StaysBelow.symlink (h : StaysBelow base LP fs0 w) {p : List Bytes} (hp : LeadsAlong base LP p) (hin : base <+: leadsFrom [] p)
    (hLP : LP (leadsFrom [] p)) {target : Bytes} {fs : FS}
    (hop : w.fs.symlink target p = .ok ((), fs)) : StaysBelow base LP fs0 { w with fs := fs } := by
  simp only [FS.symlink] at hop
  split at hop
  · cases hop
  · split at hop
    · cases hop
    · split at hop
      · cases hop
      · cases hop
      · rename_i d n hr
        have hloc := FS.resolve_leads h.links hp (fun h => by cases h) hr
        simp only at hloc
        simp only [Except.ok.injEq, Prod.mk.injEq, true_and] at hop
        subst hop
        refine ⟨h.next, ?_, ?_, ?_, h.data, h.own⟩
        · intro q hq t s
          simp only [FS.set_nodes]
          split
          · rename_i e; intro _; rw [e, hloc]; exact hLP
          · exact h.links q hq t s
        · intro q hq
          simp only [FS.set_nodes]
          rw [if_neg]
          · exact h.nodes q hq
          · intro e; rw [e, hloc] at hq; exact hq hin
        · intro q i hq hn
          simp only [FS.set_nodes] at hn
          split at hn
          · cases hn
          · exact h.inside q i hq hn

theorem StaysBelow.removeFile (h : StaysBelow base LP fs0 w) {p : List Bytes} (hp : LeadsAlong base LP p) (hin : base <+: leadsFrom [] p)
    {fs : FS} (hop : w.fs.removeFile p = .ok ((), fs)) : StaysBelow base LP fs0 { w with fs := fs } := by
  simp only [FS.removeFile] at hop
  split at hop
  · cases hop
  · cases hop
  · rename_i q0 hr
    have hloc := FS.resolve_leads h.links hp (fun h => by cases h) hr
    simp only at hloc
    have key : fs = w.fs.set q0 none := by
      split at hop
      · cases hop
      · cases hop; rfl
    subst key
    refine ⟨h.next, ?_, ?_, ?_, h.data, h.own⟩
    · intro q hq t s
      simp only [FS.set_nodes]
      split
      · simp
      · exact h.links q hq t s
    · intro q hq
      simp only [FS.set_nodes]
      rw [if_neg]
      · exact h.nodes q hq
      · intro e; rw [e, hloc] at hq; exact hq hin
    · intro q i hq hn
      simp only [FS.set_nodes] at hn
      split at hn
      · cases hn
      · exact h.inside q i hq hn

theorem StaysBelow.create (h : StaysBelow base LP fs0 w) (hwf : ∀ q i, fs0.nodes q = some (.file i) → i < fs0.next)
    {p : List Bytes} (hp : LeadsAlong base LP p) (hin : base <+: leadsFrom [] p) {b : Bytes}
    {ino : Nat} {fs : FS} (hop : w.fs.createNew p = .ok (ino, fs)) : StaysBelow base LP fs0 (World.spawn { w with fs := fs } ino b) := by
  simp only [FS.createNew] at hop
  split at hop
  · cases hop
  · split at hop <;> cases hop
  · rename_i d n hr
    have hloc := FS.resolve_leads h.links hp (fun h => by cases h) hr
    simp only at hloc
    simp only [Except.ok.injEq, Prod.mk.injEq] at hop
    obtain ⟨rfl, rfl⟩ := hop
    have hnew : ¬ OutsideIno base fs0 w.fs.next := by
      rintro ⟨q, _, hq⟩
      have := hwf q _ hq
      have := h.next
      omega
    refine ⟨Nat.le_succ_of_le h.next, ?_, ?_, ?_, ?_, ?_⟩
    · intro q hq t s
      simp only [World.spawn, FS.setData, FS.set_nodes]
      split
      · simp
      · exact h.links q hq t s
    · intro q hq
      simp only [World.spawn, FS.setData, FS.set_nodes]
      rw [if_neg]
      · exact h.nodes q hq
      · intro e
        rw [e, hloc] at hq
        exact hq hin
    · intro q i hq hn
      simp only [World.spawn, FS.setData, FS.set_nodes] at hn
      split at hn
      · cases hn; exact hnew
      · exact h.inside q i hq hn
    · intro i ho
      simp only [World.spawn, FS.setData]
      rw [if_neg (by intro e; subst e; exact hnew ho)]
      exact h.data i ho
    · intro i hi
      simp only [World.spawn, List.map_append, List.mem_append, List.map_cons, List.map_nil, List.mem_singleton] at hi
      rcases hi with hi | hi
      · exact h.own i hi
      · subst hi; exact hnew

theorem StaysBelow.reopen (h : StaysBelow base LP fs0 w) {p : List Bytes} (hp : LeadsAlong base LP p) (hin : base <+: leadsFrom [] p)
    (hLP : ¬ LP (leadsFrom [] p)) {b : Bytes}
    {ino : Nat} {fs : FS} (hop : w.fs.openTrunc p = .ok (ino, fs)) : StaysBelow base LP fs0 (World.spawn { w with fs := fs } ino b) := by
  simp only [FS.openTrunc] at hop
  split at hop
  · cases hop
  · cases hop
  · rename_i q hr
    have hloc := FS.resolve_leads h.links hp (fun _ => hLP) hr
    simp only at hloc
    split at hop
    · rename_i i hn
      simp only [Except.ok.injEq, Prod.mk.injEq] at hop
      obtain ⟨rfl, rfl⟩ := hop
      have hnot : ¬ OutsideIno base fs0 i := h.inside q i (by rw [hloc]; exact hin) hn
      refine ⟨h.next, h.links, h.nodes, h.inside, ?_, ?_⟩
      · intro j ho
        simp only [World.spawn, FS.setData]
        rw [if_neg (by intro e; subst e; exact hnot ho)]
        exact h.data j ho
      · intro j hj
        simp only [World.spawn, List.map_append, List.mem_append, List.map_cons, List.map_nil, List.mem_singleton] at hj
        rcases hj with hj | hj
        · exact h.own j hj
        · subst hj; exact hnot
    · cases hop

theorem StaysBelow.isDir (h : StaysBelow base LP fs0 w) (env : Env) (p : List Bytes) : StaysBelow base LP fs0 (w.isDir env p).1 := by
  simp only [World.isDir]
  rcases w.sys_cases env (fun fs => .ok (fs.isDir p, fs)) with ⟨e, h1, _⟩ | ⟨x, fs, _, ho, h1⟩
  · rw [h1]; exact h.pre env
  · rw [h1]; cases ho; exact h.pre env

theorem StaysBelow.sysMkdir (h : StaysBelow base LP fs0 w) (env : Env) {p : List Bytes} (hp : LeadsAlong base LP p) :
    StaysBelow base LP fs0 (w.sys env (fun fs => fs.mkdir p)).1 := by
  rcases w.sys_cases env (fun fs => fs.mkdir p) with ⟨e, h1, _⟩ | ⟨x, fs, _, ho, h1⟩
  · rw [h1]; exact h.pre env
  · rw [h1]; exact (h.pre env).mkdir hp ho

theorem StaysBelow.sysMtime (h : StaysBelow base LP fs0 w) (env : Env) (follow : Bool) (p : List Bytes) :
    StaysBelow base LP fs0 (w.sys env (fun fs => fs.mtime follow p)).1 := by
  rcases w.sys_cases env (fun fs => fs.mtime follow p) with ⟨e, h1, _⟩ | ⟨x, fs, _, ho, h1⟩
  · rw [h1]; exact h.pre env
  · rw [h1]
    have : fs = (w.pre env).fs := by
      simp only [FS.mtime] at ho
      split at ho
      · cases ho
      · cases ho
      · unfold FS.mtimeAt at ho
        split at ho <;> cases ho <;> rfl
    subst this
    exact h.pre env

theorem StaysBelow.createDirAll (env : Env) : ∀ (f : Nat) (w : World) (p : List Bytes), StaysBelow base LP fs0 w → LeadsAlong base LP p →
    StaysBelow base LP fs0 (World.createDirAll env f w p).1 := by
  intro f
  induction f with
  | zero => intro w p h _; exact h
  | succ f ih =>
    intro w p h hp
    have htail : ∀ (w : World) (e : HErr), StaysBelow base LP fs0 w →
        StaysBelow base LP fs0 (match w.isDir env p with | (w, true) => (w, (Except.ok () : Except HErr Unit)) | (w, false) => (w, .error e)).1 := by
      intro w e hw
      have := hw.isDir env p
      revert this
      cases w.isDir env p with
      | mk w' b => intro h; cases b <;> exact h
    have h1 := h.sysMkdir env hp
    simp only [World.createDirAll]
    revert h1
    cases w.sys env (fun fs => fs.mkdir p) with
    | mk w1 r1 =>
      intro h1
      cases r1 with
      | ok u => exact h1
      | error e =>
        cases e with
        | notFound =>
          simp only
          split
          · exact h1
          · have h2 := ih w1 (parentOf p) h1 hp.parent
            revert h2
            cases World.createDirAll env f w1 (parentOf p) with
            | mk w2 r2 =>
              intro h2
              cases r2 with
              | error e => exact h2
              | ok u =>
                have h3 := h2.sysMkdir env hp
                simp only
                revert h3
                cases w2.sys env (fun fs => fs.mkdir p) with
                | mk w3 r3 =>
                  intro h3
                  cases r3 with
                  | ok u => exact h3
                  | error e => exact htail w3 e h3
        | _ => exact htail w1 _ h1

end

section
variable {cfg : XCfg} {LP : List Bytes → Prop} {fs0 : FS} {w : World}

theorem StaysBelow.mkdirs (h : StaysBelow cfg.base LP fs0 w) {p : List Bytes} (hp : LeadsAlong cfg.base LP p) :
    StaysBelow cfg.base LP fs0 (cfg.mkdirs w p).1 := by
  have := StaysBelow.createDirAll cfg.env (p.length + 1) w p h hp
  simp only [XCfg.mkdirs]
  revert this
  cases World.createDirAll cfg.env (p.length + 1) w p with
  | mk w' r => intro h; cases r <;> exact h

theorem StaysBelow.sysReopen (h : StaysBelow cfg.base LP fs0 w) {p : List Bytes} (hp : LeadsAlong cfg.base LP p)
    (hin : cfg.base <+: leadsFrom [] p) (hLP : ¬ LP (leadsFrom [] p)) (b : Bytes) :
    StaysBelow cfg.base LP fs0 (match w.sys cfg.env (fun fs => fs.openTrunc p) with
      | (w, .error e) => (w, (Except.error (EErr.host e) : Except EErr Unit))
      | (w, .ok ino) => (w.spawn ino b, Except.ok ())).1 := by
  rcases w.sys_cases cfg.env (fun fs => fs.openTrunc p) with ⟨e, h1, _⟩ | ⟨x, fs, _, ho, h1⟩
  · rw [h1]; exact h.pre cfg.env
  · rw [h1]; exact (h.pre cfg.env).reopen hp hin hLP ho

theorem StaysBelow.writeFile (h : StaysBelow cfg.base LP fs0 w) (hwf : ∀ q i, fs0.nodes q = some (.file i) → i < fs0.next)
    {p : List Bytes} (hp : LeadsAlong cfg.base LP p) (hin : cfg.base <+: leadsFrom [] p) (hLP : ¬ LP (leadsFrom [] p)) (mtime : Nat) (b : Bytes) :
    StaysBelow cfg.base LP fs0 (cfg.writeFile w p mtime b).1 := by
  have h1 := h.pre cfg.env
  simp only [XCfg.writeFile]
  rcases w.sys_cases cfg.env (fun fs => fs.createNew p) with ⟨e, e1, _⟩ | ⟨ino, fs, _, ho, e1⟩
  · rw [e1]
    cases e with
    | «exists» =>
      cases hmode : cfg.mode with
      | skip => exact h1
      | warn => exact h1
      | error => exact h1
      | overwrite => exact h1.sysReopen hp hin hLP b
      | newer =>
        simp only
        have h2 := h1.sysMtime cfg.env true p
        revert h2
        cases (w.pre cfg.env).sys cfg.env (fun fs => fs.mtime true p) with
        | mk w' r =>
          intro h2
          cases r with
          | error e => exact h2
          | ok t =>
            simp only
            cases newTime mtime with
            | none => exact h2
            | some x =>
              simp only
              split
              · exact StaysBelow.sysReopen (w := w') h2 hp hin hLP b
              · exact h2
    | _ => exact h1
  · rw [e1]; exact h1.create hwf hp hin ho

theorem StaysBelow.writeLink (h : StaysBelow cfg.base LP fs0 w) {p : List Bytes} (hp : LeadsAlong cfg.base LP p)
    (hin : cfg.base <+: leadsFrom [] p) (hLP : LP (leadsFrom [] p)) (mtime : Nat) (target : Bytes) :
    StaysBelow cfg.base LP fs0 (cfg.writeLink w p mtime target).1 := by
  have sym : ∀ {w : World}, StaysBelow cfg.base LP fs0 w → StaysBelow cfg.base LP fs0 (w.sys cfg.env (fun fs => fs.symlink target p)).1 := by
    intro w h
    rcases w.sys_cases cfg.env (fun fs => fs.symlink target p) with ⟨e, h1, _⟩ | ⟨x, fs, _, ho, h1⟩
    · rw [h1]; exact h.pre cfg.env
    · rw [h1]; exact (h.pre cfg.env).symlink hp hin hLP ho
  have rem : ∀ {w : World}, StaysBelow cfg.base LP fs0 w → StaysBelow cfg.base LP fs0 (w.sys cfg.env (fun fs => fs.removeFile p)).1 := by
    intro w h
    rcases w.sys_cases cfg.env (fun fs => fs.removeFile p) with ⟨e, h1, _⟩ | ⟨x, fs, _, ho, h1⟩
    · rw [h1]; exact h.pre cfg.env
    · rw [h1]; exact (h.pre cfg.env).removeFile hp hin ho
  have rep : ∀ {w : World}, StaysBelow cfg.base LP fs0 w → StaysBelow cfg.base LP fs0
      (match w.sys cfg.env (fun fs => fs.removeFile p) with
        | (w, .error e) => (w, (.error (.host e) : Except EErr Unit))
        | (w, .ok ()) =>
          match w.sys cfg.env (fun fs => fs.symlink target p) with
          | (w, .error e) => (w, .error (.host e))
          | (w, .ok ()) => (w, .ok ())).1 := by
    intro w h
    have h1 := rem h
    revert h1
    cases w.sys cfg.env (fun fs => fs.removeFile p) with
    | mk w1 r1 =>
      intro h1
      cases r1 with
      | error e => exact h1
      | ok u =>
        have h2 := sym h1
        simp only
        revert h2
        cases w1.sys cfg.env (fun fs => fs.symlink target p) with
        | mk w2 r2 => intro h2; cases r2 <;> exact h2
  have h1 := sym h
  simp only [XCfg.writeLink]
  revert h1
  cases w.sys cfg.env (fun fs => fs.symlink target p) with
  | mk w1 r1 =>
    intro h1
    cases r1 with
    | ok u => exact h1
    | error e =>
      cases e with
      | «exists» =>
        simp only
        cases cfg.mode with
        | skip => exact h1
        | warn => exact h1
        | error => exact h1
        | overwrite => exact rep h1
        | newer =>
          simp only
          have h2 := h1.sysMtime cfg.env false p
          revert h2
          cases w1.sys cfg.env (fun fs => fs.mtime false p) with
          | mk w2 r2 =>
            intro h2
            cases r2 with
            | error e => exact h2
            | ok u =>
              simp only
              cases newTime mtime with
              | none => exact h2
              | some v =>
                simp only
                split
                · exact rep h2
                · exact h2
      | _ => exact h1

end

/-! ## The walk -/

section
variable {cfg : XCfg} {fs0 : FS} {M : PathMap} {P : List (List Bytes)} {d0 : List Bytes}

/-- where the links of the archive go -/
def LinkPlace (base : List Bytes) (T : PathMap) (q : List Bytes) : Prop :=
  ∃ p n t, T p = some n ∧ n.kind = .link t ∧ q = base ++ leadsFrom [] p

/-- the paths of the entries can be used -/
theorem TreeInside.leads {base : List Bytes} {T : PathMap} (h : TreeInside T) (hb : ∀ c ∈ base, c ≠ CUR ∧ c ≠ PARENT)
    {p : List Bytes} {n : Node} (hp : T p = some n) :
    LeadsAlong base (LinkPlace base T) (base ++ p) ∧ leadsFrom [] (base ++ p) = base ++ leadsFrom [] p ∧
    ((∀ t, n.kind ≠ .link t) → ¬ LinkPlace base T (leadsFrom [] (base ++ p))) := by
  have hcur := h.cur p n hp
  have hs := h.inside p n hp
  have sub : ∀ q, q <+: p → leadsFrom [] (base ++ q) = base ++ leadsFrom [] q := by
    intro q hq
    rw [leadsFrom_append, leadsFrom_plain base [] hb, List.nil_append]
    exact (leadsFrom_inside _ q base rfl (fun hc => hcur (hq.subset hc)) (hs.prefix hq)).1
  -- a prefix of the whole path is one of `base`, or `base` and a prefix of `p`
  have split : ∀ q, q <+: base ++ p → (q <+: base ∧ q ≠ base) ∨ ∃ r, r <+: p ∧ q = base ++ r := by
    intro q hq
    rcases List.prefix_or_prefix_of_prefix hq (List.prefix_append base p) with h1 | ⟨r, rfl⟩
    · by_cases he : q = base
      · exact Or.inr ⟨[], List.nil_prefix, by simp [he]⟩
      · exact Or.inl ⟨h1, he⟩
    · exact Or.inr ⟨r, (List.prefix_append_right_inj base).mp hq, rfl⟩
  have plain : ∀ q, q <+: base → leadsFrom [] q = q := by
    intro q hq
    rw [leadsFrom_plain q [] (fun c hc => hb c (hq.subset hc)), List.nil_append]
  refine ⟨⟨?_, ?_, ?_⟩, sub p List.prefix_rfl, ?_⟩
  · intro hc
    rcases List.mem_append.mp hc with hc | hc
    · exact (hb _ hc).1 rfl
    · exact hcur hc
  · intro q hq
    rcases split q hq with ⟨h1, _⟩ | ⟨r, hr, rfl⟩
    · rw [plain q h1]; exact .inl h1
    · rw [sub r hr]; exact .inr (List.prefix_append _ _)
  · intro q hq _ hne
    rintro ⟨p', n', t, hp', hk, e⟩
    rcases split q hq with ⟨h1, h2⟩ | ⟨r, hr, rfl⟩
    · rw [plain q h1] at e
      have := h1.length_le
      rw [e, List.length_append] at this
      have h0 : leadsFrom [] p' = [] := List.eq_nil_of_length_eq_zero (by omega)
      rw [h0, List.append_nil] at e
      exact h2 e
    · rw [sub r hr, List.append_cancel_left_eq] at e
      exact h.links p' n' t hp' hk p n hp r hr (Or.inl (fun e' => hne (by rw [e']))) e
  · rintro hk ⟨p', n', t, hp', hk', e⟩
    rw [sub p List.prefix_rfl, List.append_cancel_left_eq] at e
    exact h.links p' n' t hp' hk' p n hp p List.prefix_rfl (Or.inr hk) e

def HInv (cfg : XCfg) (fs0 : FS) (T : PathMap) (d0 : List Bytes) (d : List Bytes) (_ : List Bytes → Prop) (ctx : XCtx) : Prop :=
  ∃ r, d = d0 ++ r ∧ ctx.cur = joinPath r ∧ StaysBelow cfg.base (LinkPlace cfg.base T) fs0 ctx.w

theorem Good.heldRule (G : Good cfg.a M P) (hb : ∀ c ∈ cfg.base, c ≠ CUR ∧ c ≠ PARENT)
    (hwf : ∀ q i, fs0.nodes q = some (.file i) → i < fs0.next) (T : TreeInside (M.sub d0)) :
    WalkRule P (cfg.a.entOf P extractBuilder) (extractor cfg) (HInv cfg fs0 (M.sub d0) d0)
      (fun c => StaysBelow cfg.base (LinkPlace cfg.base (M.sub d0)) fs0 c.w) := by
  have prep : ∀ {d c V ctx}, d ++ [c] ∈ P → HInv cfg fs0 (M.sub d0) d0 d V ctx → ∃ r n, d = d0 ++ r ∧ M.sub d0 (r ++ [c]) = some n ∧
      M (d ++ [c]) = some n ∧ ctx.cur = joinPath r ∧ RPath.push ctx.cur c = joinPath (r ++ [c]) ∧
      comps (joinPath (r ++ [c])) = r ++ [c] ∧ (∀ x ∈ r ++ [c], x ≠ CUR) ∧ (∀ x ∈ r ++ [c], ValidName x) ∧
      StaysBelow cfg.base (LinkPlace cfg.base (M.sub d0)) fs0 ctx.w := by
    rintro d c V ctx hp ⟨r, rfl, h1, h4⟩
    obtain ⟨n, hn⟩ := (G.dom _).mp hp
    have hm : M.sub d0 (r ++ [c]) = some n := by rw [PathMap.sub_ne (by simp)]; simpa using hn
    have hval : ∀ x ∈ r ++ [c], ValidName x := fun x hx => G.wf.names _ _ hn x (by
      rcases List.mem_append.mp hx with h | h
      · simp [h]
      · simp [List.mem_singleton.mp h])
    refine ⟨r, n, rfl, hm, hn, h1, ?_, comps_joinPath hval, fun x hx e => T.cur _ _ hm (e ▸ hx), hval, h4⟩
    rw [h1, push_joinPath (fun x hx => hval x (by simp [hx])) (hval c (by simp))]
  have hin : ∀ {p n}, M.sub d0 p = some n → cfg.base <+: leadsFrom [] (cfg.base ++ p) := by
    intro p n hp
    rw [(T.leads hb hp).2.1]; exact List.prefix_append _ _
  refine ⟨?_, ?_, ?_, ?_, ?_⟩
  · rintro d c V x ctx hp ⟨r, _, _, h⟩ _ _; exact h
  · intro d c V e ctx hp hI hV he
    obtain ⟨r, n, hd, hm, hM, hcur, hpush, hcomps, hncur, hval, hX⟩ := prep hp hI
    obtain ⟨n', hn', h⟩ := G.xent hp
    rw [hM] at hn'; cases hn'
    rw [he] at h
    obtain ⟨hname, ⟨s, hk⟩, hmt⟩ := h
    obtain ⟨l1, l2, l3⟩ := T.leads hb hm
    have hnl := l3 (by rw [hk]; simp)
    simp only [extractor, XCfg.onFile, hname, hpush]
    split
    · rename_i e1; split at e1
      · cases e1; exact ⟨r, hd, hcur, hX⟩
      · split at e1
        · cases e1
        · cases e1; exact ⟨r, hd, hcur, hX⟩
        · rename_i b _
          have := hX.writeFile hwf l1 (hin hm) hnl e.mtime b
          rw [XCfg.absPath, hcomps] at e1
          obtain ⟨e1, _⟩ := Prod.mk.injEq .. ▸ e1
          rw [← e1]; exact ⟨r, hd, hcur, this⟩
    · rename_i e1; split at e1
      · cases e1
      · split at e1
        · cases e1; exact hX
        · cases e1
        · rename_i b _
          have := hX.writeFile hwf l1 (hin hm) hnl e.mtime b
          rw [XCfg.absPath, hcomps] at e1
          obtain ⟨e1, _⟩ := Prod.mk.injEq .. ▸ e1
          rw [← e1]; exact this
  · intro d c V e ctx hp hI hV he
    obtain ⟨r, n, hd, hm, hM, hcur, hpush, hcomps, hncur, hval, hX⟩ := prep hp hI
    obtain ⟨n', hn', h⟩ := G.xent hp
    rw [hM] at hn'; cases hn'
    rw [he] at h
    obtain ⟨hname, hk, hmt, hu⟩ := h
    obtain ⟨l1, l2, l3⟩ := T.leads hb hm
    simp only [extractor, XCfg.onLink, hname, hpush]
    have hw := hX.writeLink l1 (hin hm) ⟨_, n, _, hm, hk, l2⟩ e.mtime e.target
    split
    · rename_i e1; split at e1
      · cases e1; exact ⟨r, hd, hcur, hX⟩
      · rw [XCfg.absPath, hcomps] at e1
        obtain ⟨e1, _⟩ := Prod.mk.injEq .. ▸ e1
        rw [← e1]; exact ⟨r, hd, hcur, hw⟩
    · rename_i e1; split at e1
      · cases e1
      · rw [XCfg.absPath, hcomps] at e1
        obtain ⟨e1, _⟩ := Prod.mk.injEq .. ▸ e1
        rw [← e1]; exact hw
  · intro d c V rg e ctx hp hI hV he
    obtain ⟨r, n, hd, hm, hM, hcur, hpush, hcomps, hncur, hval, hX⟩ := prep hp hI
    obtain ⟨n', hn', h⟩ := G.xent hp
    rw [hM] at hn'; cases hn'
    rw [he] at h
    obtain ⟨hname, hk⟩ := h
    obtain ⟨l1, l2, l3⟩ := T.leads hb hm
    have hw := hX.mkdirs l1
    simp only [extractor, XCfg.onEnter, hname, hpush]
    cases cfg.shouldExtract (joinPath (r ++ [c])) true with
    | false => exact ⟨r ++ [c], by rw [hd]; simp, rfl, hX⟩
    | true =>
      simp only [Bool.not_true, Bool.false_eq_true, if_false]
      rw [XCfg.absPath, hcomps]
      revert hw
      cases cfg.mkdirs ctx.w (cfg.base ++ (r ++ [c])) with
      | mk w' res =>
        cases res with
        | error x => exact id
        | ok u => intro hw; exact ⟨r ++ [c], by rw [hd]; simp, rfl, hw⟩
  · intro d c V rg e ctx hp hI0 hI he
    obtain ⟨V0, ctx0, hI0, hV0⟩ := hI0
    obtain ⟨r, n, hd, hm, hM, _, _, hcomps, hncur, hval, _⟩ := prep hp hI0
    obtain ⟨r2, hr, hcur, hX⟩ := hI
    subst hd
    rw [List.append_assoc, List.append_cancel_left_eq] at hr
    subst hr
    simp only [extractor]
    refine ⟨r, rfl, ?_, hX⟩
    simp only [hcur]
    exact pop_joinPath (fun x hx => hval x (by simp [hx])) (hval c (by simp)) (hncur c (by simp))

/-- Whatever fails, however far the extraction gets. -/
theorem Good.held (G : Good cfg.a M P) (hT : SafeTarget fs0 cfg.base) (T : TreeInside (M.sub d0)) {rg : Range}
    (hrg : RangeIs P d0 rg.offset rg.count) {depth : Nat} (hdepth : cfg.a.entries.length < depth)
    (last : List (Nat × WriteRes)) :
    StaysBelow cfg.base (LinkPlace cfg.base (M.sub d0)) fs0 (cfg.extractRange depth rg fs0 last).1 := by
  have h0 : StaysBelow cfg.base (LinkPlace cfg.base (M.sub d0)) fs0 (World.init fs0) := by
    refine ⟨Nat.le_refl _, fun q hq t s h => absurd h (hT.links q hq t s), fun _ _ => .inl rfl, ?_, fun _ _ => rfl, ?_⟩
    · rintro q i hq hn ⟨q', h1, h2⟩
      exact hT.alias q q' i hq h1 hn h2
    · intro i hi; cases hi
  have hbase : LeadsAlong cfg.base (LinkPlace cfg.base (M.sub d0)) cfg.base := by
    have plain : ∀ q, q <+: cfg.base → leadsFrom [] q = q := by
      intro q hq
      rw [leadsFrom_plain q [] (fun c hc => hT.names c (hq.subset hc)), List.nil_append]
    refine ⟨fun h => (hT.names _ h).1 rfl, fun q hq => by rw [plain q hq]; exact .inl hq, ?_⟩
    rintro q hq _ hne ⟨p', n', t, hp', hk, e⟩
    rw [plain q hq] at e
    have := hq.length_le
    rw [e, List.length_append] at this
    have h0 : leadsFrom [] p' = [] := List.eq_nil_of_length_eq_zero (by omega)
    rw [h0, List.append_nil] at e
    exact hne e
  have hstart := StaysBelow.mkdirs (cfg := cfg) h0 hbase
  have key : StaysBelow cfg.base (LinkPlace cfg.base (M.sub d0)) fs0 (cfg.a.walkFrom extractBuilder (extractor cfg) depth rg ⟨[], World.init fs0⟩).1.w := by
    simp only [Archive.walkFrom]
    have e1 : (extractor cfg).onStart ⟨[], World.init fs0⟩ =
      (⟨[], (cfg.mkdirs (World.init fs0) cfg.base).1⟩, (cfg.mkdirs (World.init fs0) cfg.base).2) := rfl
    have e2 : ∀ c, (extractor cfg).onStop c = (c, .ok ()) := fun _ => rfl
    rw [e1]
    revert hstart
    cases cfg.mkdirs (World.init fs0) cfg.base with
    | mk w1 r1 =>
      cases r1 with
      | error x => exact id
      | ok u =>
        intro hstart
        simp only [e2, liftOp]
        have hI : HInv cfg fs0 (M.sub d0) d0 d0 (fun _ => False) ⟨[], w1⟩ := ⟨[], by simp, rfl, hstart⟩
        have hrule := specWalk_rule (G.heldRule hT.names hT.inos T) (fun d => (G.kidsOf d).1) (by
          intro p hp q hq hpre
          obtain ⟨n, hn⟩ := (G.dom p).mp hp
          by_cases hqp : q = p
          · subst hqp; exact hp
          · obtain ⟨k, hk, _⟩ := G.wf.ancestors p n q hn ⟨hq, hqp, hpre⟩
            exact (G.dom q).mpr ⟨k, hk⟩) depth d0 (fun _ => False) ⟨[], w1⟩ (G.deepEnough hdepth d0) hI (fun p hp => hp.elim)
        rw [← G.walkRange_eq extractBuilder (extractor cfg) depth d0 rg ⟨[], w1⟩ hrg] at hrule
        revert hrule
        cases cfg.a.walkRange extractBuilder (extractor cfg) depth rg (⟨[], w1⟩ : XCtx) with
        | mk c2 r2 =>
          cases r2 with
          | error x => exact id
          | ok u => rintro ⟨r, _, _, h⟩; exact h
  have : (cfg.extractRange depth rg fs0 last).1 =
      (cfg.a.walkFrom extractBuilder (extractor cfg) depth rg ⟨[], World.init fs0⟩).1.w.steps last := by
    simp only [XCfg.extractRange]; split <;> rfl
  rw [this]
  exact key.steps last

end
end Arx
