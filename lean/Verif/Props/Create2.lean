import Verif.Proof.AddList
import Verif.Props.Create
/-!
# C44, C54: what `arx create` puts into the archive
-/
namespace Arx

/-- The walk of something that is not a directory, or without recursion. -/
theorem walkItems_single {s : Src} (W : s.WF) {cwd : List Bytes} {ls : ReadDir} {depth : Nat} {root : Bytes} {rc : Bool} {q : List Bytes}
    (hroot : root ≠ []) (h : s.fs.resolve true (namesOf cwd root) = .ok (.found q))
    (hs : rc = false ∨ ∀ t, s.fs.nodes q ≠ some (.dir t)) :
    walkItems cwd s ls depth root rc = [.ok root] := by
  obtain ⟨x, hx, hl⟩ := W.toWF.resolve_found h
  obtain ⟨h1, h2⟩ := FS.resolve_ok h
  obtain ⟨q', h3, h4⟩ := resAux_unfollow 40 _ [] h2
  have hf' := FS.resolve_of h1 h3
  have hrc : ∀ t, s.fs.nodes q = some (.dir t) → rc = false := by
    intro t ht
    rcases hs with hs | hs
    · exact hs
    · exact absurd ht (hs t)
  unfold walkItems
  rw [if_neg hroot, hf']
  simp only
  rcases h4 with rfl | ⟨tg, u, hl'⟩
  · rw [hx]
    cases x with
    | dir t => simp [hrc t hx]
    | file i => rfl
    | link a b => exact absurd rfl (hl rfl a b)
  · rw [hl']
    simp only [h, hx]
    cases x with
    | dir t => simp [hrc t hx]
    | file i => rfl
    | link a b => rfl

theorem stdComps_self_add {env : CEnv} {pre : RPath} {a : Adder} {root : Bytes} :
    a.addSeq env pre root [root] = a.addAll env pre [(root, true)] := by
  simp [Adder.addSeq]

/-- What one call of `add_from_path` adds. -/
theorem addFromPath_list {s : Src} {env : CEnv} (W : s.WF) {pre : RPath} {a a' : Adder} {root : Bytes} {rc : Bool} {r : WalkRun} {q : List Bytes}
    (hsrc : r.src = s) (hls : FullListing s r.ls) (hdepth : ∀ p, s.fs.nodes (q ++ p) ≠ none → p.length ≤ r.depth)
    (hroot : root ≠ []) (hq : s.fs.resolve true (namesOf env.cwd root) = .ok (.found q))
    (h : addFromPath env pre a root rc r = (a', .ok)) :
    ∃ order : List (List Bytes), (∀ p, p ∈ order ↔ s.Has q p ∧ (p = [] ∨ rc = true)) ∧
      a.addAll env pre (order.map (fun p => (p.foldl joinChild root, decide (p = [])))) = (a', .ok) := by
  have hres : (Chan.run env pre root (Chan.start a (walkItems env.cwd r.src r.ls r.depth root rc)) r.sched).result = some .ok := by
    have h' := congrArg Prod.snd h
    simp only [addFromPath] at h'
    cases hx : (Chan.run env pre root (Chan.start a (walkItems env.cwd r.src r.ls r.depth root rc)) r.sched).result with
    | none => rw [hx] at h'; cases h'
    | some o => rw [hx] at h'; simp at h'; rw [h']
  have hadd : (Chan.run env pre root (Chan.start a (walkItems env.cwd r.src r.ls r.depth root rc)) r.sched).adder = a' :=
    congrArg Prod.fst h
  rw [hsrc] at hres hadd
  obtain ⟨x, hx, hl⟩ := W.toWF.resolve_found hq
  have single : walkItems env.cwd s r.ls r.depth root rc = [.ok root] →
      a.addAll env pre ([[]].map (fun p => (p.foldl joinChild root, decide (p = [])))) = (a', .ok) := by
    intro hw
    have := Chan.run_result hres
    rw [hadd, hw] at this
    simpa [goodPrefix, Adder.addSeq] using this
  by_cases hdir : ∃ t, s.fs.nodes q = some (.dir t)
  · cases rc with
    | false =>
      refine ⟨[[]], ?_, single (walkItems_single W hroot hq (Or.inl rfl))⟩
      intro p
      simp only [List.mem_cons, List.not_mem_nil, or_false, Bool.false_eq_true]
      constructor
      · rintro rfl; exact ⟨by simp [Src.Has, hx], rfl⟩
      · exact fun h => h.2
    | true =>
      obtain ⟨order, _, k1, _, _, k2⟩ := C34_whole_tree_partial W hls ⟨hroot, hq, hdir⟩ hdepth hres
      rw [hadd] at k2
      exact ⟨order, fun p => by rw [k1]; simp [Src.Has], k2⟩
  · have hnd : ∀ t, s.fs.nodes q ≠ some (.dir t) := fun t ht => hdir ⟨t, ht⟩
    refine ⟨[[]], ?_, single (walkItems_single W hroot hq (Or.inr hnd))⟩
    intro p
    simp only [List.mem_cons, List.not_mem_nil, or_false]
    constructor
    · rintro rfl; exact ⟨by simp [Src.Has, hx], Or.inl rfl⟩
    · rintro ⟨hp, _⟩
      refine Classical.byContradiction fun hne => ?_
      obtain ⟨y, hy⟩ := Option.ne_none_iff_exists'.mp hp
      obtain ⟨t, ht⟩ := W.dirsTo hy q (List.prefix_append _ _) (by simpa using hne)
      exact hnd t ht

theorem filter_plain {p : List Bytes} (h : ∀ c ∈ p, PlainName c) : p.filter (· ≠ CUR) = p := by
  rw [List.filter_eq_self]
  intro c hc
  simpa using (h c hc).1

/-- a path below a root is stored below it -/
theorem StoredAs.below {root pre : Bytes} {k p : List Bytes} (h : StoredAs root pre k) (hv : ∀ c ∈ p, ValidName c)
    (hp : ∀ c ∈ p, PlainName c) : StoredAs (p.foldl joinChild root) pre (k ++ p) := by
  unfold StoredAs at h ⊢
  rw [text_comps p root hv, List.filter_append, h, filter_plain hp, List.append_assoc]

theorem addInputs_spec {s : Src} {sys : CreateSys} {cwd : List Bytes} {pre : RPath} {rc : Bool} (Q : Quiet (sys.cenv cwd) s) (W : s.WF)
    (hw : ∀ i, (sys.walks i).src = s ∧ FullListing s (sys.walks i).ls ∧ ∀ q, s.fs.nodes q ≠ none → q.length ≤ (sys.walks i).depth) :
    ∀ (roots : List Bytes) (i : Nat) {a a' : Adder} {rs : List AddReq} {m : PathMap} {done : List Bytes},
    (∀ f ∈ roots, f ≠ [] ∧ Present s (namesOf cwd f)) →
    Creator.new.run rs = some a.creator → SpecRun PathMap.empty rs m →
    HoldsInputs s cwd pre (packBytes a.contents) done (rc = true) m →
    (addInputs sys cwd pre rc a i roots).2 = (a', .ok) →
    ∃ rs' m', Creator.new.run rs' = some a'.creator ∧ SpecRun PathMap.empty rs' m' ∧
      HoldsInputs s cwd pre (packBytes a'.contents) (done ++ roots) (rc = true) m' := by
  intro roots
  induction roots with
  | nil =>
    intro i a a' rs m done _ h1 h2 h3 h
    simp only [addInputs, Prod.mk.injEq, and_true] at h
    subst h
    exact ⟨rs, m, h1, h2, by simpa using h3⟩
  | cons f fs ih =>
    intro i a a' rs m done hpres h1 h2 h3 h
    rw [addInputs] at h
    cases hadd : addFromPath (sys.cenv cwd) pre a f rc (sys.walks i) with
    | mk a1 o =>
      rw [hadd] at h
      cases o with
      | ok =>
        simp only at h
        obtain ⟨w1, w2, w3⟩ := hw i
        obtain ⟨hne, q, hq⟩ := hpres f (by simp)
        have hdepth : ∀ p, s.fs.nodes (q ++ p) ≠ none → p.length ≤ (sys.walks i).depth := by
          intro p hp
          have := w3 _ hp
          simp only [List.length_append] at this; omega
        obtain ⟨order, ho, hall⟩ := addFromPath_list (env := sys.cenv cwd) W w1 w2 hdepth hne hq hadd
        obtain ⟨rs1, m1, k1, k2, k3, k4⟩ := Adder.addAll_spec Q W _ h1 h2 hall
        obtain ⟨x, hx, hl⟩ := W.toWF.resolve_found hq
        have hnames : ∀ p, s.Has q p → (∀ c ∈ p, ValidName c) ∧ ∀ c ∈ p, PlainName c := by
          intro p hp
          obtain ⟨y, hy⟩ := Option.ne_none_iff_exists'.mp hp
          exact ⟨fun c hc => (W.names _ y hy c (by simp [hc])).1, fun c hc => (W.names _ y hy c (by simp [hc])).2⟩
        have hhas0 : s.Has q [] := by simp [Src.Has, hx]
        -- the root itself
        obtain ⟨k, hk, _⟩ := k4.held (f, true) (List.mem_map.mpr ⟨[], (ho []).mpr ⟨hhas0, Or.inl rfl⟩, by simp⟩)
        simp only at hk
        have hat : InputAt s cwd pre f k q := ⟨hk, hq, hhas0⟩
        -- where each path leads
        have hleads : ∀ p, s.Has q p →
            s.fs.resolve (decide (p = [])) (namesOf cwd (p.foldl joinChild f)) = .ok (.found (q ++ p)) := by
          intro p hp
          by_cases e : p = []
          · subst e; simpa using hq
          · obtain ⟨y, hy⟩ := Option.ne_none_iff_exists'.mp hp
            obtain ⟨u, hu⟩ := W.dirsTo hy q (List.prefix_append _ _) (by simpa using e)
            rw [text_resolve _ _ hne (hnames p hp).1, decide_eq_false e]
            exact W.resolve_below hq hu e hy
        obtain ⟨rs', m', g1, g2, g3⟩ := ih (i + 1) (a := a1) (done := done ++ [f]) (fun g hg => hpres g (by simp [hg])) k1 k2 (by
          constructor
          · intro root hr
            simp only [List.mem_append, List.mem_cons, List.not_mem_nil, or_false] at hr
            rcases hr with hr | rfl
            · obtain ⟨k', q', e1, e2⟩ := h3.all root hr
              refine ⟨k', q', e1, fun p p1 p2 p3 p4 => ?_⟩
              rcases e2 p p1 p2 p3 p4 with e | ⟨t, n, f1, f2, f3⟩
              · cases hmk : m (k' ++ p) with
                | none => rw [hmk] at e; exact absurd e.special p4
                | some n => rw [k4.keeps _ n hmk]; rw [hmk] at e; exact Or.inl (e.mono k3)
              · exact Or.inr ⟨t, n, f1, k4.keeps _ n f2, f3⟩
            · refine ⟨k, q, hat, fun p p1 p2 p3 p4 => ?_⟩
              obtain ⟨k', e1, e2⟩ := k4.held _ (List.mem_map.mpr ⟨p, (ho p).mpr ⟨p1, p2⟩, rfl⟩)
              simp only at e1 e2
              have hk' := StoredAs.unique e1 (hk.below (hnames p p1).1 (hnames p p1).2)
              subst hk'
              obtain ⟨q', e3, e4, e5, _⟩ := e2 p3
              have := hleads p p1
              simp only [CreateSys.cenv] at e3
              rw [this] at e3
              cases e3
              exact e5 p4
          · intro z n hz
            rcases k4.only z n hz with hz | ⟨y, hy, k', q', e1, e2, e3⟩
            · obtain ⟨root, hr, hh⟩ := h3.only z n hz
              exact ⟨root, by simp [hr], hh⟩
            · obtain ⟨p, hp, rfl⟩ := List.mem_map.mp hy
              obtain ⟨p1, p2⟩ := (ho p).mp hp
              simp only at e1 e2
              have hk' := StoredAs.unique e1 (hk.below (hnames p p1).1 (hnames p p1).2)
              subst hk'
              have := hleads p p1
              simp only [CreateSys.cenv] at e2
              rw [this] at e2
              cases e2
              refine ⟨f, by simp, k, q, p, hat, p1, p2, ?_⟩
              rcases e3 with ⟨z1, z2, z3⟩ | ⟨rfl, z2, z3⟩
              · exact ⟨z1, z3, fun e => absurd e z2⟩
              · exact ⟨z2, List.prefix_refl _, fun _ => z3⟩)
          (by cases hxx : (addInputs sys cwd pre rc a1 (i + 1) fs).2 with
              | mk u v => rw [hxx] at h; simpa using h)
        exact ⟨rs', m', g1, g2, by simpa using g3⟩
      | path e => cases h
      | notInPrefix => cases h
      | host e => cases h
      | add e => cases h
      | panic => cases h

theorem HoldsInputs.congr {s : Src} {cwd : List Bytes} {pre : RPath} {bytes : ContentAddr → GetBytes} {roots : List Bytes} {r r' : Prop}
    {m : PathMap} (h : HoldsInputs s cwd pre bytes roots r m) (hr : roots ≠ [] → (r ↔ r')) : HoldsInputs s cwd pre bytes roots r' m where
  all root hroot := by
    have := hr (List.ne_nil_of_mem hroot)
    obtain ⟨k, q, h1, h2⟩ := h.all root hroot
    exact ⟨k, q, h1, fun p p1 p2 => h2 p p1 (p2.imp_right this.mpr)⟩
  only z n hz := by
    obtain ⟨root, hroot, k, q, p, h1, h2, h3, h4⟩ := h.only z n hz
    exact ⟨root, hroot, k, q, p, h1, h2, h3.imp_right (hr (List.ne_nil_of_mem hroot)).mp, h4⟩

theorem StartsIn.iff {o : CreateOpts} {sys : CreateSys} {cwd : List Bytes} :
    StartsIn o sys cwd ↔ sys.chdir o.baseDir = some cwd := by
  unfold StartsIn CreateSys.chdir LeadsTo
  cases o.baseDir with
  | none => simp [eq_comm]
  | some d =>
    simp only
    split
    · rename_i h; simp [h]
    · rename_i h
      cases hr : sys.atChdir.fs.resolve true (namesOf sys.cwd d) with
      | error e => simp
      | ok l =>
        cases l with
        | missing a b => simp
        | found q =>
          simp only
          cases hn : sys.atChdir.fs.nodes q with
          | none =>
            simp only [reduceCtorEq, iff_false]
            rintro ⟨_, e, t, ht⟩
            cases e
            rw [hn] at ht; cases ht
          | some x =>
            cases x with
            | dir t =>
              constructor
              · rintro ⟨_, e, _⟩; cases e; rfl
              · intro e; cases e; exact ⟨h, rfl, t, hn⟩
            | file i =>
              simp only [reduceCtorEq, iff_false]
              rintro ⟨_, e, t, ht⟩
              cases e
              rw [hn] at ht; cases ht
            | link a b =>
              simp only [reduceCtorEq, iff_false]
              rintro ⟨_, e, t, ht⟩
              cases e
              rw [hn] at ht; cases ht

/-- A base directory that does not exist makes the command fail before anything is read or written. -/
theorem CreateOpts.no_base_dir {o : CreateOpts} {sys : CreateSys} (h : ∀ cwd, ¬ StartsIn o sys cwd) :
    ∀ e ∈ (o.run sys).1, e.isWritten = false := by
  intro e he
  cases hw : e.isWritten with
  | false => rfl
  | true =>
    exfalso
    cases e with
    | written N a =>
      have : ∃ cwd, sys.chdir o.baseDir = some cwd := by
        cases hc : sys.chdir o.baseDir with
        | some cwd => exact ⟨cwd, rfl⟩
        | none =>
          exfalso
          unfold CreateOpts.run at he
          rw [hc] at he
          split at he
          · simp at he
          · split at he
            · simp at he
            · simp only at he
              split at he
              · simp at he
              · simp at he
              · split at he <;> simp at he
      obtain ⟨cwd, hc⟩ := this
      exact h cwd (StartsIn.iff.mpr hc)
    | _ => cases hw

/-- when `create` writes an archive -/
theorem CreateOpts.run_written {o : CreateOpts} {sys : CreateSys} {N : List Bytes} {a : Adder}
    (h : CreateEv.written N a ∈ (o.run sys).1) :
    ∃ cwd evs, sys.chdir o.baseDir = some cwd ∧ o.addAll sys cwd = (evs, a, .ok) := by
  unfold CreateOpts.run at h
  split at h
  · simp at h
  · split at h
    · simp at h
    · simp only at h
      split at h
      · simp at h
      · simp at h
      · split at h
        · simp at h
        · cases hch : sys.chdir o.baseDir with
          | none => rw [hch] at h; simp at h
          | some cwd =>
            rw [hch] at h
            simp only at h
            split at h
            · simp at h
            · have hev := o.addAll_events sys cwd
              revert hev h
              cases hAA : o.addAll sys cwd with
              | mk evs ar =>
                cases ar with
                | mk a' r =>
                  intro h hev
                  have no : CreateEv.written N a ∉ evs := fun hm => by
                    have := (hev _ hm).1
                    cases this
                  cases r with
                  | err => simp only [List.mem_cons] at h; rcases h with h | h; cases h; exact absurd h no
                  | panic => simp only [List.mem_cons] at h; rcases h with h | h; cases h; exact absurd h no
                  | ok =>
                    simp only [List.cons_append, List.mem_cons, List.mem_append, List.not_mem_nil, or_false] at h
                    rcases h with h | h | h
                    · cases h
                    · exact absurd h no
                    · cases h; exact ⟨cwd, evs, rfl, hAA⟩

/-- what the command with input files makes -/
theorem CreateOpts.inputs_spec {o : CreateOpts} {sys : CreateSys} {s : Src} {cwd N : List Bytes} {a : Adder} (hacc : o.Accepted)
    (hfl : o.fileList = none) (hcwd : StartsIn o sys cwd) (Q : Quiet (sys.cenv cwd) s) (W : s.WF) (hcheck : sys.atCheck = s)
    (hw : ∀ i, (sys.walks i).src = s ∧ FullListing s (sys.walks i).ls ∧ ∀ q, s.fs.nodes q ≠ none → q.length ≤ (sys.walks i).depth)
    (h : CreateEv.written N a ∈ (o.run sys).1) :
    ∃ rs m, Creator.new.run rs = some a.creator ∧ SpecRun PathMap.empty rs m ∧
      HoldsInputs s cwd (o.stripPrefix.getD []) (packBytes a.contents) o.infiles o.Recurses m := by
  obtain ⟨cwd', evs, hcwd', hadd⟩ := o.run_written h
  rw [StartsIn.iff.mp hcwd] at hcwd'; cases hcwd'
  unfold CreateOpts.addAll at hadd
  simp only [hfl] at hadd
  split at hadd
  · cases hadd
  · split at hadd
    · cases hadd
    · rename_i hci
      have hpres : ∀ f ∈ o.infiles, f ≠ [] ∧ Present s (namesOf cwd f) := by
        intro f hf
        have hci' : checkInputs sys cwd o.infiles = true := by simpa using hci
        have := (List.all_eq_true.mp hci') f hf
        simp only [Bool.and_eq_true, decide_eq_true_eq, hcheck] at this
        exact ⟨this.1, Src.exists_iff.mp this.2⟩
      have h2 : (addInputs sys cwd (o.stripPrefix.getD []) o.recursion Adder.new 0 o.infiles).2 = (a, .ok) := by
        simp only [Prod.mk.injEq] at hadd
        obtain ⟨_, e1, e2⟩ := hadd
        revert e1 e2
        cases (addInputs sys cwd (o.stripPrefix.getD []) o.recursion Adder.new 0 o.infiles).2 with
        | mk u v =>
          intro e1 e2
          simp only at e1 e2
          subst e1
          cases v <;> first | rfl | cases e2
      obtain ⟨rs, m, g1, g2, g3⟩ := addInputs_spec Q W hw o.infiles 0 (a := Adder.new) (rs := []) (m := PathMap.empty) (done := [])
        hpres rfl (.nil _) ⟨fun _ hr => (by cases hr), fun _ _ hz => (by cases hz)⟩ h2
      refine ⟨rs, m, g1, g2, ?_⟩
      simp only [List.nil_append] at g3
      refine g3.congr (fun hne => ?_)
      have h1 := hacc.1
      unfold CreateOpts.recursion CreateOpts.Recurses
      rw [hfl]
      have : o.infiles.isEmpty = false := by simpa using hne
      rw [this]
      cases hr : o.recurse <;> cases hn : o.noRecurse <;> simp_all

/-- **C44 (partial), input files.** Let `arx create` with input files (no file list) write an archive, whatever
the other options, from a source `s` that does not change meanwhile, whose directories can be listed (in any
order), with any interleaving of the threads. The archive holds what the inputs lead to and, exactly if
`--no-recurse` is not given, everything below; each at its path relative to the working directory without
the prefix; and nothing else but the directories above. -/
theorem C44_inputs_partial {o : CreateOpts} {sys : CreateSys} {s : Src} {cwd N : List Bytes} {a : Adder} (hacc : o.Accepted)
    (hfl : o.fileList = none) (hcwd : StartsIn o sys cwd) (Q : Quiet (sys.cenv cwd) s) (W : s.WF) (hcheck : sys.atCheck = s)
    (hw : ∀ i, (sys.walks i).src = s ∧ FullListing s (sys.walks i).ls ∧ ∀ q, s.fs.nodes q ≠ none → q.length ≤ (sys.walks i).depth)
    (h : CreateEv.written N a ∈ (o.run sys).1) :
    ∃ rs m, SpecRun PathMap.empty rs m ∧
      (∀ order, IsLayout a.creator order → a.creator.store.length < 2 ^ 32 → Written rs (writeArchive a.creator order)) ∧
      HoldsInputs s cwd (o.stripPrefix.getD []) (packBytes a.contents) o.infiles o.Recurses m := by
  obtain ⟨rs, m, g1, g2, g3⟩ := CreateOpts.inputs_spec hacc hfl hcwd Q W hcheck hw h
  exact ⟨rs, m, g2, fun order h1 h2 => ⟨_, order, g1, h1, rfl, h2⟩, g3⟩

/-- what the command with a file list makes -/
theorem CreateOpts.list_spec {o : CreateOpts} {sys : CreateSys} {s : Src} {cwd N : List Bytes} {a : Adder} {l : Bytes}
    (hfl : o.fileList = some l) (hcwd : StartsIn o sys cwd) (Q : Quiet (sys.cenv cwd) s) (W : s.WF)
    (h : CreateEv.written N a ∈ (o.run sys).1) :
    ∃ text lines rs m, sys.text (absFile sys.cwd l) = some text ∧ TextOf lines text ∧ Creator.new.run rs = some a.creator ∧
      SpecRun PathMap.empty rs m ∧
      AfterAdding s cwd (o.stripPrefix.getD []) (packBytes a.contents) (lines.map (fun p => (p, o.followSymlink))) PathMap.empty m := by
  obtain ⟨cwd', evs, hcwd', hadd⟩ := o.run_written h
  rw [StartsIn.iff.mp hcwd] at hcwd'; cases hcwd'
  unfold CreateOpts.addAll at hadd
  simp only [hfl] at hadd
  cases ht : sys.text (absFile sys.cwd l) with
  | none => rw [ht] at hadd; simp [readLines] at hadd
  | some text =>
    rw [ht] at hadd
    cases hr : readLines (some text) with
    | none => rw [hr] at hadd; simp at hadd
    | some lines =>
      rw [hr] at hadd
      obtain ⟨ls, hls⟩ := TextOf.exists text
      have hlines : lines = ls := by
        have := TextOf.lines hls
        simp only [readLines] at hr
        split at hr
        · cases hr; exact this
        · cases hr
      subst hlines
      simp only [Prod.mk.injEq] at hadd
      obtain ⟨_, e1, e2⟩ := hadd
      have hall : Adder.new.addAll (sys.cenv cwd) (o.stripPrefix.getD []) (lines.map (fun p => (p, o.followSymlink))) = (a, .ok) := by
        simp only [Adder.addFromList] at e1 e2
        revert e1 e2
        cases Adder.new.addAll (sys.cenv cwd) (o.stripPrefix.getD []) (lines.map (fun p => (p, o.followSymlink))) with
        | mk u v =>
          intro e1 e2
          simp only at e1 e2
          subst e1
          cases v <;> first | rfl | cases e2
      obtain ⟨rs, m, g1, g2, _, g4⟩ := Adder.addAll_spec Q W _ (a := Adder.new) (rs := []) (m := PathMap.empty) rfl (.nil _) hall
      exact ⟨text, lines, rs, m, rfl, hls, g1, g2, g4⟩

/-- **C44 (partial), file list.** Let `arx create` with a file list write an archive, in the same conditions. The
archive holds exactly the entries named by the lines of the list — followed to what they lead to if they are
symbolic links, exactly if `--follow-symlink` is given — and the directories above them. This is what is asked
for without `--recurse`. -/
theorem C44_list_partial {o : CreateOpts} {sys : CreateSys} {s : Src} {cwd N : List Bytes} {a : Adder} {l : Bytes}
    (hfl : o.fileList = some l) (hcwd : StartsIn o sys cwd) (Q : Quiet (sys.cenv cwd) s) (W : s.WF)
    (h : CreateEv.written N a ∈ (o.run sys).1) :
    ∃ text lines rs m, sys.text (absFile sys.cwd l) = some text ∧ TextOf lines text ∧ SpecRun PathMap.empty rs m ∧
      (∀ order, IsLayout a.creator order → a.creator.store.length < 2 ^ 32 → Written rs (writeArchive a.creator order)) ∧
      AfterAdding s cwd (o.stripPrefix.getD []) (packBytes a.contents) (lines.map (fun p => (p, o.followSymlink))) PathMap.empty m := by
  obtain ⟨text, lines, rs, m, h1, h2, g1, g2, g4⟩ := CreateOpts.list_spec hfl hcwd Q W h
  exact ⟨text, lines, rs, m, h1, h2, g2, fun order h1 h2 => ⟨_, order, g1, h1, rfl, h2⟩, g4⟩

/-- name and kind of the entries of the archive an effect writes -/
def CreateEv.stored : CreateEv → Option (List (Bytes × Kind))
  | .written _ a => some (a.creator.store.map (fun e => (e.name, e.kind)))
  | _ => none

theorem CreateEv.exists_written {evs : List CreateEv} {l : List (Bytes × Kind)} (h : evs.filterMap CreateEv.stored = [l]) :
    ∃ N a, CreateEv.written N a ∈ evs ∧ a.creator.store.map (fun e => (e.name, e.kind)) = l := by
  have hm : l ∈ evs.filterMap CreateEv.stored := by rw [h]; simp
  obtain ⟨e, he, hl⟩ := List.mem_filterMap.mp hm
  cases e with
  | written N a => exact ⟨N, a, he, by simpa [CreateEv.stored] using hl⟩
  | _ => cases hl

/-- the hypotheses of `C44_inputs_partial` are met: `arx create -o x.arx d` -/
theorem exCreate_written : ∃ N a, CreateEv.written N a ∈ (exCreate.run exSys).1 ∧ a.creator.store.map (fun e => (e.name, e.kind)) =
    [(ascii "d", .dir), (ascii "s", .dir), (ascii "l", .link (ascii "../f")), (ascii "f", .file 2 ⟨1, 0⟩)] :=
  CreateEv.exists_written (by decide +kernel)

example : (∀ q, exSrc.fs.nodes q ≠ none → q.length ≤ 5) ∧ StartsIn exCreate exSys [] ∧ Quiet (exSys.cenv []) exSrc ∧
    exSrc.WF ∧ exSys.atCheck = exSrc ∧ FullListing exSrc exLs :=
  ⟨fun q hq => by
    have := exSrc_paths hq
    simp only [List.mem_cons, List.not_mem_nil, or_false] at this
    rcases this with e | e | e | e | e | e <;> rw [e] <;> simp, rfl, exEnv_quiet, exSrc_wf, rfl, exLs_full⟩

/-- `arx create -o x.arx -L list --recurse`, where the list has the line `d` -/
def exListOpts : CreateOpts := ⟨some (ascii "x.arx"), none, none, [], some (ascii "list"), true, false, false, false, false⟩

/-- **C44 is false for file lists**: `--recurse` is accepted and asks for recursion, and makes no difference, in
any command with a file list; so of a listed directory `d`, which contains the file `d/f`, only `d` itself is
archived. -/
theorem C44_counterexample :
    (∀ (o : CreateOpts) (sys : CreateSys) (l : Bytes), o.fileList = some l → { o with recurse := true }.run sys = { o with recurse := false }.run sys) ∧
    exListOpts.Accepted ∧ exListOpts.Recurses ∧ exSrc.fs.nodes [ascii "d", ascii "f"] = some (.file 0) ∧
    (exListOpts.run exSys).2 = .ok ∧
    ∃ N a, CreateEv.written N a ∈ (exListOpts.run exSys).1 ∧
      a.creator.store.map (fun e => (e.name, e.kind)) = [(ascii "d", .dir)] := by
  refine ⟨?_, ⟨by decide, by decide, by decide⟩, rfl, rfl, by decide +kernel, CreateEv.exists_written (by decide +kernel)⟩
  intro o sys l h
  simp only [CreateOpts.run, CreateOpts.addAll, h]

/-- **C54 is false for input files**: `--follow-symlink` makes no difference in any command with input files; so
the link `d/s/l` to the file `d/f` is archived as a link though following is asked for. -/
theorem C54_counterexample :
    (∀ (o : CreateOpts) (sys : CreateSys), o.fileList = none →
      { o with followSymlink := true }.run sys = { o with followSymlink := false }.run sys) ∧
    exSrc.fs.nodes [ascii "d", ascii "s", ascii "l"] = some (.link (ascii "../f") 3000000000) ∧
    ∃ N a, CreateEv.written N a ∈ ({ exCreate with followSymlink := true }.run exSys).1 ∧
      a.creator.store.map (fun e => (e.name, e.kind)) =
        [(ascii "d", .dir), (ascii "s", .dir), (ascii "l", .link (ascii "../f")), (ascii "f", .file 2 ⟨1, 0⟩)] := by
  refine ⟨?_, rfl, CreateEv.exists_written (by decide +kernel)⟩
  intro o sys h
  simp only [CreateOpts.run, CreateOpts.addAll, h, CreateOpts.recursion]

end Arx
