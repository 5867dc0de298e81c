import Verif.Proof.FirstInput
import Verif.Props.Trip
import Verif.Props.Seen
/-!
# C82: `arx create` is reproducible
-/
namespace Arx

/-! ## Exactly what the command archives -/

/-- the adds of the command with input files -/
theorem CreateOpts.inputs_added {o : CreateOpts} {sys : CreateSys} {s : Src} {cwd N : List Bytes} {a : Adder}
    (hfl : o.fileList = none) (hcwd : StartsIn o sys cwd) (hcheck : sys.atCheck = s) (h : CreateEv.written N a ∈ (o.run sys).1) :
    (∀ f ∈ o.infiles, f ≠ [] ∧ Present s (namesOf cwd f)) ∧
    (addInputs sys cwd (o.stripPrefix.getD []) o.recursion Adder.new 0 o.infiles).2 = (a, .ok) := by
  obtain ⟨cwd', evs, hcwd', hadd⟩ := o.run_written h
  rw [StartsIn.iff.mp hcwd] at hcwd'; cases hcwd'
  unfold CreateOpts.addAll at hadd
  simp only [hfl] at hadd
  split at hadd
  · cases hadd
  · split at hadd
    · cases hadd
    · rename_i hci
      refine ⟨?_, ?_⟩
      · intro f hf
        have hci' : checkInputs sys cwd o.infiles = true := by simpa using hci
        have := (List.all_eq_true.mp hci') f hf
        simp only [Bool.and_eq_true, decide_eq_true_eq, hcheck] at this
        exact ⟨this.1, Src.exists_iff.mp this.2⟩
      · simp only [Prod.mk.injEq] at hadd
        obtain ⟨_, e1, e2⟩ := hadd
        revert e1 e2
        cases (addInputs sys cwd (o.stripPrefix.getD []) o.recursion Adder.new 0 o.infiles).2 with
        | mk u v =>
          intro e1 e2
          simp only at e1 e2
          subst e1
          cases v <;> first | rfl | cases e2

/-- an absolute input file is refused -/
theorem CreateOpts.inputs_relative {o : CreateOpts} {sys : CreateSys} {N : List Bytes} {a : Adder}
    (hfl : o.fileList = none) (h : CreateEv.written N a ∈ (o.run sys).1) : ∀ f ∈ o.infiles, f.head? ≠ some SEP := by
  obtain ⟨cwd', evs, hcwd', hadd⟩ := o.run_written h
  unfold CreateOpts.addAll at hadd
  simp only [hfl] at hadd
  split at hadd
  · cases hadd
  · rename_i hany
    intro f hf e
    exact hany (List.any_eq_true.mpr ⟨f, hf, by simp [e]⟩)

theorem FirstPath.empty {s : Src} {cwd : List Bytes} {pre : RPath} {bytes : ContentAddr → GetBytes} : FirstPath s cwd pre bytes [] PathMap.empty :=
  ⟨fun _ _ => rfl, fun A x B _ e => by simp at e, fun A x B _ _ e => by simp at e⟩

theorem CreateOpts.inputs_exact {o : CreateOpts} {sys : CreateSys} {s : Src} {cwd N : List Bytes} {a : Adder}
    (hfl : o.fileList = none) (hcwd : StartsIn o sys cwd) (Q : Quiet (sys.cenv cwd) s) (W : s.WF) (hcheck : sys.atCheck = s)
    (hw : ∀ i, (sys.walks i).src = s ∧ FullListing s (sys.walks i).ls ∧ ∀ q, s.fs.nodes q ≠ none → q.length ≤ (sys.walks i).depth)
    (h : CreateEv.written N a ∈ (o.run sys).1) :
    ∃ rs m, Creator.new.run rs = some a.creator ∧ SpecRun PathMap.empty rs m ∧
      FirstInput s cwd (o.stripPrefix.getD []) (packBytes a.contents) o.recursion o.infiles m := by
  obtain ⟨hpres, hadd⟩ := CreateOpts.inputs_added hfl hcwd hcheck h
  obtain ⟨L, hL, hadd⟩ := addInputs_walked_ok W hw o.infiles 0 hpres hadd
  obtain ⟨rs, m, h1, h2, h3⟩ := Adder.addAll_exact Q W L [] (rs := []) (m := PathMap.empty) rfl (.nil _) FirstPath.empty hadd
  have hall := ((Adder.addAll_iff Q W (pre := o.stripPrefix.getD []) L).mp (by rw [hadd])).1
  exact ⟨rs, m, h1, h2, h3.toInput W hL hall⟩

/-- **C44, input files, exactly.** As `C44_inputs_partial`, with the whole content of the archive: at each path there is what the first
input stands for that makes an entry there. -/
theorem C44_inputs_exact {o : CreateOpts} {sys : CreateSys} {s : Src} {cwd N : List Bytes} {a : Adder} (hacc : o.Accepted)
    (hfl : o.fileList = none) (hcwd : StartsIn o sys cwd) (Q : Quiet (sys.cenv cwd) s) (W : s.WF) (hcheck : sys.atCheck = s)
    (hw : ∀ i, (sys.walks i).src = s ∧ FullListing s (sys.walks i).ls ∧ ∀ q, s.fs.nodes q ≠ none → q.length ≤ (sys.walks i).depth)
    (h : CreateEv.written N a ∈ (o.run sys).1) :
    ∃ rs m, SpecRun PathMap.empty rs m ∧
      (∀ order, IsLayout a.creator order → a.creator.store.length < 2 ^ 32 → Written rs (writeArchive a.creator order)) ∧
      FirstInput s cwd (o.stripPrefix.getD []) (packBytes a.contents) (!o.noRecurse) o.infiles m := by
  obtain ⟨rs, m, h1, h2, h3⟩ := CreateOpts.inputs_exact hfl hcwd Q W hcheck hw h
  refine ⟨rs, m, h2, fun order h4 h5 => ⟨_, order, h1, h4, rfl, h5⟩, ?_⟩
  by_cases he : o.infiles = []
  · rw [he] at h3 ⊢
    exact ⟨fun z _ => h3.nothing z (by simp), fun A f B _ e => by simp at e, fun A f B _ _ _ e => by simp at e⟩
  · have : o.recursion = !o.noRecurse := by
      have := hacc.1
      unfold CreateOpts.recursion
      have : o.infiles.isEmpty = false := by simpa using he
      rw [this]
      cases hr : o.recurse <;> cases hn : o.noRecurse <;> simp_all
    rw [← this]; exact h3

theorem CreateOpts.list_exact' {o : CreateOpts} {sys : CreateSys} {s : Src} {cwd N : List Bytes} {a : Adder} {l : Bytes}
    (hfl : o.fileList = some l) (hcwd : StartsIn o sys cwd) (Q : Quiet (sys.cenv cwd) s) (W : s.WF)
    (h : CreateEv.written N a ∈ (o.run sys).1) :
    ∃ text lines rs m, sys.text (absFile sys.cwd l) = some text ∧ TextOf lines text ∧ Creator.new.run rs = some a.creator ∧
      SpecRun PathMap.empty rs m ∧
      FirstPath s cwd (o.stripPrefix.getD []) (packBytes a.contents) (lines.map (fun p => (p, o.followSymlink))) m ∧
      ∀ p ∈ lines, Archivable s cwd (o.stripPrefix.getD []) (p, o.followSymlink) := by
  obtain ⟨cwd', evs, hcwd', hadd⟩ := o.run_written h
  rw [StartsIn.iff.mp hcwd] at hcwd'; cases hcwd'
  unfold CreateOpts.addAll at hadd
  simp only [hfl] at hadd
  cases ht : sys.text (absFile sys.cwd l) with
  | none => rw [ht] at hadd; simp [readLines] at hadd
  | some text =>
    rw [ht] at hadd
    cases hr : readLines (some text) with
    | none => rw [hr] at hadd; simp at hadd
    | some lines =>
      rw [hr] at hadd
      obtain ⟨ls, hls⟩ := TextOf.exists text
      have hlines : lines = ls := by
        have := TextOf.lines hls
        simp only [readLines] at hr
        split at hr
        · cases hr; exact this
        · cases hr
      subst hlines
      simp only [Prod.mk.injEq] at hadd
      obtain ⟨_, e1, e2⟩ := hadd
      have hall : Adder.new.addAll (sys.cenv cwd) (o.stripPrefix.getD []) (lines.map (fun p => (p, o.followSymlink))) = (a, .ok) := by
        simp only [Adder.addFromList] at e1 e2
        revert e1 e2
        cases Adder.new.addAll (sys.cenv cwd) (o.stripPrefix.getD []) (lines.map (fun p => (p, o.followSymlink))) with
        | mk u v =>
          intro e1 e2
          simp only at e1 e2
          subst e1
          cases v <;> first | rfl | cases e2
      obtain ⟨rs, m, g1, g2, g4⟩ := Adder.addAll_exact Q W _ [] (rs := []) (m := PathMap.empty) rfl (.nil _) FirstPath.empty hall
      have hiff := ((Adder.addAll_iff Q W (pre := o.stripPrefix.getD []) _).mp (by rw [hall])).1
      exact ⟨text, lines, rs, m, rfl, hls, g1, g2, g4, fun p hp => hiff _ (List.mem_map.mpr ⟨p, hp, rfl⟩)⟩

theorem CreateOpts.list_exact {o : CreateOpts} {sys : CreateSys} {s : Src} {cwd N : List Bytes} {a : Adder} {l : Bytes}
    (hfl : o.fileList = some l) (hcwd : StartsIn o sys cwd) (Q : Quiet (sys.cenv cwd) s) (W : s.WF)
    (h : CreateEv.written N a ∈ (o.run sys).1) :
    ∃ text lines rs m, sys.text (absFile sys.cwd l) = some text ∧ TextOf lines text ∧ Creator.new.run rs = some a.creator ∧
      SpecRun PathMap.empty rs m ∧
      FirstPath s cwd (o.stripPrefix.getD []) (packBytes a.contents) (lines.map (fun p => (p, o.followSymlink))) m := by
  obtain ⟨text, lines, rs, m, h1, h2, h3, h4, h5, _⟩ := CreateOpts.list_exact' hfl hcwd Q W h
  exact ⟨text, lines, rs, m, h1, h2, h3, h4, h5⟩

/-- **C44, file list, exactly.** As `C44_list_partial`, with the whole content of the archive: at each path there is what the first line
stands for that makes an entry there. -/
theorem C44_list_exact {o : CreateOpts} {sys : CreateSys} {s : Src} {cwd N : List Bytes} {a : Adder} {l : Bytes}
    (hfl : o.fileList = some l) (hcwd : StartsIn o sys cwd) (Q : Quiet (sys.cenv cwd) s) (W : s.WF)
    (h : CreateEv.written N a ∈ (o.run sys).1) :
    ∃ text lines rs m, sys.text (absFile sys.cwd l) = some text ∧ TextOf lines text ∧ SpecRun PathMap.empty rs m ∧
      (∀ order, IsLayout a.creator order → a.creator.store.length < 2 ^ 32 → Written rs (writeArchive a.creator order)) ∧
      FirstPath s cwd (o.stripPrefix.getD []) (packBytes a.contents) (lines.map (fun p => (p, o.followSymlink))) m := by
  obtain ⟨text, lines, rs, m, h1, h2, g1, g2, g4⟩ := CreateOpts.list_exact hfl hcwd Q W h
  exact ⟨text, lines, rs, m, h1, h2, g2, fun order h1 h2 => ⟨_, order, g1, h1, rfl, h2⟩, g4⟩

/-! ## The content is determined -/

/-- Two maps with the same entries. -/
def SameMap (bytes bytes' : ContentAddr → GetBytes) (m m' : PathMap) : Prop :=
  ∀ z, (m z = none ∧ m' z = none) ∨ ∃ n n', m z = some n ∧ m' z = some n' ∧ EqualEntry bytes bytes' n n'

theorem Archived.same {s : Src} {bytes bytes' : ContentAddr → GetBytes} {q : List Bytes} {o o' : Option Node}
    (h : Archived s bytes q o) (h' : Archived s bytes' q o') : (o = none ∧ o' = none) ∨ ∃ n n', o = some n ∧ o' = some n' ∧ EqualEntry bytes bytes' n n' := by
  unfold Archived at h h'
  cases hq : s.fs.nodes q with
  | none => rw [hq] at h; cases h
  | some x =>
    rw [hq] at h h'
    cases x with
    | dir t => exact Or.inr ⟨_, _, h, h', rfl, trivial⟩
    | link target t => exact Or.inr ⟨_, _, h, h', rfl, rfl⟩
    | file i =>
      simp only at h h'
      split at h
      · rename_i hsp
        rw [if_pos hsp] at h'
        exact Or.inl ⟨h, h'⟩
      · rename_i hsp
        rw [if_neg hsp] at h'
        obtain ⟨a, h1, h2⟩ := h
        obtain ⟨a', h3, h4⟩ := h'
        exact Or.inr ⟨_, _, h1, h3, rfl, rfl, _, h2, h4⟩

theorem first_such {α : Type} {P : α → Prop} : ∀ {L : List α}, (∃ x ∈ L, P x) → ∃ A x B, L = A ++ x :: B ∧ P x ∧ ∀ y ∈ A, ¬ P y := by
  intro L
  induction L with
  | nil => rintro ⟨x, hx, _⟩; cases hx
  | cons a L ih =>
    intro h
    by_cases ha : P a
    · exact ⟨[], a, L, rfl, ha, by simp⟩
    · obtain ⟨A, x, B, rfl, h1, h2⟩ := ih (by
        obtain ⟨x, hx, hp⟩ := h
        rcases List.mem_cons.mp hx with rfl | hx
        · exact absurd hp ha
        · exact ⟨x, hx, hp⟩)
      refine ⟨a :: A, x, B, rfl, h1, fun y hy => ?_⟩
      rcases List.mem_cons.mp hy with rfl | hy
      · exact ha
      · exact h2 y hy

theorem FirstPath.same {s : Src} {cwd : List Bytes} {pre : RPath} {bytes bytes' : ContentAddr → GetBytes} {L : List (Bytes × Bool)} {m m' : PathMap}
    (h : FirstPath s cwd pre bytes L m) (h' : FirstPath s cwd pre bytes' L m') : SameMap bytes bytes' m m' := by
  intro z
  by_cases hz : ∃ x ∈ L, Makes s cwd pre x z
  · obtain ⟨A, x, B, rfl, ⟨hne, u, hu, hpre, hsp⟩, hA⟩ := first_such hz
    by_cases e : z = u.1
    · subst e
      exact (h.entry A x B u rfl hu (hsp rfl) hA).same (h'.entry A x B u rfl hu (hsp rfl) hA)
    · have hp : ProperAncestor z u.1 := ⟨hne, e, hpre⟩
      exact Or.inr ⟨_, _, h.above A x B u z rfl hu hp hA, h'.above A x B u z rfl hu hp hA, rfl, trivial⟩
  · have hn : ∀ x ∈ L, ¬ Makes s cwd pre x z := fun x hx hm => hz ⟨x, hx, hm⟩
    exact Or.inl ⟨h.nothing z hn, h'.nothing z hn⟩

theorem FirstInput.same {s : Src} (W : s.WF) {cwd : List Bytes} {pre : RPath} {bytes bytes' : ContentAddr → GetBytes} {rc : Bool} {L : List Bytes} {m m' : PathMap}
    (h : FirstInput s cwd pre bytes rc L m) (h' : FirstInput s cwd pre bytes' rc L m') : SameMap bytes bytes' m m' := by
  intro z
  by_cases hz : ∃ x ∈ L, TreeMakes s cwd pre rc x z
  · obtain ⟨A, f, B, rfl, ⟨hne, u, ⟨k, q, p, hin, hp, hrc, rfl, hu⟩, hpre, hsp⟩, hA⟩ := first_such hz
    simp only at hpre hsp
    by_cases hk : k <+: z
    · obtain ⟨p0, rfl⟩ := hk
      have hpp : p0 <+: p := (List.prefix_append_right_inj k).mp hpre
      have h0 : s.Has q p0 ∧ ¬ s.Special (q ++ p0) := by
        by_cases e : p0 = p
        · rw [e]; exact ⟨hp, hsp (by rw [e])⟩
        · obtain ⟨y, hy⟩ := Option.ne_none_iff_exists'.mp hp
          obtain ⟨t, ht⟩ := W.dirsTo hy (q ++ p0) ((List.prefix_append_right_inj q).mpr hpp) (by simpa using e)
          refine ⟨by rw [Src.Has, ht]; simp, ?_⟩
          rintro ⟨i, hi, _⟩
          rw [ht] at hi; cases hi
      have hrc0 : p0 = [] ∨ rc = true := by
        rcases hrc with rfl | hrc
        · exact Or.inl (List.prefix_nil.mp hpp)
        · exact Or.inr hrc
      have hu0 : OffersTree s cwd pre rc f (k ++ p0, q ++ p0) := ⟨k, q, p0, hin, h0.1, hrc0, rfl, hne⟩
      exact (h.entry A f B _ rfl hu0 h0.2 hA).same (h'.entry A f B _ rfl hu0 h0.2 hA)
    · have hzk : z <+: k := by
        rcases List.prefix_or_prefix_of_prefix hpre (List.prefix_append k p) with h | h
        · exact h
        · exact absurd h hk
      have hpa : ProperAncestor z k := ⟨hne, fun e => hk (e ▸ List.prefix_rfl), hzk⟩
      exact Or.inr ⟨_, _, h.above A f B k q z rfl hin hpa hA, h'.above A f B k q z rfl hin hpa hA, rfl, trivial⟩
  · have hn : ∀ x ∈ L, ¬ TreeMakes s cwd pre rc x z := fun x hx hm => hz ⟨x, hx, hm⟩
    exact Or.inl ⟨h.nothing z hn, h'.nothing z hn⟩

/-! ## The archive is determined, but for the numbers of the contents -/

theorem SameMap.dom {bytes bytes' : ContentAddr → GetBytes} {m m' : PathMap} (h : SameMap bytes bytes' m m') (z : List Bytes) :
    (∃ n, m z = some n) ↔ ∃ n, m' z = some n := by
  rcases h z with ⟨h1, h2⟩ | ⟨n, n', h1, h2, _⟩
  · rw [h1, h2]
  · rw [h1, h2]; simp

theorem SameMap.archive {bytes bytes' : ContentAddr → GetBytes} {m m' : PathMap} (h : SameMap bytes bytes' m m') {a a' : Archive} {P P' : List (List Bytes)}
    (ha : Encodes a m P) (ha' : Encodes a' m' P') : SameArchive a a' bytes bytes' := by
  have hP : P = P' := canon_unique P P' ha.sorted ha'.sorted (fun p => by rw [ha.dom, ha'.dom, h.dom])
  subst hP
  refine ⟨?_, by rw [ha.len, ha'.len], ?_⟩
  · obtain ⟨h1, h2⟩ := ha.root
    obtain ⟨h3, h4⟩ := ha'.root
    obtain ⟨h5, _⟩ := RangeIs.unique [] _ _ _ _ h2 h4
    cases hra : a.root; cases hrb : a'.root
    rw [hra] at h1 h5; rw [hrb] at h3 h5
    simp_all
  · intro i r r' hr hr'
    have hi : i < P.length := by rw [← ha.len]; exact (List.getElem?_eq_some_iff.mp hr).1
    obtain ⟨n, hn, r1, r2, r3, r4, r5, r6, r7⟩ := ha.row i _ r (List.getElem?_eq_getElem hi) hr
    obtain ⟨n', hn', s1, s2, s3, s4, s5, s6, s7⟩ := ha'.row i _ r' (List.getElem?_eq_getElem hi) hr'
    have hsame : EqualEntry bytes bytes' n n' := by
      rcases h P[i] with ⟨h1, _⟩ | ⟨n1, n1', h1, h2, h3⟩
      · rw [hn] at h1; cases h1
      · rw [hn] at h1; rw [hn'] at h2; cases h1; cases h2; exact h3
    obtain ⟨hinfo, hkind⟩ := hsame
    rw [← hinfo] at s3 s4 s5 s6
    have hname : r.name = r'.name := by rw [r1] at s1; simpa using s1
    cases hk : n.kind with
    | dir =>
      cases hk' : n'.kind with
      | dir =>
        rw [hk] at r7; rw [hk'] at s7
        obtain ⟨r8, r9, r10, r11, r12, r13⟩ := r7
        obtain ⟨s8, s9, s10, s11, s12, s13⟩ := s7
        obtain ⟨h1, h2⟩ := RangeIs.unique _ _ _ _ _ r9 s9
        have hf : r.firstChild = r'.firstChild := by
          by_cases h0 : r.nbChildren = 0
          · rw [r10 h0, s10 (h1 ▸ h0)]
          · exact h2 h0
        have e : r = r' := by cases r; cases r'; simp_all
        subst e
        exact ⟨rfl, fun h => (by rw [r8] at h; cases h), fun _ => rfl⟩
      | _ => rw [hk, hk'] at hkind; cases hkind
    | link t =>
      cases hk' : n'.kind with
      | link t' =>
        rw [hk, hk'] at hkind
        simp only at hkind
        subst hkind
        rw [hk] at r7; rw [hk'] at s7
        have hv := r7.1
        have e : r = r' := by cases r; cases r'; simp_all
        subst e
        exact ⟨rfl, fun h => (by rw [hv] at h; cases h), fun _ => rfl⟩
      | _ => rw [hk, hk'] at hkind; cases hkind
    | file size c =>
      cases hk' : n'.kind with
      | file size' c' =>
        rw [hk, hk'] at hkind
        obtain ⟨rfl, b, hb, hb'⟩ := hkind
        rw [hk] at r7; rw [hk'] at s7
        have hv := r7.1
        have hc : r.content = c := r7.2.2.1
        have hc' : r'.content = c' := s7.2.2.1
        refine ⟨by cases r; cases r'; simp_all, fun _ => ⟨b, by rw [hc]; exact hb, by rw [hc']; exact hb'⟩, fun h => absurd hv h⟩
      | _ => rw [hk, hk'] at hkind; cases hkind

theorem SameMap.listing {bytes bytes' : ContentAddr → GetBytes} {m m' : PathMap} (h : SameMap bytes bytes' m m') {V : List (List Bytes)}
    (hV : Listing m [] V) : Listing m' [] V :=
  ⟨hV.1, fun p => by rw [hV.2, h.dom]⟩

theorem SameMap.line {bytes bytes' : ContentAddr → GetBytes} {m m' : PathMap} (h : SameMap bytes bytes' m m') (z : List Bytes) :
    stableLine m z = stableLine m' z := by
  unfold stableLine
  rcases h z with ⟨h1, h2⟩ | ⟨n, n', h1, h2, h3, h4⟩
  · rw [h1, h2]
  · rw [h1, h2]
    simp only [h3]
    cases hk : n.kind <;> cases hk' : n'.kind <;> rw [hk, hk'] at h4 <;> simp_all

/-- what readers show of two archives with the same entries -/
theorem SameMap.shown {bytes bytes' : ContentAddr → GetBytes} {m m' : PathMap} (hsame : SameMap bytes bytes' m m')
    {env env' : CEnv} {l l' : List Attempted} {a a' : Adder} {rs rs' : List AddReq}
    (ht : Adder.Tried env l a) (ht' : Adder.Tried env' l' a')
    (hr : Creator.new.run rs = some a.creator) (hr' : Creator.new.run rs' = some a'.creator)
    (hm : SpecRun PathMap.empty rs m) (hm' : SpecRun PathMap.empty rs' m')
    {order order' : List Nat} (ho : IsLayout a.creator order) (ho' : IsLayout a'.creator order')
    (hlen : a.creator.store.length < 2 ^ 32) (hlen' : a'.creator.store.length < 2 ^ 32)
    {depth depth' : Nat} (hd : a.creator.store.length < depth) (hd' : a'.creator.store.length < depth') :
    SameArchive (writeArchive a.creator order) (writeArchive a'.creator order') bytes bytes' ∧
      listCmd (writeArchive a.creator order) none depth = listCmd (writeArchive a'.creator order') none depth' ∧
      listCmd (writeArchive a.creator order) (some 1) depth = listCmd (writeArchive a'.creator order') (some 1) depth' := by
  have hW : Written rs (writeArchive a.creator order) := ⟨_, order, hr, ho, rfl, hlen⟩
  have hW' : Written rs' (writeArchive a'.creator order') := ⟨_, order', hr', ho', rfl, hlen'⟩
  obtain ⟨P, G⟩ := hW.good' hm
  obtain ⟨P', G'⟩ := hW'.good' hm'
  have hlt : ∀ {st : Creator} {order : List Nat} {depth : Nat}, IsLayout st order → st.store.length < depth →
      (writeArchive st order).entries.length < depth := by
    intro st order depth ho hd
    have : (writeArchive st order).entries.length ≤ order.length := by
      simp only [writeArchive]; exact List.length_filterMap_le _ _
    have := ho.1.length_eq
    simp only [List.length_range] at this
    omega
  refine ⟨hsame.archive G.toEncodes G'.toEncodes, ?_, ?_⟩
  · obtain ⟨V, hV, h1⟩ := C11_list hW hm depth (hlt ho hd)
    obtain ⟨V', hV', h2⟩ := C11_list hW' hm' depth' (hlt ho' hd')
    rw [h1, h2, (hsame.listing hV).unique hV']
  · obtain ⟨rs1, m1, c1, s1, u1, n1⟩ := ht.asSeen
    obtain ⟨rs2, m2, c2, s2, u2, n2⟩ := ht'.asSeen
    have e1 : m1 = m := SpecRun.same_creator c1 hr s1 hm
    have e2 : m2 = m' := SpecRun.same_creator c2 hr' s2 hm'
    subst e1; subst e2
    obtain ⟨⟨V, hV, h1⟩, _⟩ := C12_stable_list_partial (⟨_, order, c1, ho, rfl, hlen⟩ : Written rs1 _) s1 u1 n1.noDot depth (hlt ho hd)
    obtain ⟨⟨V', hV', h2⟩, _⟩ := C12_stable_list_partial (⟨_, order', c2, ho', rfl, hlen'⟩ : Written rs2 _) s2 u2 n2.noDot depth' (hlt ho' hd')
    rw [h1, h2, (hsame.listing hV).unique hV', List.flatMap_def, List.flatMap_def, List.map_congr_left (fun z _ => hsame.line z)]

/-- **C82, input files.** Two runs of the same `arx create` command with input files, each writing an archive, in the same directory, on a source
that does not change; the runs may list directories in different orders, run the threads of the walks in any interleaving, and finalize
the archive with any admissible numbering. The archives are the same row by row but for the numbers of the contents, which lead to the
same bytes; and both listings are the same, byte by byte. -/
theorem C82_inputs {o : CreateOpts} {sys sys' : CreateSys} {s : Src} {cwd N N' : List Bytes} {a a' : Adder}
    (hfl : o.fileList = none) (W : s.WF)
    (hcwd : StartsIn o sys cwd) (Q : Quiet (sys.cenv cwd) s) (hcheck : sys.atCheck = s)
    (hw : ∀ i, (sys.walks i).src = s ∧ FullListing s (sys.walks i).ls ∧ ∀ q, s.fs.nodes q ≠ none → q.length ≤ (sys.walks i).depth)
    (h : CreateEv.written N a ∈ (o.run sys).1)
    (hcwd' : StartsIn o sys' cwd) (Q' : Quiet (sys'.cenv cwd) s) (hcheck' : sys'.atCheck = s)
    (hw' : ∀ i, (sys'.walks i).src = s ∧ FullListing s (sys'.walks i).ls ∧ ∀ q, s.fs.nodes q ≠ none → q.length ≤ (sys'.walks i).depth)
    (h' : CreateEv.written N' a' ∈ (o.run sys').1)
    {order order' : List Nat} (ho : IsLayout a.creator order) (ho' : IsLayout a'.creator order')
    (hlen : a.creator.store.length < 2 ^ 32) (hlen' : a'.creator.store.length < 2 ^ 32)
    {depth depth' : Nat} (hd : a.creator.store.length < depth) (hd' : a'.creator.store.length < depth') :
    SameArchive (writeArchive a.creator order) (writeArchive a'.creator order') (packBytes a.contents) (packBytes a'.contents) ∧
      listCmd (writeArchive a.creator order) none depth = listCmd (writeArchive a'.creator order') none depth' ∧
      listCmd (writeArchive a.creator order) (some 1) depth = listCmd (writeArchive a'.creator order') (some 1) depth' := by
  obtain ⟨rs, m, h1, h2, h3⟩ := CreateOpts.inputs_exact hfl hcwd Q W hcheck hw h
  obtain ⟨rs', m', g1, g2, g3⟩ := CreateOpts.inputs_exact hfl hcwd' Q' W hcheck' hw' h'
  obtain ⟨l, hl⟩ := CreateOpts.tried hcwd h
  obtain ⟨l', hl'⟩ := CreateOpts.tried hcwd' h'
  exact (h3.same W g3).shown hl hl' h1 g1 h2 g2 ho ho' hlen hlen' hd hd'

/-- **C82, file list.** The same for commands with a file list (with the same text). -/
theorem C82_list {o : CreateOpts} {sys sys' : CreateSys} {s : Src} {cwd N N' : List Bytes} {a a' : Adder} {l : Bytes}
    (hfl : o.fileList = some l) (htext : sys.text (absFile sys.cwd l) = sys'.text (absFile sys'.cwd l)) (W : s.WF)
    (hcwd : StartsIn o sys cwd) (Q : Quiet (sys.cenv cwd) s) (h : CreateEv.written N a ∈ (o.run sys).1)
    (hcwd' : StartsIn o sys' cwd) (Q' : Quiet (sys'.cenv cwd) s) (h' : CreateEv.written N' a' ∈ (o.run sys').1)
    {order order' : List Nat} (ho : IsLayout a.creator order) (ho' : IsLayout a'.creator order')
    (hlen : a.creator.store.length < 2 ^ 32) (hlen' : a'.creator.store.length < 2 ^ 32)
    {depth depth' : Nat} (hd : a.creator.store.length < depth) (hd' : a'.creator.store.length < depth') :
    SameArchive (writeArchive a.creator order) (writeArchive a'.creator order') (packBytes a.contents) (packBytes a'.contents) ∧
      listCmd (writeArchive a.creator order) none depth = listCmd (writeArchive a'.creator order') none depth' ∧
      listCmd (writeArchive a.creator order) (some 1) depth = listCmd (writeArchive a'.creator order') (some 1) depth' := by
  obtain ⟨text, lines, rs, m, t1, t2, h1, h2, h3⟩ := CreateOpts.list_exact hfl hcwd Q W h
  obtain ⟨text', lines', rs', m', t3, t4, g1, g2, g3⟩ := CreateOpts.list_exact hfl hcwd' Q' W h'
  rw [htext, t3] at t1; cases t1
  have : lines = lines' := by rw [← TextOf.lines t2, ← TextOf.lines t4]
  subst this
  obtain ⟨l, hl⟩ := CreateOpts.tried hcwd h
  obtain ⟨l', hl'⟩ := CreateOpts.tried hcwd' h'
  exact (h3.same g3).shown hl hl' h1 g1 h2 g2 ho ho' hlen hlen' hd hd'

/-- **C82, the outcome.** Whether the command with input files ends well, fails or crashes does not depend on the order in which
directories are listed nor on the interleaving of the threads (that run until the walks return). -/
theorem C82_outcome {o : CreateOpts} {sys : CreateSys} {walks' : Nat → WalkRun} {s : Src} (hacc : o.Accepted) (hfl : o.fileList = none)
    (Q : ∀ cwd, Quiet (sys.cenv cwd) s) (W : s.WF) (hcheck : sys.atCheck = s)
    (hw : ∀ i, (sys.walks i).src = s ∧ FullListing s (sys.walks i).ls ∧ ∀ q, s.fs.nodes q ≠ none → q.length ≤ (sys.walks i).depth)
    (hret : ∀ cwd, StartsIn o sys cwd → Returns o sys s cwd)
    (hw' : ∀ i, (walks' i).src = s ∧ FullListing s (walks' i).ls ∧ ∀ q, s.fs.nodes q ≠ none → q.length ≤ (walks' i).depth)
    (hret' : ∀ cwd, StartsIn o { sys with walks := walks' } cwd → Returns o { sys with walks := walks' } s cwd) :
    (o.run sys).2 = (o.run { sys with walks := walks' }).2 := by
  cases hl : o.listCompressions with
  | true => simp [CreateOpts.run, hl]
  | false =>
    have e1 := (C77_inputs hl hfl Q W hcheck hw hret).trans
      (C77_inputs (sys := { sys with walks := walks' }) hl hfl Q W hcheck hw' hret').symm
    have e2 := (C78_inputs_iff hacc hl hfl Q W hcheck hw hret).trans
      (C78_inputs_iff (sys := { sys with walks := walks' }) hacc hl hfl Q W hcheck hw' hret').symm
    revert e1 e2
    cases (o.run sys).2 <;> cases (o.run { sys with walks := walks' }).2 <;> simp

theorem addInputs_schedule {sys : CreateSys} {walks' : Nat → WalkRun} {cwd : List Bytes} {pre : RPath} {rc : Bool}
    (hsame : ∀ i, (walks' i).src = (sys.walks i).src ∧ (walks' i).ls = (sys.walks i).ls ∧ (walks' i).depth = (sys.walks i).depth) :
    ∀ (roots : List Bytes) (i : Nat) (a : Adder),
      (∀ i, ∀ f ∈ roots, ∀ (a : Adder) (sched : List Bool), sched = (sys.walks i).sched ∨ sched = (walks' i).sched → (Chan.run (sys.cenv cwd) pre f
        (Chan.start a (walkItems cwd (sys.walks i).src (sys.walks i).ls (sys.walks i).depth f rc)) sched).result ≠ none) →
      addInputs sys cwd pre rc a i roots = addInputs { sys with walks := walks' } cwd pre rc a i roots := by
  intro roots
  induction roots with
  | nil => intro i a _; rfl
  | cons f fs ih =>
    intro i a hret
    have e : addFromPath (sys.cenv cwd) pre a f rc (sys.walks i) = addFromPath (sys.cenv cwd) pre a f rc (walks' i) := by
      obtain ⟨e1, e2, e3⟩ := hsame i
      obtain ⟨r, hr⟩ := Option.ne_none_iff_exists'.mp (hret i f (by simp) a _ (Or.inl rfl))
      obtain ⟨r', hr'⟩ := Option.ne_none_iff_exists'.mp (hret i f (by simp) a _ (Or.inr rfl))
      have k1 := Chan.run_result hr
      have k2 := Chan.run_result hr'
      rw [k1] at k2
      simp only [Prod.mk.injEq] at k2
      simp only [addFromPath, e1, e2, e3]
      have hc : (sys.cenv cwd).cwd = cwd := rfl
      rw [hc, hr, hr', k2.1, k2.2]
    rw [addInputs, addInputs]
    have e' : addFromPath ({ sys with walks := walks' }.cenv cwd) pre a f rc ({ sys with walks := walks' }.walks i) =
      addFromPath (sys.cenv cwd) pre a f rc (sys.walks i) := e.symm
    rw [e']
    cases addFromPath (sys.cenv cwd) pre a f rc (sys.walks i) with
    | mk a1 o =>
      cases o with
      | ok => simp only; rw [ih (i + 1) a1 (fun i g hg => hret i g (by simp [hg]))]
      | _ => rfl

/-- **C82, schedules.** Even if the source changes at any moment and calls fail, everything the command does depends on what the walks and
the calls meet, not on the interleaving of the threads: with other schedules (that run until the walks return) it does the same. -/
theorem C82_schedule {o : CreateOpts} {sys : CreateSys} {walks' : Nat → WalkRun}
    (hsame : ∀ i, (walks' i).src = (sys.walks i).src ∧ (walks' i).ls = (sys.walks i).ls ∧ (walks' i).depth = (sys.walks i).depth)
    (hret : ∀ cwd, StartsIn o sys cwd → ∀ i, ∀ f ∈ o.infiles, ∀ (a : Adder) (sched : List Bool),
      sched = (sys.walks i).sched ∨ sched = (walks' i).sched → (Chan.run (sys.cenv cwd) (o.stripPrefix.getD []) f
        (Chan.start a (walkItems cwd (sys.walks i).src (sys.walks i).ls (sys.walks i).depth f o.recursion)) sched).result ≠ none) :
    o.run sys = o.run { sys with walks := walks' } := by
  have hadd : ∀ cwd, StartsIn o sys cwd → o.addAll sys cwd = o.addAll { sys with walks := walks' } cwd := by
    intro cwd hcwd
    unfold CreateOpts.addAll
    cases o.fileList with
    | some l => rfl
    | none =>
      simp only
      rw [addInputs_schedule hsame o.infiles 0 Adder.new (hret cwd hcwd)]
      rfl
  have hc : ∀ out, checkOutput { sys with walks := walks' } out o.force = checkOutput sys out o.force := fun _ => rfl
  have hch : { sys with walks := walks' }.chdir o.baseDir = sys.chdir o.baseDir := rfl
  unfold CreateOpts.run
  simp only [hc, hch]
  cases hd : sys.chdir o.baseDir with
  | none => rfl
  | some cwd =>
    simp only
    rw [hadd cwd (StartsIn.iff.mpr hd)]

/-! ## Examples -/

theorem FullListing.reverse {s : Src} {ls : ReadDir} (h : FullListing s ls) : FullListing s (fun d => (ls d).reverse) := by
  intro d t ht
  obtain ⟨ns, h1, h2, h3⟩ := h d t ht
  exact ⟨ns.reverse, by simp only [h1, List.map_reverse], (by rw [List.Nodup, List.pairwise_reverse]; exact h2.imp (fun h => Ne.symm h)), fun n => by rw [List.mem_reverse]; exact h3 n⟩

/-- the directories are listed in the reverse order, and the threads alternate -/
def backSys : CreateSys :=
  { exSys with walks := fun _ => ⟨exSrc, fun d => (exLs d).reverse, 5, (List.replicate 20 [true, false]).flatten ++ List.replicate 20 false⟩ }

def backAdder : Adder := ((exCreate.run backSys).1.filterMap CreateEv.adder?).headD Adder.new

def backOrder : List Nat := [0, 1, 2, 3]

theorem backAdder_written : ∃ N, CreateEv.written N backAdder ∈ (exCreate.run backSys).1 :=
  CreateEv.written_of (by
    intro h
    have : ((exCreate.run backSys).1.filterMap CreateEv.adder?).length = 1 := by decide +kernel
    rw [h] at this; cases this)

/-- the two runs add the entries in different orders -/
example : tripAdder.creator.store.map (fun e => e.name) = [ascii "d", ascii "s", ascii "l", ascii "f"] ∧
    backAdder.creator.store.map (fun e => e.name) = [ascii "d", ascii "f", ascii "s", ascii "l"] := by decide +kernel

/-- the hypotheses of `C82_inputs` are met -/
example : SameArchive (writeArchive tripAdder.creator tripOrder) (writeArchive backAdder.creator backOrder) (packBytes tripAdder.contents)
    (packBytes backAdder.contents) := by
  obtain ⟨N, hN⟩ := tripAdder_written
  obtain ⟨N', hN'⟩ := backAdder_written
  exact (C82_inputs (o := exCreate) (sys := exSys) (sys' := backSys) (s := exSrc) (cwd := []) rfl exSrc_wf rfl exEnv_quiet rfl exSys_walks hN
    rfl exEnv_quiet rfl (fun i => ⟨rfl, exLs_full.reverse, (exSys_walks i).2.2⟩) hN'
    ⟨by decide +kernel, by decide +kernel⟩ ⟨by decide +kernel, by decide +kernel⟩ (by decide +kernel) (by decide +kernel)
    (depth := 5) (depth' := 5) (by decide +kernel) (by decide +kernel)).1

end Arx
