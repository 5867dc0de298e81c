import Verif.Props.Walk
import Verif.Spec.StableList
/-!
# `arx list --stable-output 1` on archives with entries named `.` (C12)
-/
namespace Arx

theorem leaveDir_snoc (d : List Bytes) {c : Bytes} (h : c ≠ CUR) : leaveDir (d ++ [c]) = d := by
  simp [leaveDir, h]

theorem leaveDir_dot (d : List Bytes) : leaveDir (d ++ [CUR]) = leaveDir d := by
  simp [leaveDir]

theorem leaveDir_nil : leaveDir [] = [] := rfl

/-- what is left is the beginning, and strictly shorter -/
theorem leaveDir_prefix (d : List Bytes) : leaveDir d <+: d ∧ (d ≠ [] → (leaveDir d).length < d.length) := by
  induction h : d.length generalizing d with
  | zero => cases d with
    | nil => exact ⟨List.prefix_refl _, fun h => absurd rfl h⟩
    | cons => simp at h
  | succ k ih =>
    rcases List.eq_nil_or_concat d with e | ⟨e, c, e'⟩
    · subst e; simp at h
    · rw [List.concat_eq_append] at e'; subst e'
      simp only [List.length_append, List.length_singleton, Nat.add_right_cancel_iff] at h
      by_cases hc : c = CUR
      · subst hc
        rw [leaveDir_dot]
        obtain ⟨i1, i2⟩ := ih e h
        refine ⟨i1.trans (List.prefix_append _ _), fun _ => ?_⟩
        have := i1.length_le
        omega
      · rw [leaveDir_snoc _ hc]
        exact ⟨List.prefix_append _ _, fun _ => by omega⟩

theorem parentLoop_join {d : List Bytes} (h : ∀ c ∈ d, ValidName c) (n : Nat) (hn : d.length < n) :
    parentLoop n (joinPath d) = joinPath (leaveDir d) := by
  induction n generalizing d with
  | zero => omega
  | succ n ih =>
    rcases List.eq_nil_or_concat d with e | ⟨e, c, e'⟩
    · subst e; rfl
    · rw [List.concat_eq_append] at e'; subst e'
      have h1 : ∀ x ∈ e, ValidName x := fun x hx => h x (by simp [hx])
      simp only [parentLoop, nextBack_joinPath h1 (h c (by simp))]
      by_cases hc : c = CUR
      · subst hc
        rw [if_pos rfl, leaveDir_dot, ih h1 (by simp at hn; omega)]
      · rw [if_neg hc, leaveDir_snoc _ hc]

theorem joinPath_length {d : List Bytes} (h : ∀ c ∈ d, ValidName c) : d.length ≤ (joinPath d).length := by
  induction d with
  | nil => simp
  | cons x xs ih =>
    have hx : 0 < x.length := List.length_pos_iff.mpr (h x (by simp)).1
    by_cases hxs : xs = []
    · subst hxs; simp [joinPath]; omega
    · rw [joinPath_cons hxs]
      have := ih (fun c hc => h c (by simp [hc]))
      simp; omega

theorem pop_leaveDir {d : List Bytes} (h : ∀ c ∈ d, ValidName c) : RPath.pop (joinPath d) = joinPath (leaveDir d) := by
  by_cases hd : d = []
  · subst hd; rfl
  · have hne : joinPath d ≠ [] := joinPath_ne_nil h hd
    simp only [RPath.pop, RPath.parent, if_neg hne, Option.getD_some]
    exact parentLoop_join h _ (by have := joinPath_length h; omega)

/-- the listing of any walk, begun anywhere -/
theorem stable_fold {m : PathMap} {ent : List Bytes → Res (Entry FileEntry LinkEntry DirEntry)}
    (hval : ∀ d c n, m (d ++ [c]) = some n → ValidName c ∧ lossy c = c)
    (hroot : m [] = none)
    (hea : ∀ d c n e, m (d ++ [c]) = some n → ent (d ++ [c]) = .ok e → EntryIs e n ∧ e.common.path = c)
    {T : List Ev} {Lg : List (Call FileEntry LinkEntry DirEntry)} (h : All2 (CallEnt ent) Lg T)
    (hT : ∀ p, (Ev.enter p ∈ T ∨ Ev.exit p ∈ T ∨ Ev.leaf p ∈ T) → ∃ n, m p = some n)
    (ctx : List Bytes) (hctx : ∀ c ∈ ctx, ValidName c) (o : Bytes) :
    (Lg.foldl stableLister.call (joinPath ctx, o)).2 = o ++ shownFrom m ctx T := by
  induction h generalizing ctx o with
  | nil => simp [shownFrom]
  | @cons call ev Lg T hc _ ih =>
    have ih' := ih (fun p hp => hT p (by
      rcases hp with hp | hp | hp
      · exact Or.inl (by simp [hp])
      · exact Or.inr (Or.inl (by simp [hp]))
      · exact Or.inr (Or.inr (by simp [hp]))))
    have hsplit : ∀ p n, m p = some n → ∃ d c, p = d ++ [c] := by
      intro p n hn
      rcases List.eq_nil_or_concat p with e | ⟨d, c, e⟩
      · subst e; rw [hroot] at hn; cases hn
      · exact ⟨d, c, by rw [e, List.concat_eq_append]⟩
    rw [List.foldl_cons]
    cases hc with
    | @exit p r e he =>
      simp only [Operator.call, stableLister, shownFrom]
      rw [pop_leaveDir hctx]
      exact ih' _ (fun c hc => hctx c ((leaveDir_prefix ctx).1.subset hc)) o
    | @enter p r e he =>
      obtain ⟨n, hn⟩ := hT p (Or.inl (by simp))
      obtain ⟨d, c, rfl⟩ := hsplit p n hn
      obtain ⟨⟨i1, _, _, i4⟩, g2⟩ := hea d c n _ hn he
      obtain ⟨v2, v4⟩ := hval d c n hn
      have hctx' : ∀ x ∈ ctx ++ [c], ValidName x := by
        intro x hx; simp at hx; rcases hx with hx | rfl
        · exact hctx x hx
        · exact v2
      simp only [Entry.common] at g2 i1
      cases hk : n.kind <;> rw [hk] at i4
      · have := ih' (ctx ++ [c]) hctx' (o ++ lineAs m (d ++ [c]) (ctx ++ [c]))
        have hstep : stableLister.call (joinPath ctx, o) (.enter e) = (joinPath (ctx ++ [c]), o ++ lineAs m (d ++ [c]) (ctx ++ [c])) := by
          simp [Operator.call, stableLister, g2, v4, push_joinPath hctx v2, dec_eq, i1, lineAs, hn, hk]
        rw [hstep, this]
        simp [shownFrom]
      · obtain ⟨f, hf, _⟩ := i4; cases hf
      · obtain ⟨f, hf, _⟩ := i4; cases hf
    | @file p e he =>
      obtain ⟨n, hn⟩ := hT p (Or.inr (Or.inr (by simp)))
      obtain ⟨d, c, rfl⟩ := hsplit p n hn
      obtain ⟨⟨i1, _, _, i4⟩, g2⟩ := hea d c n _ hn he
      obtain ⟨v2, v4⟩ := hval d c n hn
      have hctx' : ∀ x ∈ ctx ++ [c], ValidName x := by
        intro x hx; simp at hx; rcases hx with hx | rfl
        · exact hctx x hx
        · exact v2
      simp only [Entry.common] at g2 i1
      cases hk : n.kind <;> rw [hk] at i4
      · obtain ⟨r, f, hf⟩ := i4; cases hf
      · obtain ⟨f, hf, hs, _⟩ := i4; cases hf
        have := ih' (leaveDir (ctx ++ [c])) (fun x hx => hctx' x ((leaveDir_prefix _).1.subset hx))
          (o ++ lineAs m (d ++ [c]) (ctx ++ [c]))
        have hstep : stableLister.call (joinPath ctx, o) (.file e) =
            (joinPath (leaveDir (ctx ++ [c])), o ++ lineAs m (d ++ [c]) (ctx ++ [c])) := by
          simp [Operator.call, stableLister, g2, v4, push_joinPath hctx v2, dec_eq, i1, lineAs, hn, hk, pop_leaveDir hctx', hs]
        rw [hstep, this]
        simp [shownFrom]
      · obtain ⟨f, hf, _⟩ := i4; cases hf
    | @link p e he =>
      obtain ⟨n, hn⟩ := hT p (Or.inr (Or.inr (by simp)))
      obtain ⟨d, c, rfl⟩ := hsplit p n hn
      obtain ⟨⟨i1, _, _, i4⟩, g2⟩ := hea d c n _ hn he
      obtain ⟨v2, v4⟩ := hval d c n hn
      have hctx' : ∀ x ∈ ctx ++ [c], ValidName x := by
        intro x hx; simp at hx; rcases hx with hx | rfl
        · exact hctx x hx
        · exact v2
      simp only [Entry.common] at g2 i1
      cases hk : n.kind <;> rw [hk] at i4
      · obtain ⟨r, f, hf⟩ := i4; cases hf
      · obtain ⟨f, hf, _⟩ := i4; cases hf
      · obtain ⟨f, hf, hs⟩ := i4; cases hf
        have := ih' (leaveDir (ctx ++ [c])) (fun x hx => hctx' x ((leaveDir_prefix _).1.subset hx))
          (o ++ lineAs m (d ++ [c]) (ctx ++ [c]))
        have hstep : stableLister.call (joinPath ctx, o) (.link e) =
            (joinPath (leaveDir (ctx ++ [c])), o ++ lineAs m (d ++ [c]) (ctx ++ [c])) := by
          simp [Operator.call, stableLister, g2, v4, push_joinPath hctx v2, dec_eq, i1, lineAs, hn, hk, pop_leaveDir hctx', hs]
        rw [hstep, this]
        simp [shownFrom]

/-- **C12 (exactly what is printed).** For every created archive, whatever its names, `--stable-output 1` walks all entries in the order of C11 and
writes one line for each, with the values it was added with; the path in the line is the directory reached so far
followed by the name, and a directory named `.` is left together with the one before it. -/
theorem C12_exact {rs : List AddReq} {a : Archive} {m : PathMap} (h : Written rs a)
    (hm : SpecRun PathMap.empty rs m) (hu : ∀ r ∈ rs, validUtf8 r.path = true)
    (depth : Nat) (hd : a.entries.length < depth) :
    ∃ ks T, KidsOf m [] ks ∧ TraceOf m [] ks T ∧ Listing m [] (T.filterMap Ev.visited) ∧
      listCmd a (some 1) depth = (shownFrom m [] T, true) := by
  obtain ⟨P, G⟩ := h.good' hm
  obtain ⟨T, Lg, h1, h2, h3⟩ := specWalk_plain (fun d => G.kidsOf d) G.entOK_full depth [] (G.deepEnough hd [])
  refine ⟨_, T, G.kidsOf [], h1, h1.listing G.wf (G.kidsOf []), ?_⟩
  have hplain : stableLister.Plain :=
    ⟨fun _ => rfl, fun _ => rfl, fun _ _ => rfl, fun _ _ => rfl, fun _ _ => rfl, fun _ _ => rfl⟩
  have hmemP : ∀ d c n, m (d ++ [c]) = some n → d ++ [c] ∈ P := fun d c n hn => (G.dom _).mpr ⟨n, hn⟩
  have hval : ∀ d c n, m (d ++ [c]) = some n → ValidName c ∧ lossy c = c := fun d c n hn =>
    ⟨G.wf.names _ _ hn c (by simp), lossy_valid (hm.utf8_names hu _ _ hn c (by simp))⟩
  have hea : ∀ d c n e, m (d ++ [c]) = some n → a.entOf P fullBuilder (d ++ [c]) = .ok e →
      EntryIs e n ∧ e.common.path = c := by
    intro d c n e hn he
    obtain ⟨n', g1, g2, _, g4⟩ := (G.entryAt (hmemP d c n hn) he).1
    rw [hn] at g1; cases g1
    exact ⟨g2, by simpa using g4.symm⟩
  have hT : ∀ p, (Ev.enter p ∈ T ∨ Ev.exit p ∈ T ∨ Ev.leaf p ∈ T) → ∃ n, m p = some n := by
    obtain ⟨k1, k2, k3⟩ := h1.kind
    rintro p (hp | hp | hp)
    · obtain ⟨n, hn, _⟩ := k1 p hp; exact ⟨n, hn⟩
    · obtain ⟨n, hn, _⟩ := k2 p hp; exact ⟨n, hn⟩
    · obtain ⟨n, hn, _⟩ := k3 p hp; exact ⟨n, hn⟩
  have hfold := stable_fold hval G.wf.root hea h2 hT [] (by simp) []
  simp only [joinPath, List.nil_append] at hfold
  have hw : (a.walk fullBuilder stableLister depth ([], [])).1.2 = shownFrom m [] T ∧
      (a.walk fullBuilder stableLister depth ([], [])).2 = .ok () := by
    simp only [Archive.walk, Archive.walkFrom]
    have e1 : stableLister.onStart ([], []) = (([], []), .ok ()) := rfl
    rw [e1]
    simp only [G.walkRange_eq fullBuilder stableLister depth [] a.root _ G.rootRange, h3 stableLister hplain]
    exact ⟨hfold, rfl⟩
  simp only [listCmd, if_true, hw.1, hw.2]; rfl

/-- non-vacuity: the archive of C10_counterexample has an entry named `.` -/
example : Written dotReqs dotArchive ∧ (∀ r ∈ dotReqs, validUtf8 r.path = true) ∧ dotArchive.entries.length < 10 ∧
    (∃ m, SpecRun PathMap.empty dotReqs m) := by
  refine ⟨dotWritten, by decide, by decide, ?_⟩
  obtain ⟨m, _, hs, _⟩ := run_rel (st := dotSt) (rs := dotReqs) (by rfl)
  exact ⟨m, hs⟩

/-! ## When the paths are right -/

theorem stableLine_eq (m : PathMap) (p : List Bytes) : stableLine m p = lineAs m p p := rfl

/-- the path after a part of a walk -/
def ctxAfter : List Bytes → List Ev → List Bytes
  | c, [] => c
  | c, .enter p :: T => ctxAfter (c ++ p.drop (p.length - 1)) T
  | c, .leaf p :: T => ctxAfter (leaveDir (c ++ p.drop (p.length - 1))) T
  | c, .exit _ :: T => ctxAfter (leaveDir c) T

theorem ctxAfter_append (c : List Bytes) (A B : List Ev) : ctxAfter c (A ++ B) = ctxAfter (ctxAfter c A) B := by
  induction A generalizing c with
  | nil => rfl
  | cons ev A ih => cases ev <;> exact ih _

theorem shownFrom_append (m : PathMap) (c : List Bytes) (A B : List Ev) :
    shownFrom m c (A ++ B) = shownFrom m c A ++ shownFrom m (ctxAfter c A) B := by
  induction A generalizing c with
  | nil => rfl
  | cons ev A ih => cases ev <;> simp [shownFrom, ctxAfter, ih]

/-- some names of `d` are missing in `c` -/
def ShortOf (c d : List Bytes) : Prop := c.Sublist d ∧ c.length < d.length

theorem leaveDir_sub {c d : List Bytes} {x : Bytes} (h : c.Sublist (d ++ [x])) : (leaveDir c).Sublist d := by
  rcases List.eq_nil_or_concat c with e | ⟨e, y, e'⟩
  · subst e; exact List.nil_sublist _
  · rw [List.concat_eq_append] at e'; subst e'
    have h1 : e.Sublist d := by
      have := h.length_le
      obtain ⟨l1, l2, hl, s1, s2⟩ := List.sublist_append_iff.mp h
      have h2 := s2.length_le
      simp only [List.length_singleton] at h2
      cases l2 with
      | nil => rw [List.append_nil] at hl; rw [← hl] at s1; exact (List.sublist_append_left _ _).trans s1
      | cons z zs =>
        cases zs with
        | cons => simp at h2
        | nil =>
          have := (List.append_inj' hl rfl).1
          rw [this]; exact s1
    by_cases hy : y = CUR
    · subst hy; rw [leaveDir_dot]; exact (leaveDir_prefix e).1.sublist.trans h1
    · rw [leaveDir_snoc _ hy]; exact h1

theorem ShortOf.leave {c d : List Bytes} {x : Bytes} (h : ShortOf c (d ++ [x])) (hd : d ≠ []) : ShortOf (leaveDir c) d := by
  refine ⟨leaveDir_sub h.1, ?_⟩
  have hl := h.2
  simp only [List.length_append, List.length_singleton] at hl
  have hp := List.length_pos_iff.mpr hd
  by_cases hc : c = []
  · subst hc; exact hp
  · have := (leaveDir_prefix c).2 hc; omega

theorem ShortOf.snoc {c d : List Bytes} (h : ShortOf c d) (x : Bytes) : ShortOf (c ++ [x]) (d ++ [x]) :=
  ⟨h.1.append (List.Sublist.refl _), by have := h.2; simp; omega⟩

def pathW (q : List Bytes) : Nat := (q.map (fun c => c.length + 1)).sum

theorem joinPath_len (q : List Bytes) : (joinPath q).length = pathW q - 1 := by
  induction q with
  | nil => rfl
  | cons x xs ih =>
    by_cases hxs : xs = []
    · subst hxs; simp [joinPath, pathW]
    · rw [joinPath_cons hxs]
      have : 0 < pathW xs := by
        cases xs with
        | nil => exact absurd rfl hxs
        | cons => simp [pathW]; omega
      simp only [List.length_append, List.length_cons, ih]
      simp only [pathW, List.map_cons, List.sum_cons] at this ⊢
      omega

theorem pathW_sub {q p : List Bytes} (h : q.Sublist p) : pathW q + p.length ≤ pathW p + q.length := by
  induction h with
  | slnil => simp
  | cons a _ ih => simp only [pathW, List.map_cons, List.sum_cons, List.length_cons] at ih ⊢; omega
  | cons_cons a _ ih => simp only [pathW, List.map_cons, List.sum_cons, List.length_cons] at ih ⊢; omega

/-- a path with names missing gives a shorter line -/
theorem lineAs_short {m : PathMap} {p q : List Bytes} (hp : m p ≠ none) (hq : q ≠ []) (h : ShortOf q p) :
    (lineAs m p q).length < (lineAs m p p).length := by
  have hl : (joinPath q).length < (joinPath p).length := by
    rw [joinPath_len, joinPath_len]
    have := pathW_sub h.1
    have h2 := h.2
    have : 0 < pathW q := by
      cases q with
      | nil => exact absurd rfl hq
      | cons => simp [pathW]; omega
    omega
  cases hm : m p with
  | none => exact absurd hm hp
  | some n => cases hk : n.kind <;> simp only [lineAs, hm, hk, List.length_append] <;> omega

/-- the lines of a walk with the right paths -/
def rightText (m : PathMap) (T : List Ev) : Bytes := (T.filterMap Ev.visited).flatMap (fun p => lineAs m p p)

theorem drop_last (d : List Bytes) (x : Bytes) : (d ++ [x]).drop ((d ++ [x]).length - 1) = [x] := by simp

/-- a walk that begins with names missing goes on so -/
theorem trace_short {m : PathMap} {d ns : List Bytes} {T : List Ev} (h : TraceOf m d ns T) :
    ∀ c, ShortOf c d → ShortOf (ctxAfter c T) d ∧ (shownFrom m c T).length ≤ (rightText m T).length ∧
      (ns ≠ [] → (shownFrom m c T).length < (rightText m T).length) := by
  induction h with
  | nil d => intro c hc; exact ⟨hc, by simp [shownFrom, rightText], fun h => absurd rfl h⟩
  | @leaf d x cs T n h1 h2 h3 ih =>
    intro c hc
    have hd : d ≠ [] := by intro e; subst e; have := hc.2; simp at this
    obtain ⟨i1, i2, _⟩ := ih _ ((hc.snoc x).leave hd)
    have hl := lineAs_short (m := m) (p := d ++ [x]) (q := c ++ [x]) (by rw [h1]; simp) (by simp) (hc.snoc x)
    simp only [ctxAfter, shownFrom, drop_last]
    simp only [rightText, List.filterMap_cons, Ev.visited, List.flatMap_cons,
      List.length_append] at *
    exact ⟨i1, by omega, fun _ => by omega⟩
  | @dir d x cs ks T1 T2 n h1 h2 h3 h4 h5 ih1 ih2 =>
    intro c hc
    have hd : d ≠ [] := by intro e; subst e; have := hc.2; simp at this
    obtain ⟨j1, j2, _⟩ := ih1 _ (hc.snoc x)
    obtain ⟨i1, i2, _⟩ := ih2 _ (j1.leave hd)
    have hl := lineAs_short (m := m) (p := d ++ [x]) (q := c ++ [x]) (by rw [h1]; simp) (by simp) (hc.snoc x)
    simp only [ctxAfter, shownFrom, drop_last, ctxAfter_append, shownFrom_append]
    simp only [rightText, List.filterMap_cons, Ev.visited, List.flatMap_cons,
      List.length_append, ctxAfter_append, shownFrom_append, List.filterMap_append, List.flatMap_append] at *
    exact ⟨i1, by omega, fun _ => by omega⟩

/-- an entry named `.` is among these -/
def HasDot (V : List (List Bytes)) : Prop := ∃ e, e ++ [CUR] ∈ V

/-- and another comes after it, not below it -/
def BadDot (V : List (List Bytes)) : Prop := ∃ e r, e ++ [CUR] ∈ V ∧ r ∈ V ∧ lexLt (e ++ [CUR]) r ∧ ¬ e ++ [CUR] <+: r

theorem BadDot.node {d : List Bytes} {x : Bytes} {V1 V2 : List (List Bytes)}
    (h1 : ∀ q ∈ V1, ∃ q', q' ≠ [] ∧ q = d ++ x :: q') (h2 : ∀ r ∈ V2, ∃ y r', ltBytes x y ∧ r = d ++ y :: r') :
    BadDot ((d ++ [x]) :: (V1 ++ V2)) ↔ BadDot V1 ∨ (HasDot ((d ++ [x]) :: V1) ∧ V2 ≠ []) ∨ BadDot V2 := by
  have hx1 : ∀ q ∈ (d ++ [x]) :: V1, ∃ q', q = d ++ x :: q' := by
    intro q hq
    rcases List.mem_cons.mp hq with rfl | hq
    · exact ⟨[], rfl⟩
    · obtain ⟨q', _, e⟩ := h1 q hq; exact ⟨q', e⟩
  have h12 : ∀ q r, q ∈ (d ++ [x]) :: V1 → r ∈ V2 → lexLt q r ∧ ¬ q <+: r := by
    intro q r hq hr
    obtain ⟨q', rfl⟩ := hx1 q hq
    obtain ⟨y, r', hy, rfl⟩ := h2 r hr
    refine ⟨lexLt_of_names hy, fun hp => ?_⟩
    rw [List.prefix_append_right_inj, List.cons_prefix_cons] at hp
    rw [hp.1] at hy; exact ltBytes_irrefl _ hy
  constructor
  · rintro ⟨e, r, he, hr, hlt, hnp⟩
    rw [← List.cons_append, List.mem_append] at he hr
    rcases he with he | he
    · rcases hr with hr | hr
      · rcases List.mem_cons.mp he with he | he
        · exfalso
          rw [he] at hlt hnp
          obtain ⟨q', e'⟩ := hx1 r hr
          exact hnp ⟨q', by rw [e']; simp⟩
        · rcases List.mem_cons.mp hr with hr | hr
          · exfalso
            obtain ⟨q', hq', e'⟩ := h1 _ he
            rw [hr, e'] at hlt
            have : lexLt (d ++ [x]) (d ++ [x]) := lexLt_trans (by
              have := lexLt_append_right (d ++ [x]) q' hq'
              simpa using this) hlt
            exact lexLt_irrefl _ this
          · exact Or.inl ⟨e, r, he, hr, hlt, hnp⟩
      · exact Or.inr (Or.inl ⟨⟨e, he⟩, List.ne_nil_of_mem hr⟩)
    · rcases hr with hr | hr
      · exfalso; exact lexLt_irrefl _ (lexLt_trans (h12 _ _ hr he).1 hlt)
      · exact Or.inr (Or.inr ⟨e, r, he, hr, hlt, hnp⟩)
  · rintro (⟨e, r, he, hr, hlt, hnp⟩ | ⟨⟨e, he⟩, hne⟩ | ⟨e, r, he, hr, hlt, hnp⟩)
    · exact ⟨e, r, by simp [he], by simp [hr], hlt, hnp⟩
    · obtain ⟨r, V', rfl⟩ := List.exists_cons_of_ne_nil hne
      obtain ⟨a1, a2⟩ := h12 _ r he (by simp)
      exact ⟨e, r, by rw [← List.cons_append]; exact List.mem_append_left _ he, by simp, a1, a2⟩
    · exact ⟨e, r, by simp [he], by simp [hr], hlt, hnp⟩

/-- the walk of one directory: where it ends and how much it prints -/
structure DirWalk (m : PathMap) (d : List Bytes) (T : List Ev) : Prop where
  clean : ¬ HasDot (T.filterMap Ev.visited) → ctxAfter d T = d
  dot : HasDot (T.filterMap Ev.visited) → ShortOf (ctxAfter d T) d
  right : ¬ BadDot (T.filterMap Ev.visited) → shownFrom m d T = rightText m T
  wrong : BadDot (T.filterMap Ev.visited) → (shownFrom m d T).length < (rightText m T).length

theorem DirWalk.nil (m : PathMap) (d : List Bytes) : DirWalk m d [] :=
  ⟨fun _ => rfl, fun ⟨_, h⟩ => by simp at h, fun _ => rfl, fun ⟨_, _, h, _⟩ => by simp at h⟩

theorem DirWalk.le {m : PathMap} {d : List Bytes} {T : List Ev} (h : DirWalk m d T) :
    (shownFrom m d T).length ≤ (rightText m T).length := by
  by_cases hb : BadDot (T.filterMap Ev.visited)
  · exact Nat.le_of_lt (h.wrong hb)
  · rw [h.right hb]; exact Nat.le_refl _

theorem DirWalk.node {m : PathMap} {d cs : List Bytes} {x : Bytes} {T1 T2 : List Ev} (hd : d ≠ [])
    (g1 : DirWalk m (d ++ [x]) T1) (g2 : DirWalk m d T2) (t2 : TraceOf m d cs T2)
    (h1 : ∀ q ∈ T1.filterMap Ev.visited, ∃ q', q' ≠ [] ∧ q = d ++ x :: q')
    (h2 : ∀ r ∈ T2.filterMap Ev.visited, ∃ y r', ltBytes x y ∧ r = d ++ y :: r') :
    DirWalk m d (.enter (d ++ [x]) :: (T1 ++ .exit (d ++ [x]) :: T2)) := by
  have hV : (Ev.enter (d ++ [x]) :: (T1 ++ .exit (d ++ [x]) :: T2)).filterMap Ev.visited =
      (d ++ [x]) :: (T1.filterMap Ev.visited ++ T2.filterMap Ev.visited) := by simp [Ev.visited, List.filterMap_cons]
  have hR : rightText m (Ev.enter (d ++ [x]) :: (T1 ++ .exit (d ++ [x]) :: T2)) =
      lineAs m (d ++ [x]) (d ++ [x]) ++ (rightText m T1 ++ rightText m T2) := by simp [rightText, Ev.visited, List.filterMap_cons]
  have hS : shownFrom m d (Ev.enter (d ++ [x]) :: (T1 ++ .exit (d ++ [x]) :: T2)) =
      lineAs m (d ++ [x]) (d ++ [x]) ++ (shownFrom m (d ++ [x]) T1 ++ shownFrom m (leaveDir (ctxAfter (d ++ [x]) T1)) T2) := by
    simp only [shownFrom, drop_last, shownFrom_append]
  have hC : ctxAfter d (Ev.enter (d ++ [x]) :: (T1 ++ .exit (d ++ [x]) :: T2)) = ctxAfter (leaveDir (ctxAfter (d ++ [x]) T1)) T2 := by
    simp only [ctxAfter, drop_last, ctxAfter_append]
  -- the path when the directory is left
  have hc1 : ¬ HasDot ((d ++ [x]) :: T1.filterMap Ev.visited) → leaveDir (ctxAfter (d ++ [x]) T1) = d := by
    intro hn
    rw [g1.clean (fun ⟨e, he⟩ => hn ⟨e, by simp [he]⟩)]
    exact leaveDir_snoc _ (fun hx => hn ⟨d, by simp [hx]⟩)
  have hc2 : HasDot ((d ++ [x]) :: T1.filterMap Ev.visited) → ShortOf (leaveDir (ctxAfter (d ++ [x]) T1)) d := by
    rintro ⟨e, he⟩
    by_cases hh : HasDot (T1.filterMap Ev.visited)
    · exact (g1.dot hh).leave hd
    · rw [g1.clean hh]
      rcases List.mem_cons.mp he with he | he
      · have := (List.append_inj' he rfl).2
        simp only [List.cons.injEq, and_true] at this
        subst this
        rw [leaveDir_dot]
        exact ⟨(leaveDir_prefix d).1.sublist, (leaveDir_prefix d).2 hd⟩
      · exact absurd ⟨e, he⟩ hh
  have hne : T2.filterMap Ev.visited ≠ [] → cs ≠ [] := by
    intro hv hcs
    subst hcs
    cases t2
    exact hv rfl
  have hB := BadDot.node h1 h2
  refine ⟨?_, ?_, ?_, ?_⟩
  · rw [hV, hC]
    intro hn
    rw [hc1 (fun ⟨e, he⟩ => hn ⟨e, by rw [← List.cons_append]; exact List.mem_append_left _ he⟩)]
    exact g2.clean (fun ⟨e, he⟩ => hn ⟨e, by simp [he]⟩)
  · rw [hV, hC]
    rintro ⟨e, he⟩
    by_cases hh : HasDot ((d ++ [x]) :: T1.filterMap Ev.visited)
    · exact (trace_short t2 _ (hc2 hh)).1
    · rw [hc1 hh]
      rw [← List.cons_append, List.mem_append] at he
      rcases he with he | he
      · exact absurd ⟨e, he⟩ hh
      · exact g2.dot ⟨e, he⟩
  · rw [hV, hR, hS, hB]
    intro hn
    rw [g1.right (fun h => hn (Or.inl h))]
    by_cases hh : HasDot ((d ++ [x]) :: T1.filterMap Ev.visited)
    · have hv : T2.filterMap Ev.visited = [] := Classical.byContradiction (fun h => hn (Or.inr (Or.inl ⟨hh, h⟩)))
      have hT2 : T2 = [] := by
        cases t2 with
        | nil => rfl
        | leaf => simp [Ev.visited] at hv
        | dir => simp [Ev.visited] at hv
      subst hT2; rfl
    · rw [hc1 hh, g2.right (fun h => hn (Or.inr (Or.inr h)))]
  · rw [hV, hR, hS, hB]
    intro hb
    have l1 := g1.le
    have l2 : (shownFrom m (leaveDir (ctxAfter (d ++ [x]) T1)) T2).length ≤ (rightText m T2).length := by
      by_cases hh : HasDot ((d ++ [x]) :: T1.filterMap Ev.visited)
      · exact (trace_short t2 _ (hc2 hh)).2.1
      · rw [hc1 hh]; exact g2.le
    simp only [List.length_append]
    rcases hb with hb | ⟨hh, hv⟩ | hb
    · have := g1.wrong hb; omega
    · have := (trace_short t2 _ (hc2 hh)).2.2 (hne hv); omega
    · by_cases hh : HasDot ((d ++ [x]) :: T1.filterMap Ev.visited)
      · have := (trace_short t2 _ (hc2 hh)).2.2 (hne (by obtain ⟨e, _, he, _⟩ := hb; exact List.ne_nil_of_mem he))
        omega
      · rw [hc1 hh]; have := g2.wrong hb; omega

/-- the entries met below `d/x` and below the names after `x` -/
theorem TraceOf.under {m : PathMap} (wf : m.WF) {d ns : List Bytes} {T : List Ev} (h : TraceOf m d ns T)
    (hs : ns.Pairwise ltBytes) : ∀ q ∈ T.filterMap Ev.visited, ∃ y ∈ ns, ∃ q', q = d ++ y :: q' := by
  intro q hq
  obtain ⟨_, y, hy, q', e⟩ := ((h.visited wf hs).2 q).mp hq
  exact ⟨y, hy, q', by rw [← e]; simp⟩

theorem TraceOf.dirWalk {m : PathMap} (wf : m.WF) {d ns : List Bytes} {T : List Ev} (h : TraceOf m d ns T) :
    ns.Pairwise ltBytes → d ≠ [] → DirWalk m d T := by
  induction h with
  | nil d => intro _ _; exact .nil m d
  | @leaf d x cs T n h1 h2 h3 ih =>
    intro hs hd
    rw [List.pairwise_cons] at hs
    have := DirWalk.node (x := x) (T1 := []) hd (.nil m (d ++ [x])) (ih hs.2 hd) h3 (by simp) (by
      intro r hr
      obtain ⟨y, hy, r', e⟩ := h3.under wf hs.2 r hr
      exact ⟨y, r', hs.1 y hy, e⟩)
    exact ⟨this.clean, this.dot, this.right, this.wrong⟩
  | @dir d x cs ks T1 T2 n h1 h2 h3 h4 h5 ih1 ih2 =>
    intro hs hd
    rw [List.pairwise_cons] at hs
    refine DirWalk.node hd (ih1 h3.1 (by simp)) (ih2 hs.2 hd) h5 ?_ ?_
    · intro q hq
      obtain ⟨y, _, q', e⟩ := h4.under wf h3.1 q hq
      exact ⟨y :: q', by simp, by rw [e]; simp⟩
    · intro r hr
      obtain ⟨y, hy, r', e⟩ := h5.under wf hs.2 r hr
      exact ⟨y, r', hs.1 y hy, e⟩

/-- entries of the same top-level directory -/
def BadTop (V : List (List Bytes)) : Prop :=
  ∃ e r, e ++ [CUR] ∈ V ∧ r ∈ V ∧ lexLt (e ++ [CUR]) r ∧ ¬ e ++ [CUR] <+: r ∧ (e ++ [CUR]).head? = r.head?

theorem leaveDir_top {c : List Bytes} {x : Bytes} (h : c = [x] ∨ ShortOf c [x]) : leaveDir c = [] := by
  rcases h with rfl | h
  · have := (leaveDir_prefix [x]).2 (by simp)
    exact List.length_eq_zero_iff.mp (by simp at this; simp [this])
  · have := h.2
    have : c = [] := List.length_eq_zero_iff.mp (by simp at this; simp [this])
    subst this; rfl

theorem TraceOf.topWalk {m : PathMap} (wf : m.WF) {d ns : List Bytes} {T : List Ev} (h : TraceOf m d ns T) :
    ns.Pairwise ltBytes → d = [] →
      (shownFrom m [] T).length ≤ (rightText m T).length ∧
      (¬ BadTop (T.filterMap Ev.visited) → shownFrom m [] T = rightText m T) ∧
      (BadTop (T.filterMap Ev.visited) → (shownFrom m [] T).length < (rightText m T).length) := by
  induction h with
  | nil d => intro _ _; exact ⟨by simp [shownFrom, rightText], fun _ => rfl, fun ⟨_, _, h, _⟩ => by simp at h⟩
  | @leaf d x cs T n h1 h2 h3 ih =>
    intro hs hd
    subst hd
    rw [List.pairwise_cons] at hs
    obtain ⟨i1, i2, i3⟩ := ih hs.2 rfl
    have hS : shownFrom m [] (.leaf ([] ++ [x]) :: T) = lineAs m [x] [x] ++ shownFrom m [] T := by
      show lineAs m [x] [x] ++ shownFrom m (leaveDir [x]) T = _
      rw [leaveDir_top (Or.inl rfl)]
    have hR : rightText m (.leaf ([] ++ [x]) :: T) = lineAs m [x] [x] ++ rightText m T := by simp [rightText, Ev.visited, List.filterMap_cons]
    have hV : (Ev.leaf ([] ++ [x]) :: T).filterMap Ev.visited = [x] :: T.filterMap Ev.visited := by simp [Ev.visited, List.filterMap_cons]
    have hB : BadTop ([x] :: T.filterMap Ev.visited) ↔ BadTop (T.filterMap Ev.visited) := by
      have hh : ∀ q ∈ T.filterMap Ev.visited, q.head? ≠ some x := by
        intro q hq
        obtain ⟨y, hy, q', e⟩ := h3.under wf hs.2 q hq
        subst e
        simp only [List.nil_append, List.head?_cons, ne_eq, Option.some.injEq]
        intro e; subst e; exact ltBytes_irrefl _ (hs.1 _ hy)
      constructor
      · rintro ⟨e, r, he, hr, a1, a2, a3⟩
        rcases List.mem_cons.mp he with he | he
        · rcases List.mem_cons.mp hr with hr | hr
          · rw [he, hr] at a1; exact absurd a1 (lexLt_irrefl _)
          · rw [he] at a3; exact absurd a3.symm (hh r hr)
        · rcases List.mem_cons.mp hr with hr | hr
          · rw [hr] at a3; exact absurd a3 (hh _ he)
          · exact ⟨e, r, he, hr, a1, a2, a3⟩
      · rintro ⟨e, r, he, hr, a⟩
        exact ⟨e, r, by simp [he], by simp [hr], a⟩
    rw [hS, hR, hV, hB]
    refine ⟨by simp; omega, fun hn => by rw [i2 hn], fun hb => ?_⟩
    have := i3 hb
    simp; omega
  | @dir d x cs ks T1 T2 n h1 h2 h3 h4 h5 ih1 ih2 =>
    intro hs hd
    subst hd
    rw [List.pairwise_cons] at hs
    obtain ⟨i1, i2, i3⟩ := ih2 hs.2 rfl
    have g := h4.dirWalk wf h3.1 (by simp)
    simp only [List.nil_append] at g
    have hS : shownFrom m [] (.enter ([] ++ [x]) :: (T1 ++ .exit ([] ++ [x]) :: T2)) =
        lineAs m [x] [x] ++ (shownFrom m [x] T1 ++ shownFrom m [] T2) := by
      simp only [shownFrom, shownFrom_append]
      show lineAs m [x] [x] ++ (shownFrom m [x] T1 ++ shownFrom m (leaveDir (ctxAfter [x] T1)) T2) = _
      rw [leaveDir_top (x := x)]
      by_cases hh : HasDot (T1.filterMap Ev.visited)
      · exact Or.inr (g.dot hh)
      · exact Or.inl (g.clean hh)
    have hR : rightText m (.enter ([] ++ [x]) :: (T1 ++ .exit ([] ++ [x]) :: T2)) =
        lineAs m [x] [x] ++ (rightText m T1 ++ rightText m T2) := by simp [rightText, Ev.visited, List.filterMap_cons]
    have hV : (Ev.enter ([] ++ [x]) :: (T1 ++ .exit ([] ++ [x]) :: T2)).filterMap Ev.visited =
        [x] :: (T1.filterMap Ev.visited ++ T2.filterMap Ev.visited) := by simp [Ev.visited, List.filterMap_cons]
    have hB : BadTop ([x] :: (T1.filterMap Ev.visited ++ T2.filterMap Ev.visited)) ↔
        BadDot (T1.filterMap Ev.visited) ∨ BadTop (T2.filterMap Ev.visited) := by
      have hh2 : ∀ q ∈ T2.filterMap Ev.visited, q.head? ≠ some x := by
        intro q hq
        obtain ⟨y, hy, q', e⟩ := h5.under wf hs.2 q hq
        subst e
        simp only [List.nil_append, List.head?_cons, ne_eq, Option.some.injEq]
        intro e; subst e; exact ltBytes_irrefl _ (hs.1 _ hy)
      have hh1 : ∀ q ∈ T1.filterMap Ev.visited, ∃ q', q' ≠ [] ∧ q = x :: q' := by
        intro q hq
        obtain ⟨y, hy, q', e⟩ := h4.under wf h3.1 q hq
        exact ⟨y :: q', by simp, by rw [e]; simp⟩
      have hh1' : ∀ q ∈ [x] :: T1.filterMap Ev.visited, ∃ q', q = x :: q' := by
        intro q hq
        rcases List.mem_cons.mp hq with rfl | hq
        · exact ⟨[], rfl⟩
        · obtain ⟨q', _, e⟩ := hh1 q hq; exact ⟨q', e⟩
      rw [← List.cons_append]
      constructor
      · rintro ⟨e, r, he, hr, a1, a2, a3⟩
        rcases List.mem_append.mp he with he | he
        · obtain ⟨q', eq⟩ := hh1' _ he
          rcases List.mem_append.mp hr with hr | hr
          · rcases List.mem_cons.mp he with he | he
            · exfalso
              obtain ⟨r', er⟩ := hh1' r hr
              rw [he, er] at a2
              exact a2 ⟨r', rfl⟩
            · rcases List.mem_cons.mp hr with hr | hr
              · exfalso
                obtain ⟨p', hp', ep⟩ := hh1 _ he
                rw [ep, hr] at a1
                exact lexLt_irrefl _ (lexLt_trans (lexLt_append_right [x] p' hp') a1)
              · exact Or.inl ⟨e, r, he, hr, a1, a2⟩
          · rw [eq] at a3; exact absurd a3.symm (hh2 r hr)
        · rcases List.mem_append.mp hr with hr | hr
          · obtain ⟨r', er⟩ := hh1' r hr
            rw [er] at a3; exact absurd a3 (hh2 _ he)
          · exact Or.inr ⟨e, r, he, hr, a1, a2, a3⟩
      · rintro (⟨e, r, he, hr, a1, a2⟩ | ⟨e, r, he, hr, a⟩)
        · obtain ⟨q', _, eq⟩ := hh1 _ he
          obtain ⟨r', _, er⟩ := hh1 _ hr
          exact ⟨e, r, by simp [he], by simp [hr], a1, a2, by rw [eq, er]; rfl⟩
        · exact ⟨e, r, by simp [he], by simp [hr], a⟩
    have gl := g.le
    rw [hS, hR, hV, hB]
    refine ⟨by simp; omega, fun hn => by rw [i2 (fun h => hn (Or.inr h)), g.right (fun h => hn (Or.inl h))], ?_⟩
    simp only [List.length_append]
    rintro (hb | hb)
    · have := g.wrong hb; omega
    · have := i3 hb; omega

/-- **C12 (exactly when it holds).** For every created archive whose paths are UTF-8, `--stable-output 1` writes the lines of the property —
one per entry, with its path and the values it was added with, in the order of C11 — if and only if no entry comes after a directory named `.`, outside of it but in
the same top-level directory. -/
theorem C12_iff {rs : List AddReq} {a : Archive} {m : PathMap} (h : Written rs a)
    (hm : SpecRun PathMap.empty rs m) (hu : ∀ r ∈ rs, validUtf8 r.path = true)
    (depth : Nat) (hd : a.entries.length < depth) :
    (∃ V, Listing m [] V ∧ listCmd a (some 1) depth = (V.flatMap (stableLine m), true)) ↔
      ∀ r, m r ≠ none → ¬ AfterDot m r := by
  have wf : m.WF := by obtain ⟨P, G⟩ := h.good' hm; exact G.wf
  obtain ⟨ks, T, hk, ht, hl, he⟩ := C12_exact h hm hu depth hd
  obtain ⟨_, t2, t3⟩ := ht.topWalk wf hk.1 rfl
  have hB : BadTop (T.filterMap Ev.visited) ↔ ∃ r, m r ≠ none ∧ AfterDot m r := by
    have hmem : ∀ p, p ∈ T.filterMap Ev.visited ↔ m p ≠ none := by
      intro p
      rw [hl.2]
      constructor
      · rintro ⟨⟨n, hn⟩, _⟩; rw [hn]; simp
      · intro hp
        cases hmp : m p with
        | none => exact absurd hmp hp
        | some n => exact ⟨⟨n, rfl⟩, List.nil_prefix, by rintro rfl; rw [wf.root] at hmp; cases hmp⟩
    constructor
    · rintro ⟨e, r, a1, a2, a3, a4, a5⟩
      refine ⟨r, (hmem r).mp a2, e, ?_, (hmem _).mp a1, a3, a4, ?_⟩
      · rintro rfl
        cases r with
        | nil => simp at a5
        | cons y r' =>
          simp only [List.nil_append, List.head?_cons, Option.some.injEq] at a5
          subst a5
          exact a4 ⟨r', rfl⟩
      · cases e with
        | nil =>
          cases r with
          | nil => rfl
          | cons y r' =>
            simp only [List.nil_append, List.head?_cons, Option.some.injEq] at a5
            subst a5
            exact absurd ⟨r', rfl⟩ a4
        | cons y e' => rw [← a5]; rfl
    · rintro ⟨r, hr, e, h0, h1, h2, h3, h4⟩
      refine ⟨e, r, (hmem _).mpr h1, (hmem r).mpr hr, h2, h3, ?_⟩
      cases e with
      | nil => exact absurd rfl h0
      | cons y e' => rw [h4]; rfl
  constructor
  · rintro ⟨V, hV, hx⟩ r hr hbad
    have := hV.unique hl; subst this
    have hlt := t3 (hB.mpr ⟨r, hr, hbad⟩)
    rw [he] at hx
    have : shownFrom m [] T = rightText m T := congrArg Prod.fst hx
    rw [this] at hlt
    exact Nat.lt_irrefl _ hlt
  · intro hgood
    refine ⟨_, hl, ?_⟩
    rw [he, t2 (fun hb => by obtain ⟨r, hr, hx⟩ := hB.mp hb; exact hgood r hr hx)]
    rfl

/-- non-vacuity: in the archive of C10_counterexample the entry `a/c` comes after the directory `a/.` -/
example : ∃ m, SpecRun PathMap.empty dotReqs m ∧ ¬ ∃ V, Listing m [] V ∧
    listCmd dotArchive (some 1) 10 = (V.flatMap (stableLine m), true) := by
  obtain ⟨m, _, hs, _⟩ := run_rel (st := dotSt) (rs := dotReqs) (by rfl)
  refine ⟨m, hs, ?_⟩
  rw [C12_iff dotWritten hs (by decide) 10 (by decide)]
  have found : ∀ p : RPath, comps p ≠ [] → dotArchive.getEntry fullBuilder p ≠ .error .notFound → m (comps p) ≠ none := by
    intro p hp hne hn
    have := C01_read_back dotWritten hs p hp
    rw [hn] at this
    exact hne this
  intro h
  exact h [ascii "a", ascii "c"] (found (ascii "a/c") (by decide) (by decide))
    ⟨[ascii "a"], by simp, found (ascii "a/.") (by decide) (by decide), by decide, by decide, by decide⟩

theorem TraceOf.det {m : PathMap} {d ns : List Bytes} {T1 T2 : List Ev} (h : TraceOf m d ns T1) : TraceOf m d ns T2 → T1 = T2 := by
  induction h generalizing T2 with
  | nil => intro hy; cases hy; rfl
  | leaf q1 q2 q3 ih =>
    intro hy
    cases hy with
    | leaf r1 r2 r3 => rw [ih r3]
    | dir r1 r2 r3 r4 r5 => rw [q1] at r1; cases r1; rw [q2] at r2; cases r2
  | dir q1 q2 q3 q4 q5 ih1 ih2 =>
    intro hy
    cases hy with
    | leaf r1 r2 r3 => rw [q1] at r1; cases r1; rw [q2] at r2; cases r2
    | dir r1 r2 r3 r4 r5 =>
      have := q3.unique r3; subst this
      rw [ih1 r4, ih2 r5]

/-- without names `.` no entry comes after one -/
theorem not_afterDot {m : PathMap} (h : ∀ p n, m p = some n → CUR ∉ p) : ∀ r, m r ≠ none → ¬ AfterDot m r := by
  rintro r _ ⟨d, _, h1, _⟩
  cases hx : m (d ++ [CUR]) with
  | none => exact h1 hx
  | some n => exact h _ n hx (by simp)

end Arx
