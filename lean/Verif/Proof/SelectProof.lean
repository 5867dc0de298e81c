import Verif.Spec.Extract
/-!
# `should_extract` computes the selection
-/
namespace Arx

theorem dropTrailingCur_spec (l : List Bytes) :
    dropTrailingCur l = [] ∧ (∀ c ∈ l, c = CUR) ∨
    ∃ r c t, dropTrailingCur l = r ++ [c] ∧ c ≠ CUR ∧ l = r ++ c :: t ∧ ∀ x ∈ t, x = CUR := by
  induction l using List.reverseRecOn' with
  | nil => left; simp
  | snoc l x ih =>
    by_cases hx : x = CUR
    · subst hx
      rw [dropTrailingCur_concat_cur]
      rcases ih with ⟨h1, h2⟩ | ⟨r, c, t, h1, h2, h3, h4⟩
      · left; refine ⟨h1, ?_⟩
        intro c hc; simp at hc; rcases hc with hc | hc
        · exact h2 c hc
        · exact hc
      · right; refine ⟨r, c, t ++ [CUR], h1, h2, by rw [h3]; simp, ?_⟩
        intro y hy; simp at hy; rcases hy with hy | hy
        · exact h4 y hy
        · exact hy
    · right
      exact ⟨l, x, [], dropTrailingCur_concat l hx, hx, rfl, by simp⟩
where
  List.reverseRecOn' {motive : List Bytes → Prop} (l : List Bytes) (nil : motive [])
      (snoc : ∀ l x, motive l → motive (l ++ [x])) : motive l := by
    have : ∀ n (l : List Bytes), l.length = n → motive l := by
      intro n
      induction n with
      | zero => intro l h; have : l = [] := List.length_eq_zero_iff.mp h; subst this; exact nil
      | succ n ih =>
        intro l h
        have hne : l ≠ [] := by intro e; subst e; simp at h
        rw [← List.dropLast_concat_getLast hne]
        exact snoc _ _ (ih _ (by simp; omega))
    exact this _ l rfl

/-- the chain of parents, as component lists -/
theorem ancestors_spec : ∀ (f : Nat) (p : RPath) (q : List Bytes), (comps p).length < f →
    ((∃ r ∈ ancestors f p, comps r = q) ↔ p ≠ [] ∧ (q = [] ∨ ∃ c t, comps p = q ++ c :: t ∧ c ≠ CUR)) := by
  intro f
  induction f with
  | zero => intro p q h; omega
  | succ f ih =>
    intro p q hf
    simp only [ancestors]
    cases hp : RPath.parent p with
    | none =>
      have := parent_eq_none.mp hp
      subst this; simp
    | some r =>
      have hpne : p ≠ [] := fun e => by rw [parent_eq_none.mpr e] at hp; cases hp
      have hr := comps_parent hp
      simp only [List.mem_cons, exists_eq_or_imp]
      rcases dropTrailingCur_spec (comps p) with ⟨h1, h2⟩ | ⟨r', c, t, h1, h2, h3, h4⟩
      · rw [h1] at hr
        simp only [List.dropLast_nil] at hr
        have hno : ¬ ∃ c t, comps p = q ++ c :: t ∧ c ≠ CUR := by
          rintro ⟨c, t, he, hc⟩
          exact hc (h2 c (by rw [he]; simp))
        constructor
        · rintro (h | ⟨x, hx, hxq⟩)
          · exact ⟨hpne, Or.inl (by rw [← h, hr])⟩
          · cases f with
            | zero => simp [ancestors] at hx
            | succ f =>
            have := (ih r q (by rw [hr]; simp)).mp ⟨x, hx, hxq⟩
            rcases this.2 with h | ⟨c, t, he, hc⟩
            · exact ⟨hpne, Or.inl h⟩
            · rw [hr] at he; simp at he
        · rintro ⟨_, h | h⟩
          · left; rw [hr, h]
          · exact absurd h hno
      · rw [h1, List.dropLast_concat] at hr
        have hlen : (comps r).length < f := by
          rw [hr]; rw [h3] at hf; simp at hf; omega
        rw [ih r q hlen, hr]
        constructor
        · rintro (h | ⟨h, h' | ⟨c', t', he, hc'⟩⟩)
          · exact ⟨hpne, Or.inr ⟨c, t, by rw [h3, h], h2⟩⟩
          · exact ⟨hpne, Or.inl h'⟩
          · exact ⟨hpne, Or.inr ⟨c', t' ++ c :: t, by rw [h3, he]; simp, hc'⟩⟩
        · rintro ⟨_, h | ⟨c', t', he, hc'⟩⟩
          · subst h
            by_cases hrn : r = []
            · left; rw [← hr, hrn]; rfl
            · right; exact ⟨hrn, Or.inl rfl⟩
          · -- q ++ c' :: t' = r' ++ c :: t with t all "."
            rw [h3] at he
            rcases List.append_eq_append_iff.mp he with ⟨u, hu, hv⟩ | ⟨u, hu, hv⟩
            · -- q = r' ++ u, c :: t = u ++ c' :: t'
              cases u with
              | nil => left; simp at hu; exact hu.symm
              | cons x xs =>
                simp only [List.cons_append, List.cons.injEq] at hv
                exact absurd (h4 c' (by rw [hv.2]; simp)) hc'
            · -- r' = q ++ u
              cases u with
              | nil => left; simp at hu; exact hu
              | cons x xs =>
                simp only [List.cons_append, List.cons.injEq] at hv
                by_cases hrn : r = []
                · subst hrn; simp at hr; rw [hu] at hr; simp at hr
                · right; exact ⟨hrn, Or.inr ⟨x, xs, hu, by rw [← hv.1]; exact hc'⟩⟩

theorem XCfg.contains_iff {cfg : XCfg} {p : RPath} : cfg.contains p = true ↔ ∃ f ∈ cfg.files, comps f = comps p := by
  simp [XCfg.contains, RPath.eqv]

theorem shouldExtract_iff (cfg : XCfg) {cur : RPath} {p : List Bytes} (hc : comps cur = p) (hp : p ≠ [])
    (hcur : ∀ c ∈ p, c ≠ CUR) (isDir : Bool) :
    cfg.shouldExtract cur isDir = true ↔ Selected cfg.files cfg.recurse p isDir := by
  have hne : cur ≠ [] := by intro e; subst e; exact hp hc.symm
  have hA : (ancestors (cur.length + 2) cur).any (fun p => cfg.contains p) = true ↔
      ∃ f ∈ cfg.files, comps f <+: p ∧ comps f ≠ p := by
    simp only [List.any_eq_true]
    constructor
    · rintro ⟨r, hr, hcr⟩
      obtain ⟨f, hf, he⟩ := XCfg.contains_iff.mp hcr
      have := (ancestors_spec (cur.length + 2) cur (comps r) (by have := length_comps_le cur; omega)).mp ⟨r, hr, rfl⟩
      refine ⟨f, hf, ?_⟩
      rw [he]
      rcases this.2 with h | ⟨c, t, h, _⟩
      · rw [h]; exact ⟨List.nil_prefix, fun e => hp e.symm⟩
      · rw [← hc, h]; exact ⟨List.prefix_append _ _, by simp⟩
    · rintro ⟨f, hf, hpre, hnep⟩
      obtain ⟨t, ht⟩ := hpre
      have : ∃ r ∈ ancestors (cur.length + 2) cur, comps r = comps f := by
        rw [ancestors_spec _ _ _ (by have := length_comps_le cur; omega)]
        refine ⟨hne, Or.inr ?_⟩
        cases t with
        | nil => simp at ht; exact absurd ht hnep
        | cons c t => exact ⟨c, t, by rw [hc, ← ht], hcur c (by rw [← ht]; simp)⟩
      obtain ⟨r, hr, he⟩ := this
      exact ⟨r, hr, XCfg.contains_iff.mpr ⟨f, hf, he.symm⟩⟩
  have hB : cfg.files.any (fun f => (ancestors (f.length + 2) f).any (fun p => RPath.eqv cur p)) = true ↔
      ∃ f ∈ cfg.files, ∃ c t, comps f = p ++ c :: t ∧ c ≠ CUR := by
    simp only [List.any_eq_true, RPath.eqv, beq_iff_eq]
    constructor
    · rintro ⟨f, hf, r, hr, he⟩
      refine ⟨f, hf, ?_⟩
      have := (ancestors_spec (f.length + 2) f p (by have := length_comps_le f; omega)).mp ⟨r, hr, by rw [← he, hc]⟩
      rcases this.2 with h | h
      · exact absurd h hp
      · exact h
    · rintro ⟨f, hf, c, t, he, hcc⟩
      refine ⟨f, hf, ?_⟩
      have : ∃ r ∈ ancestors (f.length + 2) f, comps r = p := by
        rw [ancestors_spec _ _ _ (by have := length_comps_le f; omega)]
        exact ⟨fun e => by subst e; simp at he, Or.inr ⟨c, t, he, hcc⟩⟩
      obtain ⟨r, hr, h⟩ := this
      exact ⟨r, hr, by rw [hc, h]⟩
  simp only [XCfg.shouldExtract, Selected, List.isEmpty_iff]
  split
  · rename_i h; simp [h]
  · rename_i hfe
    split
    · rename_i h
      obtain ⟨f, hf, he⟩ := XCfg.contains_iff.mp h
      simp only [true_iff]
      exact Or.inr ⟨f, hf, Or.inl (by rw [he, hc])⟩
    · rename_i hcon
      have hcon' : ¬ ∃ f ∈ cfg.files, comps f = p := by rw [← hc]; exact fun h => hcon (XCfg.contains_iff.mpr h)
      split
      · rename_i h
        simp only [Bool.and_eq_true] at h
        obtain ⟨f, hf, h1, h2⟩ := hA.mp h.2
        simp only [true_iff]
        exact Or.inr ⟨f, hf, Or.inr (Or.inl ⟨h.1, h1, h2⟩)⟩
      · rename_i hrec
        simp only [Bool.and_eq_true, not_and] at hrec
        split
        · rename_i h
          simp only [Bool.and_eq_true] at h
          obtain ⟨f, hf, h1⟩ := hB.mp h.2
          simp only [true_iff]
          exact Or.inr ⟨f, hf, Or.inr (Or.inr ⟨h.1, h1⟩)⟩
        · rename_i hdir
          simp only [Bool.and_eq_true, not_and] at hdir
          simp only [Bool.false_eq_true, false_iff]
          rintro (h | ⟨f, hf, h | ⟨h1, h2, h3⟩ | ⟨h1, h2⟩⟩)
          · exact hfe h
          · exact hcon' ⟨f, hf, h⟩
          · exact hrec h1 (hA.mpr ⟨f, hf, h2, h3⟩)
          · exact hdir h1 (hB.mpr ⟨f, hf, h2⟩)

/-- Directories on the way to a selected entry are selected. -/
theorem Selected.up {files : List RPath} {recurse d : Bool} {p q : List Bytes} (h : Selected files recurse p d)
    (hq : q <+: p) (hne : q ≠ p) (hcur : ∀ c ∈ p, c ≠ CUR) : Selected files recurse q true := by
  rcases h with h | ⟨f, hf, h⟩
  · exact Or.inl h
  · right
    refine ⟨f, hf, ?_⟩
    obtain ⟨t, ht⟩ := hq
    cases t with
    | nil => simp at ht; exact absurd ht hne
    | cons c t =>
      have hc : c ≠ CUR := hcur c (by rw [← ht]; simp)
      rcases h with h | ⟨h1, h2, h3⟩ | ⟨h1, c', t', h2, h3⟩
      · exact Or.inr (Or.inr ⟨rfl, c, t, by rw [h, ht], hc⟩)
      · obtain ⟨u, hu⟩ := h2
        rw [← ht] at hu
        rcases List.append_eq_append_iff.mp hu with ⟨v, hv, hv'⟩ | ⟨v, hv, hv'⟩
        · cases v with
          | nil => left; simp at hv; exact hv.symm
          | cons x xs => exact Or.inr (Or.inl ⟨h1, ⟨_, hv.symm⟩, by rw [hv]; simp⟩)
        · cases v with
          | nil => left; simp at hv; exact hv
          | cons x xs =>
            simp only [List.cons_append, List.cons.injEq] at hv'
            exact Or.inr (Or.inr ⟨rfl, x, xs, hv, by rw [← hv'.1]; exact hc⟩)
      · exact Or.inr (Or.inr ⟨rfl, c, t ++ c' :: t', by rw [h2, ← ht]; simp, hc⟩)

end Arx
