import Verif.Proof.CreatorRefine
import Verif.Spec.Encodes
/-!
# Finalization finds the canonical order, and the written table encodes the map
-/
namespace Arx

/-! ## sorting -/

theorem insertBy_perm (le) (a : Nat) (l : List Nat) : (insertBy le a l).Perm (a :: l) := by
  induction l with
  | nil => exact List.Perm.refl _
  | cons b l ih =>
    simp only [insertBy]; split
    · exact List.Perm.refl _
    · exact (List.Perm.cons b ih).trans (List.Perm.swap a b l)

theorem sortBy_perm (le) (l : List Nat) : (sortBy le l).Perm l := by
  induction l with
  | nil => exact List.Perm.refl _
  | cons a l ih => exact (insertBy_perm le a _).trans (List.Perm.cons a ih)

theorem sortBy_pairwise {le : Nat → Nat → Bool} (htot : ∀ a b, le a b = false → le b a = true)
    (htrans : ∀ a b c, le a b = true → le b c = true → le a c = true) (l : List Nat) :
    (sortBy le l).Pairwise (fun a b => le a b = true) := by
  induction l with
  | nil => exact List.Pairwise.nil
  | cons a l ih =>
    simp only [sortBy]
    have : ∀ l : List Nat, l.Pairwise (fun a b => le a b = true) →
        (insertBy le a l).Pairwise (fun a b => le a b = true) := by
      intro l
      induction l with
      | nil => intro _; simp [insertBy]
      | cons b l ih =>
        intro h
        simp only [insertBy]
        have h' := List.pairwise_cons.mp h
        split
        · rename_i hab
          rw [List.pairwise_cons]
          refine ⟨?_, h⟩
          intro c hc
          rcases List.mem_cons.mp hc with rfl | hc
          · exact hab
          · exact htrans _ _ _ hab (h'.1 c hc)
        · rename_i hab
          rw [List.pairwise_cons]
          refine ⟨?_, ih h'.2⟩
          intro c hc
          rcases List.mem_cons.mp ((insertBy_perm le a l).mem_iff.mp hc) with rfl | hc
          · exact htot _ _ (by simpa using hab)
          · exact h'.1 c hc
    exact this _ ih

theorem sortedBy_iff {le : Nat → Nat → Bool}
    (htrans : ∀ a b c, le a b = true → le b c = true → le a c = true) (l : List Nat) :
    sortedBy le l = true ↔ l.Pairwise (fun a b => le a b = true) := by
  induction l with
  | nil => simp [sortedBy]
  | cons a l ih =>
    cases l with
    | nil => simp [sortedBy]
    | cons b l =>
      simp only [sortedBy, Bool.and_eq_true, ih]
      rw [List.pairwise_cons (a := a)]
      constructor
      · rintro ⟨h1, h2⟩
        refine ⟨?_, h2⟩
        intro c hc
        rcases List.mem_cons.mp hc with rfl | hc
        · exact h1
        · exact htrans _ _ _ h1 ((List.pairwise_cons.mp h2).1 c hc)
      · rintro ⟨h1, h2⟩
        exact ⟨h1 b (by simp), h2⟩

/-! ## positions -/

theorem posOf_getElem? {o : List Nat} {a : Nat} (h : a ∈ o) : o[posOf o a]? = some a := by
  rw [posOf, List.getElem?_eq_getElem (List.idxOf_lt_length_of_mem h)]
  simp

theorem posOf_lt {o : List Nat} {a : Nat} (h : a ∈ o) : posOf o a < o.length :=
  List.idxOf_lt_length_of_mem h

theorem posOf_inj {o : List Nat} {a b : Nat} (ha : a ∈ o) (hb : b ∈ o) (h : posOf o a = posOf o b) : a = b := by
  have h1 := posOf_getElem? ha
  rw [h, posOf_getElem? hb] at h1; simpa using h1.symm

theorem posOf_of_getElem? {o : List Nat} (hn : o.Nodup) {i a : Nat} (h : o[i]? = some a) : posOf o a = i := by
  obtain ⟨hi, h'⟩ := List.getElem?_eq_some_iff.mp h
  subst h'
  have hm : o[i] ∈ o := List.getElem_mem hi
  have h2 := posOf_getElem? hm
  have h3 : o[posOf o o[i]]? = o[i]? := by rw [h2, h]
  exact (List.getElem?_inj (posOf_lt hm) hn).mp h3

theorem pairwise_posOf {R : Nat → Nat → Prop} {o : List Nat} (hp : o.Pairwise R)
    {a b : Nat} (ha : a ∈ o) (hb : b ∈ o) (h : posOf o a < posOf o b) : R a b := by
  have h1 := List.getElem?_eq_some_iff.mp (posOf_getElem? ha)
  have h2 := List.getElem?_eq_some_iff.mp (posOf_getElem? hb)
  have := List.pairwise_iff_getElem.mp hp _ _ h1.1 h2.1 h
  rw [h1.2, h2.2] at this; exact this

/-! ## convergence -/

/-- ghost path of a created entry -/
def pth (paths : List (List Bytes)) (id : Nat) : List Bytes := (paths[id]?).getD []

/-- the numbering `o` is right for all pairs of which one member has depth at most `k` -/
def GoodTo (paths : List (List Bytes)) (k : Nat) (o : List Nat) : Prop :=
  ∀ a b, a < paths.length → b < paths.length →
    ((pth paths a).length ≤ k ∨ (pth paths b).length ≤ k) →
    (posOf o a < posOf o b ↔ canonLt (pth paths a) (pth paths b))

section
variable {st : Creator} {m : PathMap} {paths : List (List Bytes)} (R : Rel st m paths)
include R

theorem Rel.store_lt {id : Nat} (h : id < paths.length) : ∃ e, st.store[id]? = some e :=
  ⟨_, List.getElem?_eq_getElem (by rw [← R.len]; exact h)⟩

theorem Rel.pth_eq {id : Nat} {e : CEntry} (h : st.store[id]? = some e) :
    pth paths id = curPath paths e.parent ++ [e.name] := by
  simp [pth, R.path id e h]

theorem Rel.pth_inj {a b : Nat} (ha : a < paths.length) (hb : b < paths.length)
    (h : pth paths a = pth paths b) : a = b := by
  simp only [pth, List.getElem?_eq_getElem ha, List.getElem?_eq_getElem hb, Option.getD_some] at h
  have : paths[a]? = paths[b]? := by
    rw [List.getElem?_eq_getElem ha, List.getElem?_eq_getElem hb, h]
  exact (List.getElem?_inj ha R.nodup).mp this

theorem Rel.pth_ne_nil {a : Nat} (ha : a < paths.length) : pth paths a ≠ [] := by
  obtain ⟨e, he⟩ := R.store_lt ha
  rw [R.pth_eq he]; simp

theorem Rel.parent_lt {i : Nat} {e : CEntry} {p : Nat} (h : st.store[i]? = some e) (hp : e.parent = some p) :
    p < paths.length := by
  obtain ⟨_, pe, hpe, _⟩ := R.parent i e p h hp
  rw [R.len]; exact (List.getElem?_eq_some_iff.mp hpe).1

/-- canonical order implies key order, if the numbering is right one level up -/
theorem Rel.keyCmp_lt {k : Nat} {o : List Nat} (ho : o.Perm (List.range paths.length))
    (hg : GoodTo paths k o) {a b : Nat} (ha : a < paths.length) (hb : b < paths.length)
    (hd : (pth paths a).length ≤ k + 1 ∨ (pth paths b).length ≤ k + 1)
    (h : canonLt (pth paths a) (pth paths b)) : keyCmp st o a b = .lt := by
  obtain ⟨ea, hea⟩ := R.store_lt ha
  obtain ⟨eb, heb⟩ := R.store_lt hb
  simp only [keyCmp, hea, heb]
  rw [R.pth_eq hea, R.pth_eq heb] at h hd
  have hmem : ∀ x, x < paths.length → x ∈ o := by
    intro x hx; rw [ho.mem_iff]; simpa using hx
  simp only [List.length_append, List.length_singleton, Nat.add_le_add_iff_right] at hd
  rcases canonLt_snoc.mp h with h | ⟨h, hn⟩
  · -- parents differ
    have hlt : parentKey o ea.parent < parentKey o eb.parent := by
      cases hpa : ea.parent with
      | none =>
        cases hpb : eb.parent with
        | none => rw [hpa, hpb] at h; exact absurd h (canonLt_irrefl _)
        | some pb => simp [parentKey]
      | some pa =>
        cases hpb : eb.parent with
        | none =>
          rw [hpa, hpb] at h; unfold canonLt at h
          simp only [curPath_none, List.length_nil] at h
          rcases h with h | ⟨_, h⟩
          · omega
          · cases hx : curPath paths (some pa) <;> simp [hx, lexLt] at h
        | some pb =>
          rw [hpa, hpb] at h hd
          have := (hg pa pb (R.parent_lt hea hpa) (R.parent_lt heb hpb) hd).mpr h
          simp only [parentKey]; omega
    rw [Nat.compare_eq_lt.mpr hlt]
  · have hpar : ea.parent = eb.parent := R.curPath_inj (R.parentHandle hea) (R.parentHandle heb) h
    have : compare (parentKey o ea.parent) (parentKey o eb.parent) = .eq := by
      rw [hpar, Nat.compare_eq_eq]
    rw [this]; exact hn

/-- sorting with a numbering right to depth `k` gives a numbering right to depth `k+1` -/
theorem Rel.goodTo_step {k : Nat} {o o' : List Nat} (ho : o.Perm (List.range paths.length))
    (ho' : o'.Perm (List.range paths.length)) (hs : o'.Pairwise (fun a b => keyCmp st o a b ≠ .gt))
    (hg : GoodTo paths k o) : GoodTo paths (k + 1) o' := by
  have hmem : ∀ x, x < paths.length → x ∈ o' := by
    intro x hx; rw [ho'.mem_iff]; simpa using hx
  have hrev : ∀ a b, keyCmp st o b a = (keyCmp st o a b).swap := by
    intro a b
    simp only [keyCmp]
    cases st.store[a]? with
    | none => cases st.store[b]? <;> rfl
    | some ea =>
      cases st.store[b]? with
      | none => rfl
      | some eb =>
        simp only
        rw [← Nat.compare_swap (parentKey o ea.parent)]
        cases compare (parentKey o ea.parent) (parentKey o eb.parent) <;> simp
        exact cmpBytes_swap _ _
  have hfwd : ∀ a b, a < paths.length → b < paths.length →
      ((pth paths a).length ≤ k + 1 ∨ (pth paths b).length ≤ k + 1) →
      canonLt (pth paths a) (pth paths b) → posOf o' a < posOf o' b := by
    intro a b ha hb hd h
    have hk := R.keyCmp_lt ho hg ha hb hd h
    rcases Nat.lt_trichotomy (posOf o' a) (posOf o' b) with h' | h' | h'
    · exact h'
    · have := posOf_inj (hmem a ha) (hmem b hb) h'
      subst this; exact absurd h (canonLt_irrefl _)
    · have := pairwise_posOf hs (hmem b hb) (hmem a ha) h'
      rw [hrev, hk] at this; simp at this
  intro a b ha hb hd
  constructor
  · intro h
    rcases canonLt_trichotomy (pth paths a) (pth paths b) with h' | h' | h'
    · exact h'
    · have := R.pth_inj ha hb h'; subst this; omega
    · have := hfwd b a hb ha hd.symm h'; omega
  · exact hfwd a b ha hb hd

theorem Rel.goodTo_zero (o : List Nat) : GoodTo paths 0 o := by
  intro a b ha hb hd
  exfalso
  rcases hd with h | h
  · exact R.pth_ne_nil ha (List.length_eq_zero_iff.mp (by omega))
  · exact R.pth_ne_nil hb (List.length_eq_zero_iff.mp (by omega))

/-- a self-sorted numbering is the canonical one -/
theorem Rel.layout_good {o : List Nat} (h : IsLayout st o) (k : Nat) : GoodTo paths k o := by
  have ho : o.Perm (List.range paths.length) := by rw [R.len]; exact h.1
  induction k with
  | zero => exact R.goodTo_zero o
  | succ k ih => exact R.goodTo_step ho ho h.2 ih

theorem Rel.layout_pos {o : List Nat} (h : IsLayout st o) {a b : Nat} (ha : a < paths.length)
    (hb : b < paths.length) : posOf o a < posOf o b ↔ canonLt (pth paths a) (pth paths b) :=
  R.layout_good h (pth paths a).length a b ha hb (Or.inl (Nat.le_refl _))

theorem Rel.keyLe_total (o : List Nat) (a b : Nat) : keyLe st o a b = false → keyLe st o b a = true := by
  simp only [keyLe, keyCmp]
  cases st.store[a]? with
  | none => simp
  | some ea =>
    cases st.store[b]? with
    | none => simp
    | some eb =>
      simp only
      rw [← Nat.compare_swap (parentKey o ea.parent)]
      cases compare (parentKey o ea.parent) (parentKey o eb.parent) with
      | lt => simp
      | gt => simp
      | eq =>
        simp only [Ordering.swap]
        rw [cmpBytes_swap ea.name eb.name]
        cases cmpBytes ea.name eb.name <;> simp

end

/-- lexicographic comparison of (number, name) keys is transitive -/
theorem key_le_trans {x y z : Nat} {a b c : Bytes}
    (h1 : (match compare x y with | .eq => cmpBytes a b | o => o) ≠ .gt)
    (h2 : (match compare y z with | .eq => cmpBytes b c | o => o) ≠ .gt) :
    (match compare x z with | .eq => cmpBytes a c | o => o) ≠ .gt := by
  rcases Nat.lt_trichotomy x y with hxy | hxy | hxy
  · rcases Nat.lt_trichotomy y z with hyz | hyz | hyz
    · rw [Nat.compare_eq_lt.mpr (Nat.lt_trans hxy hyz)]; simp
    · subst hyz; rw [Nat.compare_eq_lt.mpr hxy]; simp
    · rw [Nat.compare_eq_gt.mpr hyz] at h2; simp at h2
  · subst hxy
    rcases Nat.lt_trichotomy x z with hyz | hyz | hyz
    · rw [Nat.compare_eq_lt.mpr hyz]; simp
    · subst hyz
      rw [Nat.compare_eq_eq.mpr rfl] at *
      simp only at *
      intro hgt
      rw [cmpBytes_gt] at hgt
      rcases ltBytes_trichotomy a b with h | h | h
      · rcases ltBytes_trichotomy b c with h' | h' | h'
        · exact ltBytes_asymm (ltBytes_trans h h') hgt
        · subst h'; exact ltBytes_asymm h hgt
        · exact h2 (cmpBytes_gt.mpr h')
      · subst h; exact h2 (cmpBytes_gt.mpr hgt)
      · exact h1 (cmpBytes_gt.mpr h)
    · rw [Nat.compare_eq_gt.mpr hyz] at h2; simp at h2
  · rw [Nat.compare_eq_gt.mpr hxy] at h1; simp at h1

section
variable {st : Creator} {m : PathMap} {paths : List (List Bytes)} (R : Rel st m paths)
include R

/-- sorting the whole table with the keys of any numbering -/
theorem Rel.sort_spec {o : List Nat} (ho : o.Perm (List.range paths.length)) :
    (sortBy (keyLe st o) o).Perm (List.range paths.length) ∧
    (sortBy (keyLe st o) o).Pairwise (fun a b => keyCmp st o a b ≠ .gt) := by
  refine ⟨(sortBy_perm _ _).trans ho, ?_⟩
  -- make the relation transitive by restricting to known entries
  let le' : Nat → Nat → Bool := fun a b =>
    if a < paths.length then (if b < paths.length then keyLe st o a b else true)
    else decide (¬ b < paths.length)
  have hle : ∀ a ∈ o, ∀ b ∈ o, keyLe st o a b = le' a b := by
    intro a ha b hb
    have ha' : a < paths.length := by simpa using ho.mem_iff.mp ha
    have hb' : b < paths.length := by simpa using ho.mem_iff.mp hb
    simp [le', ha', hb']
  have hins : ∀ (a : Nat) (l : List Nat), a ∈ o → (∀ x ∈ l, x ∈ o) →
      insertBy (keyLe st o) a l = insertBy le' a l := by
    intro a l ha
    induction l with
    | nil => intro _; rfl
    | cons b l ih =>
      intro hl
      simp only [insertBy, hle a ha b (hl b (by simp)), ih (fun x hx => hl x (by simp [hx]))]
  have hsort : ∀ l : List Nat, (∀ x ∈ l, x ∈ o) → sortBy (keyLe st o) l = sortBy le' l := by
    intro l
    induction l with
    | nil => intro _; rfl
    | cons b l ih =>
      intro hl
      have ih' := ih (fun x hx => hl x (by simp [hx]))
      simp only [sortBy, ih']
      apply hins b _ (hl b (by simp))
      intro x hx
      exact hl x (by simp [(sortBy_perm le' l).mem_iff.mp hx])
  have htot : ∀ a b, le' a b = false → le' b a = true := by
    intro a b
    simp only [le']
    by_cases ha : a < paths.length <;> by_cases hb : b < paths.length <;> simp [ha, hb]
    · exact R.keyLe_total o a b
  have htrans : ∀ a b c, le' a b = true → le' b c = true → le' a c = true := by
    intro a b c
    simp only [le']
    by_cases ha : a < paths.length <;> by_cases hb : b < paths.length <;>
      by_cases hc : c < paths.length <;> simp [ha, hb, hc]
    obtain ⟨ea, hea⟩ := R.store_lt ha
    obtain ⟨eb, heb⟩ := R.store_lt hb
    obtain ⟨ec, hec⟩ := R.store_lt hc
    simp only [keyLe, keyCmp, hea, heb, hec, bne_iff_ne]
    exact key_le_trans
  rw [hsort o (fun x hx => hx)]
  have hp := sortBy_pairwise htot htrans o
  refine List.Pairwise.imp_of_mem ?_ hp
  intro a b ha hb hab
  rw [← hle a ((sortBy_perm _ _).mem_iff.mp ha) b ((sortBy_perm _ _).mem_iff.mp hb)] at hab
  simpa [keyLe] using hab

theorem Rel.sorted_spec {o : List Nat} (ho : o.Perm (List.range paths.length)) :
    sortedBy (keyLe st o) o = true ↔ o.Pairwise (fun a b => keyCmp st o a b ≠ .gt) := by
  have hmem : ∀ x ∈ o, x < paths.length := fun x hx => by simpa using ho.mem_iff.mp hx
  have : ∀ l : List Nat, (∀ x ∈ l, x < paths.length) →
      (sortedBy (keyLe st o) l = true ↔ l.Pairwise (fun a b => keyCmp st o a b ≠ .gt)) := by
    intro l
    induction l with
    | nil => simp [sortedBy]
    | cons a l ih =>
      intro hl
      cases l with
      | nil => simp [sortedBy]
      | cons b l =>
        simp only [sortedBy, Bool.and_eq_true, ih (fun x hx => hl x (by simp [hx]))]
        rw [List.pairwise_cons (a := a)]
        constructor
        · rintro ⟨h1, h2⟩
          refine ⟨?_, h2⟩
          intro c hc
          rcases List.mem_cons.mp hc with rfl | hc
          · simpa [keyLe] using h1
          · have h3 := (List.pairwise_cons.mp h2).1 c hc
            obtain ⟨ea, hea⟩ := R.store_lt (hl a (by simp))
            obtain ⟨eb, heb⟩ := R.store_lt (hl b (by simp))
            obtain ⟨ec, hec⟩ := R.store_lt (hl c (by simp [hc]))
            have h1' : keyCmp st o a b ≠ .gt := by simpa [keyLe] using h1
            simp only [keyCmp, hea, heb, hec] at *
            exact key_le_trans h1' h3
        · rintro ⟨h1, h2⟩
          exact ⟨by simpa [keyLe] using h1 b (by simp), h2⟩
  exact this o hmem

/-- a numbering that is right to the greatest depth is self-sorted -/
theorem Rel.good_sorted {o : List Nat} (ho : o.Perm (List.range paths.length)) {k : Nat}
    (hk : ∀ id, id < paths.length → (pth paths id).length ≤ k) (hg : GoodTo paths k o) :
    o.Pairwise (fun a b => keyCmp st o a b ≠ .gt) := by
  rw [List.pairwise_iff_getElem]
  intro i j hi hj hij
  have hn : o.Nodup := ho.nodup_iff.mpr List.nodup_range
  have ha : o[i] < paths.length := by simpa using ho.mem_iff.mp (List.getElem_mem hi)
  have hb : o[j] < paths.length := by simpa using ho.mem_iff.mp (List.getElem_mem hj)
  have hpa := posOf_of_getElem? hn (List.getElem?_eq_getElem hi)
  have hpb := posOf_of_getElem? hn (List.getElem?_eq_getElem hj)
  have hc := (hg o[i] o[j] ha hb (Or.inl (hk _ ha))).mp (by omega)
  rw [R.keyCmp_lt ho hg ha hb (Or.inl (Nat.le_succ_of_le (hk _ ha))) hc]
  simp

/-- The loop succeeds within `d` more rounds when the numbering is right to depth `D - d`. -/
theorem Rel.layoutLoop_ok {D : Nat} (hD : ∀ id, id < paths.length → (pth paths id).length ≤ D) :
    ∀ (budget : Nat) (o : List Nat), o.Perm (List.range paths.length) → GoodTo paths (D - budget) o →
      budget ≤ D → ∃ o', layoutLoop st budget o = some o' ∧ IsLayout st o' := by
  intro budget
  induction budget with
  | zero =>
    intro o ho hg _
    have hs := R.good_sorted ho hD hg
    refine ⟨o, ?_, by rw [← R.len]; exact ho, hs⟩
    simp [layoutLoop, (R.sorted_spec ho).mpr hs]
  | succ b ih =>
    intro o ho hg hb
    simp only [layoutLoop]
    by_cases hs : sortedBy (keyLe st o) o = true
    · rw [if_pos hs]
      exact ⟨o, rfl, by rw [← R.len]; exact ho, (R.sorted_spec ho).mp hs⟩
    · rw [if_neg hs]
      obtain ⟨h1, h2⟩ := R.sort_spec ho
      have h3 := R.goodTo_step ho h1 h2 hg
      apply ih _ h1 _ (by omega)
      have : D - (b + 1) + 1 = D - b := by omega
      rw [this] at h3; exact h3

theorem Rel.layoutLoop_sound : ∀ (budget : Nat) (o o' : List Nat), o.Perm (List.range paths.length) →
    layoutLoop st budget o = some o' → IsLayout st o' := by
  intro budget
  induction budget with
  | zero =>
    intro o o' ho h
    simp only [layoutLoop] at h
    split at h
    · rename_i hs; cases h
      exact ⟨by rw [← R.len]; exact ho, (R.sorted_spec ho).mp hs⟩
    · cases h
  | succ b ih =>
    intro o o' ho h
    simp only [layoutLoop] at h
    split at h
    · rename_i hs; cases h
      exact ⟨by rw [← R.len]; exact ho, (R.sorted_spec ho).mp hs⟩
    · exact ih _ _ (R.sort_spec ho).1 h

/-- more budget does not change a successful result -/
theorem Rel.layoutLoop_mono : ∀ (b : Nat) (o o' : List Nat), layoutLoop st b o = some o' →
    ∀ b', b ≤ b' → layoutLoop st b' o = some o' := by
  intro b
  induction b with
  | zero =>
    intro o o' h b' _
    simp only [layoutLoop] at h
    split at h
    · rename_i hs; cases b' <;> simp [layoutLoop, hs, h]
    · cases h
  | succ b ih =>
    intro o o' h b' hb
    obtain ⟨b'', rfl⟩ : ∃ b'', b' = b'' + 1 := ⟨b' - 1, by omega⟩
    simp only [layoutLoop] at h ⊢
    split at h
    · rename_i hs; simp [hs, h]
    · rename_i hs; simp only [hs]; exact ih _ _ h b'' (by omega)

end
end Arx
