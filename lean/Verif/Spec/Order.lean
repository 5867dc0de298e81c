import Verif.Base.RelPath
/-!
# Orders on paths (specification)

`lexLt`: component-wise byte order, a directory before its content (the order in which a walk visits
entries).  `canonLt`: shallower first, then `lexLt` (the order of the entry table).
-/
namespace Arx

def lexLt : List Bytes → List Bytes → Prop
  | _, [] => False
  | [], _ :: _ => True
  | a :: as, b :: bs => ltBytes a b ∨ (a = b ∧ lexLt as bs)

instance decLexLt : (p q : List Bytes) → Decidable (lexLt p q)
  | _, [] => by cases ‹List Bytes› <;> exact isFalse (by simp [lexLt])
  | [], _ :: _ => isTrue trivial
  | a :: as, b :: bs =>
    have := decLexLt as bs
    inferInstanceAs (Decidable (ltBytes a b ∨ (a = b ∧ lexLt as bs)))

def canonLt (p q : List Bytes) : Prop := p.length < q.length ∨ (p.length = q.length ∧ lexLt p q)

instance (p q : List Bytes) : Decidable (canonLt p q) := by unfold canonLt; infer_instance

theorem lexLt_irrefl (p : List Bytes) : ¬ lexLt p p := by
  induction p with
  | nil => simp [lexLt]
  | cons a as ih => simp [lexLt, ih, ltBytes_irrefl]

theorem lexLt_trans {p q r : List Bytes} : lexLt p q → lexLt q r → lexLt p r := by
  induction p generalizing q r with
  | nil => cases q <;> cases r <;> simp [lexLt]
  | cons a as ih =>
    cases q with
    | nil => simp [lexLt]
    | cons b bs =>
      cases r with
      | nil => simp [lexLt]
      | cons c cs =>
        simp only [lexLt]
        rintro (h1 | ⟨rfl, h1⟩) (h2 | ⟨rfl, h2⟩)
        · exact Or.inl (ltBytes_trans h1 h2)
        · exact Or.inl h1
        · exact Or.inl h2
        · exact Or.inr ⟨rfl, ih h1 h2⟩

theorem lexLt_trichotomy (p q : List Bytes) : lexLt p q ∨ p = q ∨ lexLt q p := by
  induction p generalizing q with
  | nil => cases q <;> simp [lexLt]
  | cons a as ih =>
    cases q with
    | nil => simp [lexLt]
    | cons b bs =>
      simp only [lexLt, List.cons.injEq]
      rcases ltBytes_trichotomy a b with h | rfl | h
      · exact Or.inl (Or.inl h)
      · rcases ih bs with h | rfl | h
        · exact Or.inl (Or.inr ⟨rfl, h⟩)
        · exact Or.inr (Or.inl ⟨rfl, rfl⟩)
        · exact Or.inr (Or.inr (Or.inr ⟨rfl, h⟩))
      · exact Or.inr (Or.inr (Or.inl h))

theorem lexLt_snoc {p q : List Bytes} {a b : Bytes} (h : p.length = q.length) :
    lexLt (p ++ [a]) (q ++ [b]) ↔ lexLt p q ∨ (p = q ∧ ltBytes a b) := by
  induction p generalizing q with
  | nil =>
    cases q with
    | nil => simp [lexLt]
    | cons => simp at h
  | cons x xs ih =>
    cases q with
    | nil => simp at h
    | cons y ys =>
      simp at h
      simp only [List.cons_append, lexLt, ih h, List.cons.injEq]
      constructor
      · rintro (h' | ⟨rfl, h' | ⟨rfl, h'⟩⟩)
        · exact Or.inl (Or.inl h')
        · exact Or.inl (Or.inr ⟨rfl, h'⟩)
        · exact Or.inr ⟨⟨rfl, rfl⟩, h'⟩
      · rintro ((h' | ⟨rfl, h'⟩) | ⟨⟨rfl, rfl⟩, h'⟩)
        · exact Or.inl h'
        · exact Or.inr ⟨rfl, Or.inl h'⟩
        · exact Or.inr ⟨rfl, Or.inr ⟨rfl, h'⟩⟩

theorem lexLt_append_left (d p q : List Bytes) : lexLt (d ++ p) (d ++ q) ↔ lexLt p q := by
  induction d with
  | nil => simp
  | cons x xs ih => simp [lexLt, ih, ltBytes_irrefl]

/-- a path sorts before what lies below it -/
theorem lexLt_append_right (d q : List Bytes) (h : q ≠ []) : lexLt d (d ++ q) := by
  have := lexLt_append_left d [] q
  simp only [List.append_nil] at this
  rw [this]; cases q with
  | nil => exact absurd rfl h
  | cons => trivial

/-- everything below `d ++ [a]` sorts before everything below `d ++ [b]` when `a < b` -/
theorem lexLt_of_names {d p q : List Bytes} {a b : Bytes} (h : ltBytes a b) :
    lexLt (d ++ a :: p) (d ++ b :: q) := by
  rw [lexLt_append_left]; exact Or.inl h

theorem canonLt_irrefl (p : List Bytes) : ¬ canonLt p p := by
  simp [canonLt, lexLt_irrefl]

theorem canonLt_trans {p q r : List Bytes} (h1 : canonLt p q) (h2 : canonLt q r) : canonLt p r := by
  unfold canonLt at *
  rcases h1 with h1 | ⟨h1, h1'⟩ <;> rcases h2 with h2 | ⟨h2, h2'⟩
  · left; omega
  · left; omega
  · left; omega
  · right; exact ⟨by omega, lexLt_trans h1' h2'⟩

theorem canonLt_trichotomy (p q : List Bytes) : canonLt p q ∨ p = q ∨ canonLt q p := by
  unfold canonLt
  rcases Nat.lt_trichotomy p.length q.length with h | h | h
  · exact Or.inl (Or.inl h)
  · rcases lexLt_trichotomy p q with h' | h' | h'
    · exact Or.inl (Or.inr ⟨h, h'⟩)
    · exact Or.inr (Or.inl h')
    · exact Or.inr (Or.inr (Or.inr ⟨h.symm, h'⟩))
  · exact Or.inr (Or.inr (Or.inl h))

theorem canonLt_asymm {p q : List Bytes} (h : canonLt p q) : ¬ canonLt q p :=
  fun h' => canonLt_irrefl _ (canonLt_trans h h')

theorem canonLt_snoc {p q : List Bytes} {a b : Bytes} :
    canonLt (p ++ [a]) (q ++ [b]) ↔ canonLt p q ∨ (p = q ∧ ltBytes a b) := by
  unfold canonLt
  simp only [List.length_append, List.length_singleton]
  constructor
  · rintro (h | ⟨h, h'⟩)
    · left; left; omega
    · have hl : p.length = q.length := by omega
      rcases (lexLt_snoc hl).mp h' with h'' | h''
      · exact Or.inl (Or.inr ⟨hl, h''⟩)
      · exact Or.inr h''
  · rintro ((h | ⟨h, h'⟩) | ⟨rfl, h⟩)
    · left; omega
    · right; exact ⟨by omega, (lexLt_snoc h).mpr (Or.inl h')⟩
    · right; exact ⟨rfl, (lexLt_snoc rfl).mpr (Or.inr ⟨rfl, h⟩)⟩

/-- a path between two children of `d` is a child of `d` -/
theorem canonLt_between {d r : List Bytes} {a b : Bytes} (h1 : canonLt (d ++ [a]) r)
    (h2 : canonLt r (d ++ [b])) : ∃ c, r = d ++ [c] := by
  rcases List.eq_nil_or_concat r with h | ⟨e, c, h⟩
  · subst h; unfold canonLt at h1; simp [lexLt] at h1
  · rw [List.concat_eq_append] at h; subst h
    rcases canonLt_snoc.mp h1 with h1 | ⟨rfl, h1⟩
    · rcases canonLt_snoc.mp h2 with h2 | ⟨rfl, h2⟩
      · exact absurd h2 (canonLt_asymm h1)
      · exact ⟨c, rfl⟩
    · exact ⟨c, rfl⟩

end Arx
