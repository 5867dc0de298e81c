/-!
# Byte strings

Names, paths, link targets and contents are byte lists.  Rust `str` values are byte lists
satisfying `validUtf8`.
-/
namespace Arx

abbrev Bytes := List UInt8

/-- ASCII text to bytes; used only in examples and for literal output text such as `"d "`. -/
def ascii (s : String) : Bytes := s.toList.map (fun c => UInt8.ofNat c.toNat)

/-- Lexicographic byte comparison: `[u8]::cmp` / `partial_cmp` of an array property with a byte
slice, as used at /repo/libarx/src/common/mod.rs:51 (`entry_path.partial_cmp(self.path_value)`)
and for the sort key `Property::Name` (/repo/libarx/src/create/entry_store_creator.rs:288).
External (std / jubako). -/
def cmpBytes : Bytes → Bytes → Ordering
  | [], [] => .eq
  | [], _ :: _ => .lt
  | _ :: _, [] => .gt
  | a :: as, b :: bs =>
    if a < b then .lt else if b < a then .gt else cmpBytes as bs

/-- Continuation byte `10xxxxxx`. -/
def isCont (b : UInt8) : Bool := 0x80 ≤ b && b ≤ 0xBF

/-- UTF-8 well-formedness, as checked by `String::from_utf8` / `OsStr::to_str`
(Unicode table 3-7).  External (std); used at /repo/libarx/src/tools.rs:54,88,89,112. -/
def validUtf8 : Bytes → Bool
  | [] => true
  | b0 :: rest =>
    if b0 < 0x80 then validUtf8 rest
    else if 0xC2 ≤ b0 && b0 ≤ 0xDF then
      match rest with
      | b1 :: r => isCont b1 && validUtf8 r
      | _ => false
    else if 0xE0 ≤ b0 && b0 ≤ 0xEF then
      match rest with
      | b1 :: b2 :: r =>
        (if b0 = 0xE0 then 0xA0 ≤ b1 && b1 ≤ 0xBF
         else if b0 = 0xED then 0x80 ≤ b1 && b1 ≤ 0x9F
         else isCont b1) && isCont b2 && validUtf8 r
      | _ => false
    else if 0xF0 ≤ b0 && b0 ≤ 0xF4 then
      match rest with
      | b1 :: b2 :: b3 :: r =>
        (if b0 = 0xF0 then 0x90 ≤ b1 && b1 ≤ 0xBF
         else if b0 = 0xF4 then 0x80 ≤ b1 && b1 ≤ 0x8F
         else isCont b1) && isCont b2 && isCont b3 && validUtf8 r
      | _ => false
    else false

/-! ## Order lemmas -/

def ltBytes (a b : Bytes) : Prop := cmpBytes a b = .lt

theorem cmpBytes_refl (a : Bytes) : cmpBytes a a = .eq := by
  induction a with
  | nil => rfl
  | cons x xs ih => simp [cmpBytes, ih, UInt8.lt_irrefl]

theorem cmpBytes_eq {a b : Bytes} : cmpBytes a b = .eq ↔ a = b := by
  induction a generalizing b with
  | nil => cases b <;> simp [cmpBytes]
  | cons x xs ih =>
    cases b with
    | nil => simp [cmpBytes]
    | cons y ys =>
      simp only [cmpBytes]
      by_cases h1 : x < y
      · simp only [if_pos h1]; constructor
        · intro h; cases h
        · intro h; injection h with h _; subst h; exact absurd h1 (UInt8.lt_irrefl _)
      · by_cases h2 : y < x
        · simp only [if_neg h1, if_pos h2]; constructor
          · intro h; cases h
          · intro h; injection h with h _; subst h; exact absurd h2 (UInt8.lt_irrefl _)
        · simp only [if_neg h1, if_neg h2, ih]
          have : x = y := UInt8.le_antisymm (UInt8.not_lt.mp h2) (UInt8.not_lt.mp h1)
          simp [this]

theorem cmpBytes_swap (a b : Bytes) : cmpBytes b a = (cmpBytes a b).swap := by
  induction a generalizing b with
  | nil => cases b <;> rfl
  | cons x xs ih =>
    cases b with
    | nil => rfl
    | cons y ys =>
      simp only [cmpBytes]
      by_cases h1 : x < y
      · have h2 : ¬ y < x := fun h => UInt8.lt_irrefl _ (UInt8.lt_trans h h1)
        simp [h1, h2]
      · by_cases h2 : y < x
        · simp [h1, h2]
        · simp [h1, h2, ih]

theorem cmpBytes_gt {a b : Bytes} : cmpBytes a b = .gt ↔ cmpBytes b a = .lt := by
  rw [cmpBytes_swap a b]; cases cmpBytes a b <;> simp

theorem ltBytes_irrefl (a : Bytes) : ¬ ltBytes a a := by
  simp [ltBytes, cmpBytes_refl]

theorem ltBytes_trans {a b c : Bytes} : ltBytes a b → ltBytes b c → ltBytes a c := by
  unfold ltBytes
  induction a generalizing b c with
  | nil => cases b <;> cases c <;> simp [cmpBytes]
  | cons x xs ih =>
    cases b with
    | nil => simp [cmpBytes]
    | cons y ys =>
      cases c with
      | nil => simp [cmpBytes]
      | cons z zs =>
        simp only [cmpBytes]
        intro h1 h2
        by_cases hxy : x < y
        · by_cases hyz : y < z
          · simp [UInt8.lt_trans hxy hyz]
          · by_cases hzy : z < y
            · simp [hyz, hzy] at h2
            · have : y = z := UInt8.le_antisymm (UInt8.not_lt.mp hzy) (UInt8.not_lt.mp hyz)
              subst this; simp [hxy]
        · by_cases hyx : y < x
          · simp [hxy, hyx] at h1
          · have : x = y := UInt8.le_antisymm (UInt8.not_lt.mp hyx) (UInt8.not_lt.mp hxy)
            subst this
            simp only [if_neg hxy] at h1
            by_cases hyz : x < z
            · simp [hyz]
            · by_cases hzy : z < x
              · simp [hyz, hzy] at h2
              · simp only [if_neg hyz, if_neg hzy] at h2 ⊢
                exact ih h1 h2

theorem ltBytes_trichotomy (a b : Bytes) : ltBytes a b ∨ a = b ∨ ltBytes b a := by
  unfold ltBytes
  cases h : cmpBytes a b with
  | lt => exact Or.inl rfl
  | eq => exact Or.inr (Or.inl (cmpBytes_eq.mp h))
  | gt => exact Or.inr (Or.inr (cmpBytes_gt.mp h))

theorem ltBytes_asymm {a b : Bytes} (h : ltBytes a b) : ¬ ltBytes b a :=
  fun h' => ltBytes_irrefl _ (ltBytes_trans h h')

instance (a b : Bytes) : Decidable (ltBytes a b) := by unfold ltBytes; infer_instance

example : cmpBytes (ascii "bar") (ascii "bar.txt") = .lt := by decide
example : validUtf8 [0xC3, 0xA9, 0x2F] = true ∧ validUtf8 [0xFF] = false := by decide

end Arx
