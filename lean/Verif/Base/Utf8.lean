import Verif.Base.RelPath
/-!
# UTF-8: lossy decoding, and validity of path components
-/
namespace Arx

/-- Class and length of the first chunk of a non-empty byte string: `(true, k)` a well-formed
character of `k` bytes, `(false, k)` a maximal ill-formed prefix of `k` bytes
(`core::str::lossy::Utf8Chunks`, external std). -/
def utf8Head : Bytes → Bool × Nat
  | [] => (false, 1)
  | b0 :: rest =>
    if b0 < 0x80 then (true, 1)
    else if 0xC2 ≤ b0 && b0 ≤ 0xDF then
      match rest with
      | b1 :: _ => if isCont b1 then (true, 2) else (false, 1)
      | _ => (false, 1)
    else if 0xE0 ≤ b0 && b0 ≤ 0xEF then
      match rest with
      | b1 :: r1 =>
        if (if b0 = 0xE0 then 0xA0 ≤ b1 && b1 ≤ 0xBF
            else if b0 = 0xED then 0x80 ≤ b1 && b1 ≤ 0x9F
            else isCont b1) then
          match r1 with
          | b2 :: _ => if isCont b2 then (true, 3) else (false, 2)
          | [] => (false, 2)
        else (false, 1)
      | [] => (false, 1)
    else if 0xF0 ≤ b0 && b0 ≤ 0xF4 then
      match rest with
      | b1 :: r1 =>
        if (if b0 = 0xF0 then 0x90 ≤ b1 && b1 ≤ 0xBF
            else if b0 = 0xF4 then 0x80 ≤ b1 && b1 ≤ 0x8F
            else isCont b1) then
          match r1 with
          | b2 :: r2 =>
            if isCont b2 then
              match r2 with
              | b3 :: _ => if isCont b3 then (true, 4) else (false, 3)
              | [] => (false, 3)
            else (false, 2)
          | [] => (false, 2)
        else (false, 1)
      | [] => (false, 1)
    else (false, 1)

/-- `String::from_utf8_lossy` with at most `n` chunks: each ill-formed chunk becomes U+FFFD. -/
def lossyLoop : Nat → Bytes → Bytes
  | 0, _ => []
  | _ + 1, [] => []
  | n + 1, s =>
    let (ok, k) := utf8Head s
    (if ok then s.take k else [0xEF, 0xBF, 0xBD]) ++ lossyLoop n (s.drop k)

/-- `String::from_utf8_lossy` (external std; used at /repo/arx/src/list.rs:95,113,125,126). -/
def lossy (s : Bytes) : Bytes := lossyLoop s.length s

/-- A well-formed string splits as one character and a shorter well-formed string. -/
theorem validUtf8_cases {s : Bytes} (h : validUtf8 s = true) (hne : s ≠ []) :
    ∃ c t, s = c ++ t ∧ c ≠ [] ∧ utf8Head s = (true, c.length) ∧ validUtf8 t = true := by
  cases s with
  | nil => exact absurd rfl hne
  | cons b0 rest =>
    unfold validUtf8 at h
    unfold utf8Head
    by_cases h0 : b0 < 0x80
    · simp only [h0, if_true] at h ⊢
      exact ⟨[b0], rest, rfl, by simp, rfl, h⟩
    · simp only [h0, if_false, Bool.false_eq_true] at h ⊢
      by_cases h1 : (0xC2 ≤ b0 && b0 ≤ 0xDF) = true
      · simp only [h1, if_true] at h ⊢
        cases rest with
        | nil => simp at h
        | cons b1 r =>
          simp only [Bool.and_eq_true] at h
          exact ⟨[b0, b1], r, rfl, by simp, by simp [h.1], h.2⟩
      · simp only [h1, if_false, Bool.false_eq_true] at h ⊢
        by_cases h2 : (0xE0 ≤ b0 && b0 ≤ 0xEF) = true
        · simp only [h2, if_true] at h ⊢
          match rest with
          | [] => simp at h
          | [b1] => simp at h
          | b1 :: b2 :: r =>
            simp only [Bool.and_eq_true] at h
            refine ⟨[b0, b1, b2], r, rfl, by simp, ?_, h.2⟩
            simp only [h.1.1, h.1.2, if_true]; rfl
        · simp only [h2, if_false, Bool.false_eq_true] at h ⊢
          by_cases h3 : (0xF0 ≤ b0 && b0 ≤ 0xF4) = true
          · simp only [h3, if_true] at h ⊢
            match rest with
            | [] => simp at h
            | [b1] => simp at h
            | [b1, b2] => simp at h
            | b1 :: b2 :: b3 :: r =>
              simp only [Bool.and_eq_true] at h
              refine ⟨[b0, b1, b2, b3], r, rfl, by simp, ?_, h.2⟩
              simp only [h.1.1.1, h.1.1.2, h.1.2, if_true]; rfl
          · simp [h3] at h

theorem lossyLoop_valid (n : Nat) : ∀ s : Bytes, s.length ≤ n → validUtf8 s = true → lossyLoop n s = s := by
  induction n with
  | zero => intro s h _; simp at h; subst h; rfl
  | succ n ih =>
    intro s h hv
    by_cases hs : s = []
    · subst hs; rfl
    · obtain ⟨c, t, rfl, hc, hh, ht⟩ := validUtf8_cases hv hs
      have hl : 0 < c.length := List.length_pos_iff.mpr hc
      have : lossyLoop (n + 1) (c ++ t) = (c ++ t).take c.length ++ lossyLoop n ((c ++ t).drop c.length) := by
        cases hct : c ++ t with
        | nil => exact absurd hct hs
        | cons x xs => rw [hct] at hh; simp [lossyLoop, hh]
      rw [this]
      simp only [List.take_left', List.drop_left']
      rw [ih t (by simp at h; omega) ht]

theorem lossy_valid {s : Bytes} (h : validUtf8 s = true) : lossy s = s :=
  lossyLoop_valid _ s (Nat.le_refl _) h

theorem isCont_sep : isCont SEP = false := by decide

theorem validUtf8_sep_cons (b : Bytes) : validUtf8 (SEP :: b) = validUtf8 b := by
  have : (SEP : UInt8) < 0x80 := by decide
  conv => lhs; unfold validUtf8
  simp only [this, if_true]

theorem validUtf8_nil : validUtf8 [] = true := by unfold validUtf8; rfl

/-- validity is preserved by appending at a character boundary -/
theorem validUtf8_ascii_split (n : Nat) : ∀ a b : Bytes, a.length ≤ n →
    validUtf8 (a ++ SEP :: b) = (validUtf8 a && validUtf8 b) := by
  induction n with
  | zero =>
    intro a b h; simp at h; subst h
    simp [validUtf8_sep_cons, validUtf8_nil]
  | succ n ih =>
    intro a b h
    have hs : (SEP : UInt8) < 0x80 := by decide
    cases a with
    | nil => simp [validUtf8_sep_cons, validUtf8_nil]
    | cons b0 rest =>
      simp only [List.length_cons] at h
      have hc := isCont_sep
      have r1 : (0xA0 ≤ SEP && SEP ≤ 0xBF) = false := by decide
      have r2 : (0x80 ≤ SEP && SEP ≤ 0x9F) = false := by decide
      have r3 : (0x90 ≤ SEP && SEP ≤ 0xBF) = false := by decide
      have r4 : (0x80 ≤ SEP && SEP ≤ 0x8F) = false := by decide
      rw [List.cons_append]
      conv => lhs; unfold validUtf8
      conv => rhs; arg 1; unfold validUtf8
      by_cases h0 : b0 < 0x80
      · simp only [h0, if_true]; exact ih rest b (by omega)
      · simp only [h0, if_false, Bool.false_eq_true]
        by_cases h1 : (0xC2 ≤ b0 && b0 ≤ 0xDF) = true
        · simp only [h1, if_true]
          match rest with
          | [] => simp [hc]
          | b1 :: r => simp only [List.cons_append, ih r b (by simp at h; omega), Bool.and_assoc]
        · simp only [h1, if_false, Bool.false_eq_true]
          by_cases h2 : (0xE0 ≤ b0 && b0 ≤ 0xEF) = true
          · simp only [h2, if_true]
            match rest with
            | [] =>
              cases b with
              | nil => simp
              | cons x xs => simp [hc, r1, r2]
            | [b1] => simp [hc]
            | b1 :: b2 :: r => simp only [List.cons_append, ih r b (by simp at h; omega), Bool.and_assoc]
          · simp only [h2, if_false, Bool.false_eq_true]
            by_cases h3 : (0xF0 ≤ b0 && b0 ≤ 0xF4) = true
            · simp only [h3, if_true]
              match rest with
              | [] =>
                match b with
                | [] => simp
                | [x] => simp
                | x :: y :: xs => simp [hc, r3, r4]
              | [b1] =>
                match b with
                | [] => simp
                | x :: xs => simp [hc]
              | [b1, b2] => simp [hc]
              | b1 :: b2 :: b3 :: r => simp only [List.cons_append, ih r b (by simp at h; omega), Bool.and_assoc]
            · simp [h3]

theorem validUtf8_sep (a b : Bytes) : validUtf8 (a ++ SEP :: b) = (validUtf8 a && validUtf8 b) :=
  validUtf8_ascii_split a.length a b (Nat.le_refl _)

theorem validUtf8_splitSep (n : Nat) : ∀ p : Bytes, p.length ≤ n →
    (validUtf8 p = true ↔ ∀ c ∈ splitSep p, validUtf8 c = true) := by
  induction n with
  | zero => intro p h; simp at h; subst h; simp [splitSep, validUtf8]
  | succ n ih =>
    intro p h
    by_cases hs : SEP ∈ p
    · obtain ⟨x, y, rfl⟩ := List.append_of_mem hs
      rw [splitSep_append, validUtf8_sep, Bool.and_eq_true]
      simp only [List.length_append, List.length_cons] at h
      rw [ih x (by omega), ih y (by omega)]
      constructor
      · rintro ⟨h1, h2⟩ c hc
        rcases List.mem_append.mp hc with hc | hc
        · exact h1 c hc
        · exact h2 c hc
      · intro hh
        exact ⟨fun c hc => hh c (List.mem_append.mpr (Or.inl hc)), fun c hc => hh c (List.mem_append.mpr (Or.inr hc))⟩
    · rw [splitSep_noSep p hs]; simp

/-- a path text is UTF-8 iff all its components are -/
theorem validUtf8_comps (p : RPath) : validUtf8 p = true ↔ ∀ c ∈ comps p, validUtf8 c = true := by
  rw [validUtf8_splitSep p.length p (Nat.le_refl _)]
  simp only [comps, List.mem_filter]
  constructor
  · rintro h c ⟨hc, _⟩; exact h c hc
  · intro h c hc
    cases c with
    | nil => rfl
    | cons x xs => exact h _ ⟨hc, rfl⟩

example : lossy [0x61, 0xE2, 0x82, 0x62] = [0x61, 0xEF, 0xBF, 0xBD, 0x62] ∧ lossy [0xC3, 0xA9] = [0xC3, 0xA9] := by decide

end Arx
