import Verif.Spec.Words
import Verif.Base.Utf8
import Verif.Model.List
/-!
# C92: names, order, text and numbers
-/
namespace Arx

/-! ## Numbers -/

theorem digitChar_byte {d : Nat} (h : d < 10) : UInt8.ofNat (Nat.digitChar d).toNat = UInt8.ofNat (48 + d) := by
  have : d = 0 ∨ d = 1 ∨ d = 2 ∨ d = 3 ∨ d = 4 ∨ d = 5 ∨ d = 6 ∨ d = 7 ∨ d = 8 ∨ d = 9 := by omega
  rcases this with h | h | h | h | h | h | h | h | h | h <;> subst h <;> rfl

theorem toDigits_decimal (n : Nat) : (Nat.toDigits 10 n).map (fun c => UInt8.ofNat c.toNat) = decimal n := by
  induction n using Nat.strongRecOn with
  | ind n ih =>
    rw [decimal]
    by_cases h : n < 10
    · rw [if_pos h, Nat.toDigits_of_lt_base h]
      simp only [List.map_cons, List.map_nil, digitChar_byte h]
    · rw [if_neg h, ← ih (n / 10) (by omega), Nat.toDigits_of_base_le (by decide) (by omega)]
      simp only [List.map_append, List.map_cons, List.map_nil]
      rw [digitChar_byte (Nat.mod_lt _ (by decide))]

theorem dec_eq (n : Nat) : dec n = decimal n := by
  rw [← toDigits_decimal]
  unfold dec ascii
  rw [show (toString n : String) = n.repr from rfl, Nat.toList_repr]

/-! ## Paths -/

theorem PathText.comps {p : Bytes} {ns : List Bytes} (h : PathText p ns) : Arx.comps p = ns := by
  induction h with
  | nil => rfl
  | slash _ ih => exact (comps_sep_cons _).trans ih
  | last h1 h2 => exact comps_valid_singleton ⟨h1, h2⟩
  | name h1 h2 _ ih => exact (comps_append _ _).trans (by rw [comps_valid_singleton ⟨h1, h2⟩, ih]; rfl)

theorem split47 {p : Bytes} (h : (47 : UInt8) ∈ p) : ∃ s t, p = s ++ 47 :: t ∧ 47 ∉ s := by
  induction p with
  | nil => cases h
  | cons b p ih =>
    by_cases hb : b = 47
    · exact ⟨[], p, by rw [hb]; rfl, by simp⟩
    · have : (47 : UInt8) ∈ p := by
        rcases List.mem_cons.mp h with h | h
        · exact absurd h.symm hb
        · exact h
      obtain ⟨s, t, rfl, hs⟩ := ih this
      exact ⟨b :: s, t, rfl, by simp [hs, Ne.symm hb]⟩

theorem PathText.exists (p : Bytes) : ∃ ns, PathText p ns := by
  generalize hn : p.length = n
  induction n using Nat.strongRecOn generalizing p with
  | ind n ih =>
    match p with
    | [] => exact ⟨[], .nil⟩
    | b :: p =>
      by_cases hb : b = 47
      · subst hb
        obtain ⟨ns, h⟩ := ih p.length (by simp at hn; omega) p rfl
        exact ⟨ns, .slash h⟩
      · by_cases hs : (47 : UInt8) ∈ p
        · obtain ⟨s, t, rfl, hs'⟩ := split47 hs
          obtain ⟨ns, h⟩ := ih t.length (by simp at hn; omega) t rfl
          exact ⟨(b :: s) :: ns, .name (c := b :: s) (by simp) (by simp [hs', Ne.symm hb]) h⟩
        · exact ⟨[b :: p], .last (by simp) (by simp [hs, Ne.symm hb])⟩

theorem pathText_iff (p : Bytes) (ns : List Bytes) : PathText p ns ↔ comps p = ns := by
  refine ⟨PathText.comps, fun h => ?_⟩
  obtain ⟨ns', h'⟩ := PathText.exists p
  rw [← h, h'.comps]; exact h'

theorem joinPath_eq (ns : List Bytes) : joinPath ns = List.intercalate [47] ns := by
  match ns with
  | [] => rfl
  | [c] => simp [joinPath]
  | c :: d :: ns =>
    rw [joinPath_cons (by simp), joinPath_eq (d :: ns)]
    simp [List.intercalate, List.intersperse, SEP]

/-! ## Order -/

theorem bytesLess_iff (a b : Bytes) : BytesLess a b ↔ cmpBytes a b = .lt := by
  induction a generalizing b with
  | nil =>
    cases b with
    | nil => simp [BytesLess, cmpBytes]
    | cons y b => simp only [cmpBytes, iff_true]; exact Or.inl ⟨y, b, rfl⟩
  | cons x a ih =>
    cases b with
    | nil =>
      simp only [cmpBytes]
      constructor
      · rintro (⟨c, l, h⟩ | ⟨p, _, _, _, _, _, h, _⟩)
        · cases h
        · cases p <;> cases h
      · intro h; cases h
    | cons y b =>
      simp only [cmpBytes]
      have hlt : x < y ↔ x.toNat < y.toNat := UInt8.lt_iff_toNat_lt
      have hgt : y < x ↔ y.toNat < x.toNat := UInt8.lt_iff_toNat_lt
      by_cases h1 : x < y
      · rw [if_pos h1]
        exact ⟨fun _ => rfl, fun _ => Or.inr ⟨[], x, y, a, b, rfl, rfl, hlt.mp h1⟩⟩
      · rw [if_neg h1]
        by_cases h2 : y < x
        · rw [if_pos h2]
          refine ⟨?_, fun h => by cases h⟩
          rintro (⟨c, l, h⟩ | ⟨p, u, v, a', b', e1, e2, h⟩)
          · injection h with h _
            subst h
            exact absurd h2 h1
          · cases p with
            | nil =>
              injection e1 with e1 _
              injection e2 with e2 _
              subst e1; subst e2
              exact absurd (hlt.mpr h) h1
            | cons z p =>
              injection e1 with e1 _
              injection e2 with e2 _
              subst e1; subst e2
              exact absurd h2 h1
        · rw [if_neg h2, ← ih]
          have hxy : x = y := UInt8.le_antisymm (UInt8.not_lt.mp h2) (UInt8.not_lt.mp h1)
          subst hxy
          constructor
          · rintro (⟨c, l, h⟩ | ⟨p, u, v, a', b', e1, e2, h⟩)
            · injection h with _ h
              exact Or.inl ⟨c, l, h⟩
            · cases p with
              | nil =>
                injection e1 with e1 _
                injection e2 with e2 _
                subst e1; subst e2
                omega
              | cons z p =>
                injection e1 with _ e1
                injection e2 with _ e2
                exact Or.inr ⟨p, u, v, a', b', e1, e2, h⟩
          · rintro (⟨c, l, h⟩ | ⟨p, u, v, a', b', e1, e2, h⟩)
            · exact Or.inl ⟨c, l, by rw [h]; rfl⟩
            · exact Or.inr ⟨x :: p, u, v, a', b', by rw [e1]; rfl, by rw [e2]; rfl, h⟩

/-! ## Characters -/

/-- the second byte of an encoding in three bytes -/
def second3 (a b : UInt8) : Bool := if a = 0xE0 then 0xA0 ≤ b && b ≤ 0xBF else if a = 0xED then 0x80 ≤ b && b ≤ 0x9F else isCont b
/-- the second byte of an encoding in four bytes -/
def second4 (a b : UInt8) : Bool := if a = 0xF0 then 0x90 ≤ b && b ≤ 0xBF else if a = 0xF4 then 0x80 ≤ b && b ≤ 0x8F else isCont b

/-- the encodings, byte by byte -/
def CharBytes (c : Bytes) : Prop :=
  (∃ a, c = [a] ∧ a < 0x80) ∨
  (∃ a b, c = [a, b] ∧ (0xC2 ≤ a && a ≤ 0xDF) = true ∧ isCont b = true) ∨
  (∃ a b d, c = [a, b, d] ∧ (0xE0 ≤ a && a ≤ 0xEF) = true ∧ second3 a b = true ∧ isCont d = true) ∨
  (∃ a b d e, c = [a, b, d, e] ∧ (0xF0 ≤ a && a ≤ 0xF4) = true ∧ second4 a b = true ∧ isCont d = true ∧ isCont e = true)

theorem byte_eq {a : UInt8} {n : Nat} (h : a.toNat = n) : UInt8.ofNat n = a := by
  rw [← h, UInt8.ofNat_toNat]

theorem between (a : UInt8) (lo hi : UInt8) : (lo ≤ a && a ≤ hi) = true ↔ lo.toNat ≤ a.toNat ∧ a.toNat ≤ hi.toNat := by
  simp only [Bool.and_eq_true, decide_eq_true_eq, UInt8.le_iff_toNat_le]

theorem second3_iff (a b : UInt8) : second3 a b = true ↔
    128 ≤ b.toNat ∧ b.toNat ≤ 191 ∧ (a.toNat = 224 → 160 ≤ b.toNat) ∧ (a.toNat = 237 → b.toNat ≤ 159) := by
  have e1 : a = 0xE0 ↔ a.toNat = 224 := by rw [← UInt8.toNat_inj]; rfl
  have e2 : a = 0xED ↔ a.toNat = 237 := by rw [← UInt8.toNat_inj]; rfl
  unfold second3 isCont
  by_cases h1 : a = 0xE0
  · rw [if_pos h1, between]
    rw [e1] at h1
    simp only [UInt8.reduceToNat]; omega
  · rw [if_neg h1]
    rw [e1] at h1
    by_cases h2 : a = 0xED
    · rw [if_pos h2, between]
      rw [e2] at h2
      simp only [UInt8.reduceToNat]; omega
    · rw [if_neg h2, between]
      rw [e2] at h2
      simp only [UInt8.reduceToNat]; omega

theorem second4_iff (a b : UInt8) : second4 a b = true ↔
    128 ≤ b.toNat ∧ b.toNat ≤ 191 ∧ (a.toNat = 240 → 144 ≤ b.toNat) ∧ (a.toNat = 244 → b.toNat ≤ 143) := by
  have e1 : a = 0xF0 ↔ a.toNat = 240 := by rw [← UInt8.toNat_inj]; rfl
  have e2 : a = 0xF4 ↔ a.toNat = 244 := by rw [← UInt8.toNat_inj]; rfl
  unfold second4 isCont
  by_cases h1 : a = 0xF0
  · rw [if_pos h1, between]
    rw [e1] at h1
    simp only [UInt8.reduceToNat]; omega
  · rw [if_neg h1]
    rw [e1] at h1
    by_cases h2 : a = 0xF4
    · rw [if_pos h2, between]
      rw [e2] at h2
      simp only [UInt8.reduceToNat]; omega
    · rw [if_neg h2, between]
      rw [e2] at h2
      simp only [UInt8.reduceToNat]; omega

theorem cont_iff (b : UInt8) : isCont b = true ↔ 128 ≤ b.toNat ∧ b.toNat ≤ 191 := by
  unfold isCont; rw [between]; simp only [UInt8.reduceToNat]

theorem encodeChar_bytes {n : Nat} (h : Scalar n) : CharBytes (encodeChar n) := by
  unfold Scalar at h
  unfold encodeChar
  have hb : ∀ k, k < 256 → (UInt8.ofNat k).toNat = k := fun k hk => by rw [UInt8.toNat_ofNat']; omega
  by_cases h1 : n < 0x80
  · rw [if_pos h1]
    refine Or.inl ⟨_, rfl, ?_⟩
    rw [UInt8.lt_iff_toNat_lt, hb n (by omega)]; simp only [UInt8.reduceToNat]; omega
  · rw [if_neg h1]
    by_cases h2 : n < 0x800
    · rw [if_pos h2]
      refine Or.inr (Or.inl ⟨_, _, rfl, ?_, ?_⟩)
      · rw [between, hb _ (by omega)]; simp only [UInt8.reduceToNat]; omega
      · rw [cont_iff, hb _ (by omega)]; omega
    · rw [if_neg h2]
      by_cases h3 : n < 0x10000
      · rw [if_pos h3]
        refine Or.inr (Or.inr (Or.inl ⟨_, _, _, rfl, ?_, ?_, ?_⟩))
        · rw [between, hb _ (by omega)]; simp only [UInt8.reduceToNat]; omega
        · rw [second3_iff, hb _ (by omega), hb _ (by omega)]; omega
        · rw [cont_iff, hb _ (by omega)]; omega
      · rw [if_neg h3]
        refine Or.inr (Or.inr (Or.inr ⟨_, _, _, _, rfl, ?_, ?_, ?_, ?_⟩))
        · rw [between, hb _ (by omega)]; simp only [UInt8.reduceToNat]; omega
        · rw [second4_iff, hb _ (by omega), hb _ (by omega)]; omega
        · rw [cont_iff, hb _ (by omega)]; omega
        · rw [cont_iff, hb _ (by omega)]; omega

theorem CharBytes.scalar {c : Bytes} (h : CharBytes c) : ∃ n, Scalar n ∧ encodeChar n = c := by
  rcases h with ⟨a, rfl, h⟩ | ⟨a, b, rfl, h1, h2⟩ | ⟨a, b, d, rfl, h1, h2, h3⟩ | ⟨a, b, d, e, rfl, h1, h2, h3, h4⟩
  · rw [UInt8.lt_iff_toNat_lt] at h
    simp only [UInt8.reduceToNat] at h
    refine ⟨a.toNat, Or.inl (by omega), ?_⟩
    unfold encodeChar
    rw [if_pos (by omega), byte_eq rfl]
  · rw [between] at h1
    rw [cont_iff] at h2
    simp only [UInt8.reduceToNat] at h1
    refine ⟨(a.toNat - 192) * 64 + (b.toNat - 128), Or.inl (by omega), ?_⟩
    unfold encodeChar
    rw [if_neg (by omega), if_pos (by omega), byte_eq (a := a) (by omega), byte_eq (a := b) (by omega)]
  · rw [between] at h1
    rw [second3_iff] at h2
    rw [cont_iff] at h3
    simp only [UInt8.reduceToNat] at h1
    refine ⟨(a.toNat - 224) * 4096 + (b.toNat - 128) * 64 + (d.toNat - 128), ?_, ?_⟩
    · unfold Scalar; omega
    · unfold encodeChar
      rw [if_neg (by omega), if_neg (by omega), if_pos (by omega), byte_eq (a := a) (by omega), byte_eq (a := b) (by omega),
        byte_eq (a := d) (by omega)]
  · rw [between] at h1
    rw [second4_iff] at h2
    rw [cont_iff] at h3 h4
    simp only [UInt8.reduceToNat] at h1
    refine ⟨(a.toNat - 240) * 262144 + (b.toNat - 128) * 4096 + (d.toNat - 128) * 64 + (e.toNat - 128), ?_, ?_⟩
    · unfold Scalar; omega
    · unfold encodeChar
      rw [if_neg (by omega), if_neg (by omega), if_neg (by omega), byte_eq (a := a) (by omega), byte_eq (a := b) (by omega),
        byte_eq (a := d) (by omega), byte_eq (a := e) (by omega)]

/-! ## Text -/

theorem utf8Head_char {c : Bytes} (h : CharBytes c) (s : Bytes) : utf8Head (c ++ s) = (true, c.length) := by
  rcases h with ⟨a, rfl, h⟩ | ⟨a, b, rfl, h1, h2⟩ | ⟨a, b, d, rfl, h1, h2, h3⟩ | ⟨a, b, d, e, rfl, h1, h2, h3, h4⟩
  · simp [utf8Head, h]
  · have n0 : ¬ a < 0x80 := by
      rw [between] at h1; rw [UInt8.lt_iff_toNat_lt]; simp only [UInt8.reduceToNat] at *; omega
    simp only [List.cons_append, List.nil_append, utf8Head, if_neg n0, h1, h2, if_true]; rfl
  · have h1' := (between ..).mp h1
    simp only [UInt8.reduceToNat] at h1'
    have n0 : ¬ a < 0x80 := by
      rw [UInt8.lt_iff_toNat_lt]; simp only [UInt8.reduceToNat] at *; omega
    have n1 : ¬ (0xC2 ≤ a && a ≤ 0xDF) = true := by
      rw [between]; simp only [UInt8.reduceToNat] at *; omega
    unfold second3 at h2
    simp only [List.cons_append, List.nil_append, utf8Head, if_neg n0, if_neg n1, h1, h2, h3, if_true]; rfl
  · have h1' := (between ..).mp h1
    simp only [UInt8.reduceToNat] at h1'
    have n0 : ¬ a < 0x80 := by
      rw [UInt8.lt_iff_toNat_lt]; simp only [UInt8.reduceToNat] at *; omega
    have n1 : ¬ (0xC2 ≤ a && a ≤ 0xDF) = true := by
      rw [between]; simp only [UInt8.reduceToNat] at *; omega
    have n2 : ¬ (0xE0 ≤ a && a ≤ 0xEF) = true := by
      rw [between]; simp only [UInt8.reduceToNat] at *; omega
    unfold second4 at h2
    simp only [List.cons_append, List.nil_append, utf8Head, if_neg n0, if_neg n1, if_neg n2, h1, h2, h3, h4, if_true]; rfl

theorem validUtf8_char {c : Bytes} (h : CharBytes c) (s : Bytes) : validUtf8 (c ++ s) = validUtf8 s := by
  rcases h with ⟨a, rfl, h⟩ | ⟨a, b, rfl, h1, h2⟩ | ⟨a, b, d, rfl, h1, h2, h3⟩ | ⟨a, b, d, e, rfl, h1, h2, h3, h4⟩
  · conv => lhs; unfold validUtf8
    simp [h]
  · have n0 : ¬ a < 0x80 := by
      rw [between] at h1; rw [UInt8.lt_iff_toNat_lt]; simp only [UInt8.reduceToNat] at *; omega
    conv => lhs; unfold validUtf8
    simp only [List.cons_append, List.nil_append, if_neg n0, h1, h2, if_true]; rfl
  · have h1' := (between ..).mp h1
    simp only [UInt8.reduceToNat] at h1'
    have n0 : ¬ a < 0x80 := by
      rw [UInt8.lt_iff_toNat_lt]; simp only [UInt8.reduceToNat] at *; omega
    have n1 : ¬ (0xC2 ≤ a && a ≤ 0xDF) = true := by
      rw [between]; simp only [UInt8.reduceToNat] at *; omega
    unfold second3 at h2
    conv => lhs; unfold validUtf8
    simp only [List.cons_append, List.nil_append, if_neg n0, if_neg n1, h1, h2, h3, if_true]; rfl
  · have h1' := (between ..).mp h1
    simp only [UInt8.reduceToNat] at h1'
    have n0 : ¬ a < 0x80 := by
      rw [UInt8.lt_iff_toNat_lt]; simp only [UInt8.reduceToNat] at *; omega
    have n1 : ¬ (0xC2 ≤ a && a ≤ 0xDF) = true := by
      rw [between]; simp only [UInt8.reduceToNat] at *; omega
    have n2 : ¬ (0xE0 ≤ a && a ≤ 0xEF) = true := by
      rw [between]; simp only [UInt8.reduceToNat] at *; omega
    unfold second4 at h2
    conv => lhs; unfold validUtf8
    simp only [List.cons_append, List.nil_append, if_neg n0, if_neg n1, if_neg n2, h1, h2, h3, h4, if_true]; rfl

theorem utf8Head_true {s : Bytes} {k : Nat} (h : utf8Head s = (true, k)) : ∃ c t, s = c ++ t ∧ CharBytes c ∧ k = c.length := by
  match s with
  | [] => cases h
  | x :: r =>
    unfold utf8Head at h
    simp only at h
    by_cases h0 : x < 0x80
    · rw [if_pos h0] at h; cases h
      exact ⟨[x], r, rfl, Or.inl ⟨_, rfl, h0⟩, rfl⟩
    · rw [if_neg h0] at h
      by_cases hC : (0xC2 ≤ x && x ≤ 0xDF) = true
      · rw [if_pos hC] at h
        match r with
        | [] => cases h
        | y :: r =>
          simp only at h
          by_cases hy : isCont y = true
          · rw [if_pos hy] at h; cases h
            exact ⟨[x, y], r, rfl, Or.inr (Or.inl ⟨_, _, rfl, hC, hy⟩), rfl⟩
          · rw [if_neg hy] at h; cases h
      · rw [if_neg hC] at h
        by_cases hE : (0xE0 ≤ x && x ≤ 0xEF) = true
        · rw [if_pos hE] at h
          match r with
          | [] => cases h
          | y :: r =>
            simp only at h
            change (if second3 x y = true then _ else _) = _ at h
            by_cases hy : second3 x y = true
            · rw [if_pos hy] at h
              match r with
              | [] => cases h
              | z :: r =>
                simp only at h
                by_cases hz : isCont z = true
                · rw [if_pos hz] at h; cases h
                  exact ⟨[x, y, z], r, rfl, Or.inr (Or.inr (Or.inl ⟨_, _, _, rfl, hE, hy, hz⟩)), rfl⟩
                · rw [if_neg hz] at h; cases h
            · rw [if_neg hy] at h; cases h
        · rw [if_neg hE] at h
          by_cases hF : (0xF0 ≤ x && x ≤ 0xF4) = true
          · rw [if_pos hF] at h
            match r with
            | [] => cases h
            | y :: r =>
              simp only at h
              change (if second4 x y = true then _ else _) = _ at h
              by_cases hy : second4 x y = true
              · rw [if_pos hy] at h
                match r with
                | [] => cases h
                | z :: r =>
                  simp only at h
                  by_cases hz : isCont z = true
                  · rw [if_pos hz] at h
                    match r with
                    | [] => cases h
                    | e :: r =>
                      simp only at h
                      by_cases he : isCont e = true
                      · rw [if_pos he] at h; cases h
                        exact ⟨[x, y, z, e], r, rfl, Or.inr (Or.inr (Or.inr ⟨_, _, _, _, rfl, hF, hy, hz, he⟩)), rfl⟩
                      · rw [if_neg he] at h; cases h
                  · rw [if_neg hz] at h; cases h
              · rw [if_neg hy] at h; cases h
          · rw [if_neg hF] at h; cases h

theorem validUtf8_iff (b : Bytes) : validUtf8 b = true ↔ Utf8Text b := by
  constructor
  · intro h
    generalize hn : b.length = n
    induction n using Nat.strongRecOn generalizing b with
    | ind n ih =>
      by_cases hb : b = []
      · subst hb; exact ⟨[], by simp, rfl⟩
      · obtain ⟨c, t, rfl, hc, hh, ht⟩ := validUtf8_cases h hb
        obtain ⟨c', t', e, hcb, hl⟩ := utf8Head_true hh
        obtain ⟨e1, e2⟩ := List.append_inj e hl
        subst e1; subst e2
        have : 0 < c.length := List.length_pos_iff.mpr hc
        obtain ⟨ns, hns, rfl⟩ := ih t.length (by simp at hn; omega) t ht rfl
        obtain ⟨n, hs, rfl⟩ := hcb.scalar
        exact ⟨n :: ns, by simpa using ⟨hs, hns⟩, rfl⟩
  · rintro ⟨ns, hns, rfl⟩
    induction ns with
    | nil => exact validUtf8_nil
    | cons n ns ih =>
      rw [List.flatMap_cons, validUtf8_char (encodeChar_bytes (hns n (by simp)))]
      exact ih (fun m hm => hns m (by simp [hm]))

theorem begun_iff (v : Bytes) : Begun v ↔ ∃ c, CharBytes c ∧ v <+: c :=
  ⟨fun ⟨_, hs, hp⟩ => ⟨_, encodeChar_bytes hs, hp⟩, fun ⟨_, hc, hp⟩ => by
    obtain ⟨n, hs, rfl⟩ := hc.scalar
    exact ⟨n, hs, hp⟩⟩

/-- the beginnings of characters in two bytes or more -/
theorem begun2 {x y : UInt8} {w c : Bytes} (h : CharBytes c) (hp : x :: y :: w <+: c) :
    ((0xC2 ≤ x && x ≤ 0xDF) = true ∧ isCont y = true ∧ w = []) ∨
    ((0xE0 ≤ x && x ≤ 0xEF) = true ∧ second3 x y = true ∧ ∀ z l, w = z :: l → isCont z = true ∧ l = []) ∨
    ((0xF0 ≤ x && x ≤ 0xF4) = true ∧ second4 x y = true ∧ ∀ z l, w = z :: l → isCont z = true ∧
      ∀ e l', l = e :: l' → isCont e = true ∧ l' = []) := by
  obtain ⟨t, ht⟩ := hp
  rcases h with ⟨a, rfl, h⟩ | ⟨a, b, rfl, h1, h2⟩ | ⟨a, b, d, rfl, h1, h2, h3⟩ | ⟨a, b, d, e, rfl, h1, h2, h3, h4⟩
  · cases ht
  · simp only [List.cons_append, List.cons.injEq, List.append_eq_nil_iff] at ht
    obtain ⟨rfl, rfl, rfl, _⟩ := ht
    exact Or.inl ⟨h1, h2, rfl⟩
  · simp only [List.cons_append, List.cons.injEq] at ht
    obtain ⟨rfl, rfl, ht⟩ := ht
    refine Or.inr (Or.inl ⟨h1, h2, ?_⟩)
    rintro z l rfl
    simp only [List.cons_append, List.cons.injEq, List.append_eq_nil_iff] at ht
    obtain ⟨rfl, rfl, _⟩ := ht
    exact ⟨h3, rfl⟩
  · simp only [List.cons_append, List.cons.injEq] at ht
    obtain ⟨rfl, rfl, ht⟩ := ht
    refine Or.inr (Or.inr ⟨h1, h2, ?_⟩)
    rintro z l rfl
    simp only [List.cons_append, List.cons.injEq] at ht
    obtain ⟨rfl, ht⟩ := ht
    refine ⟨h3, ?_⟩
    rintro e' l' rfl
    simp only [List.cons_append, List.cons.injEq, List.append_eq_nil_iff] at ht
    obtain ⟨rfl, rfl, _⟩ := ht
    exact ⟨h4, rfl⟩

/-- every first byte that may begin a longer character does, with every second byte allowed -/
theorem begun_e {a b : UInt8} (h1 : (0xE0 ≤ a && a ≤ 0xEF) = true) (h2 : second3 a b = true) : Begun [a, b] :=
  (begun_iff _).mpr ⟨[a, b, 0x80], Or.inr (Or.inr (Or.inl ⟨a, b, 0x80, rfl, h1, h2, by decide⟩)), [0x80], rfl⟩

theorem begun_f {a b : UInt8} (h1 : (0xF0 ≤ a && a ≤ 0xF4) = true) (h2 : second4 a b = true) : Begun [a, b] :=
  (begun_iff _).mpr ⟨[a, b, 0x80, 0x80], Or.inr (Or.inr (Or.inr ⟨a, b, 0x80, 0x80, rfl, h1, h2, by decide, by decide⟩)), [0x80, 0x80], rfl⟩

theorem begun_f3 {a b d : UInt8} (h1 : (0xF0 ≤ a && a ≤ 0xF4) = true) (h2 : second4 a b = true) (h3 : isCont d = true) :
    Begun [a, b, d] :=
  (begun_iff _).mpr ⟨[a, b, d, 0x80], Or.inr (Or.inr (Or.inr ⟨a, b, d, 0x80, rfl, h1, h2, h3, by decide⟩)), [0x80], rfl⟩

/-- what an ill-formed chunk is -/
def BadChunk (s : Bytes) (k : Nat) : Prop :=
  1 ≤ k ∧ k ≤ s.length ∧ (Begun (s.take k) ∨ k = 1) ∧ ∀ v, v <+: s → Begun v → v.length ≤ k

theorem BadChunk.one {x : UInt8} {r : Bytes} (h : ∀ y w, y :: w <+: r → ¬ Begun (x :: y :: w)) : BadChunk (x :: r) 1 := by
  refine ⟨Nat.le_refl _, by simp, Or.inr rfl, ?_⟩
  rintro v hv hb
  match v with
  | [] => simp
  | [_] => simp
  | _ :: y :: w =>
    rw [List.cons_prefix_cons] at hv
    obtain ⟨rfl, hv⟩ := hv
    exact absurd hb (h y w hv)

theorem BadChunk.two {x y : UInt8} {r : Bytes} (hb : Begun [x, y]) (h : ∀ z w, z :: w <+: r → ¬ Begun (x :: y :: z :: w)) :
    BadChunk (x :: y :: r) 2 := by
  refine ⟨by omega, by simp, Or.inl hb, ?_⟩
  rintro v hv hb'
  match v with
  | [] => simp
  | [_] => simp
  | [_, _] => simp
  | _ :: _ :: z :: w =>
    rw [List.cons_prefix_cons, List.cons_prefix_cons] at hv
    obtain ⟨rfl, rfl, hv⟩ := hv
    exact absurd hb' (h z w hv)

theorem BadChunk.three {x y z : UInt8} {r : Bytes} (hb : Begun [x, y, z])
    (h : ∀ e w, e :: w <+: r → ¬ Begun (x :: y :: z :: e :: w)) : BadChunk (x :: y :: z :: r) 3 := by
  refine ⟨by omega, by simp, Or.inl hb, ?_⟩
  rintro v hv hb'
  match v with
  | [] => simp
  | [_] => simp
  | [_, _] => simp
  | [_, _, _] => simp
  | _ :: _ :: _ :: e :: w =>
    rw [List.cons_prefix_cons, List.cons_prefix_cons, List.cons_prefix_cons] at hv
    obtain ⟨rfl, rfl, rfl, hv⟩ := hv
    exact absurd hb' (h e w hv)

theorem begun2' {x y : UInt8} {w : Bytes} (h : Begun (x :: y :: w)) :
    ((0xC2 ≤ x && x ≤ 0xDF) = true ∧ isCont y = true ∧ w = []) ∨
    ((0xE0 ≤ x && x ≤ 0xEF) = true ∧ second3 x y = true ∧ ∀ z l, w = z :: l → isCont z = true ∧ l = []) ∨
    ((0xF0 ≤ x && x ≤ 0xF4) = true ∧ second4 x y = true ∧ ∀ z l, w = z :: l → isCont z = true ∧
      ∀ e l', l = e :: l' → isCont e = true ∧ l' = []) := by
  obtain ⟨c, hc, hp⟩ := (begun_iff _).mp h
  exact begun2 hc hp

theorem disj_ce {x : UInt8} (h : (0xC2 ≤ x && x ≤ 0xDF) = true) (h' : (0xE0 ≤ x && x ≤ 0xEF) = true) : False := by
  rw [between] at h h'; simp only [UInt8.reduceToNat] at h h'; omega
theorem disj_cf {x : UInt8} (h : (0xC2 ≤ x && x ≤ 0xDF) = true) (h' : (0xF0 ≤ x && x ≤ 0xF4) = true) : False := by
  rw [between] at h h'; simp only [UInt8.reduceToNat] at h h'; omega
theorem disj_ef {x : UInt8} (h : (0xE0 ≤ x && x ≤ 0xEF) = true) (h' : (0xF0 ≤ x && x ≤ 0xF4) = true) : False := by
  rw [between] at h h'; simp only [UInt8.reduceToNat] at h h'; omega

theorem utf8Head_false {s : Bytes} {k : Nat} (h : utf8Head s = (false, k)) (hne : s ≠ []) : BadChunk s k := by
  match s with
  | [] => exact absurd rfl hne
  | x :: r =>
    unfold utf8Head at h
    simp only at h
    by_cases h0 : x < 0x80
    · rw [if_pos h0] at h; cases h
    · rw [if_neg h0] at h
      by_cases hC : (0xC2 ≤ x && x ≤ 0xDF) = true
      · rw [if_pos hC] at h
        match r with
        | [] => cases h; exact .one (fun y w hp => by simp at hp)
        | y :: r =>
          simp only at h
          by_cases hy : isCont y = true
          · rw [if_pos hy] at h; cases h
          · rw [if_neg hy] at h; cases h
            refine .one (fun y' w hp hb => ?_)
            rw [List.cons_prefix_cons] at hp
            obtain ⟨rfl, _⟩ := hp
            rcases begun2' hb with ⟨_, h, _⟩ | ⟨h, _⟩ | ⟨h, _⟩
            · exact hy h
            · exact disj_ce hC h
            · exact disj_cf hC h
      · rw [if_neg hC] at h
        by_cases hE : (0xE0 ≤ x && x ≤ 0xEF) = true
        · rw [if_pos hE] at h
          match r with
          | [] => cases h; exact .one (fun y w hp => by simp at hp)
          | y :: r =>
            simp only at h
            change (if second3 x y = true then _ else _) = _ at h
            by_cases hy : second3 x y = true
            · rw [if_pos hy] at h
              match r with
              | [] => cases h; exact .two (begun_e hE hy) (fun y w hp => by simp at hp)
              | z :: r =>
                simp only at h
                by_cases hz : isCont z = true
                · rw [if_pos hz] at h; cases h
                · rw [if_neg hz] at h; cases h
                  refine .two (begun_e hE hy) (fun z' w hp hb => ?_)
                  rw [List.cons_prefix_cons] at hp
                  obtain ⟨rfl, _⟩ := hp
                  rcases begun2' hb with ⟨h, _⟩ | ⟨_, _, h⟩ | ⟨h, _⟩
                  · exact hC h
                  · exact hz (h _ _ rfl).1
                  · exact disj_ef hE h
            · rw [if_neg hy] at h; cases h
              refine .one (fun y' w hp hb => ?_)
              rw [List.cons_prefix_cons] at hp
              obtain ⟨rfl, _⟩ := hp
              rcases begun2' hb with ⟨h, _⟩ | ⟨_, h, _⟩ | ⟨h, _⟩
              · exact hC h
              · exact hy h
              · exact disj_ef hE h
        · rw [if_neg hE] at h
          by_cases hF : (0xF0 ≤ x && x ≤ 0xF4) = true
          · rw [if_pos hF] at h
            match r with
            | [] => cases h; exact .one (fun y w hp => by simp at hp)
            | y :: r =>
              simp only at h
              change (if second4 x y = true then _ else _) = _ at h
              by_cases hy : second4 x y = true
              · rw [if_pos hy] at h
                match r with
                | [] => cases h; exact .two (begun_f hF hy) (fun y w hp => by simp at hp)
                | z :: r =>
                  simp only at h
                  by_cases hz : isCont z = true
                  · rw [if_pos hz] at h
                    match r with
                    | [] => cases h; exact .three (begun_f3 hF hy hz) (fun y w hp => by simp at hp)
                    | e :: r =>
                      simp only at h
                      by_cases he : isCont e = true
                      · rw [if_pos he] at h; cases h
                      · rw [if_neg he] at h; cases h
                        refine .three (begun_f3 hF hy hz) (fun e' w hp hb => ?_)
                        rw [List.cons_prefix_cons] at hp
                        obtain ⟨rfl, _⟩ := hp
                        rcases begun2' hb with ⟨h, _⟩ | ⟨h, _⟩ | ⟨_, _, h⟩
                        · exact hC h
                        · exact hE h
                        · exact he ((h _ _ rfl).2 _ _ rfl).1
                  · rw [if_neg hz] at h; cases h
                    refine .two (begun_f hF hy) (fun z' w hp hb => ?_)
                    rw [List.cons_prefix_cons] at hp
                    obtain ⟨rfl, _⟩ := hp
                    rcases begun2' hb with ⟨h, _⟩ | ⟨h, _⟩ | ⟨_, _, h⟩
                    · exact hC h
                    · exact hE h
                    · exact hz (h _ _ rfl).1
              · rw [if_neg hy] at h; cases h
                refine .one (fun y' w hp hb => ?_)
                rw [List.cons_prefix_cons] at hp
                obtain ⟨rfl, _⟩ := hp
                rcases begun2' hb with ⟨h, _⟩ | ⟨h, _⟩ | ⟨_, h, _⟩
                · exact hC h
                · exact hE h
                · exact hy h
          · rw [if_neg hF] at h; cases h
            refine .one (fun y' w hp hb => ?_)
            rcases begun2' hb with ⟨h, _⟩ | ⟨h, _⟩ | ⟨h, _⟩
            · exact hC h
            · exact hE h
            · exact hF h

theorem CharBytes.ne {c : Bytes} (h : CharBytes c) : c ≠ [] := by
  rcases h with ⟨a, rfl, h⟩ | ⟨a, b, rfl, h1, h2⟩ | ⟨a, b, d, rfl, h1, h2, h3⟩ | ⟨a, b, d, e, rfl, h1, h2, h3, h4⟩ <;> simp

theorem lossyLoop_cons {n : Nat} {s : Bytes} {ok : Bool} {k : Nat} (h : utf8Head s = (ok, k)) (hne : s ≠ []) :
    lossyLoop (n + 1) s = (if ok then s.take k else [0xEF, 0xBF, 0xBD]) ++ lossyLoop n (s.drop k) := by
  cases s with
  | nil => exact absurd rfl hne
  | cons x r => simp only [lossyLoop, h]

theorem lossyLoop_shown (n : Nat) : ∀ s : Bytes, s.length ≤ n → TextShown s (lossyLoop n s) := by
  induction n with
  | zero => intro s h; simp at h; subst h; exact .nil
  | succ n ih =>
    intro s hl
    by_cases hs : s = []
    · subst hs; exact .nil
    · cases hh : utf8Head s with
      | mk ok k =>
        rw [lossyLoop_cons hh hs]
        cases ok with
        | true =>
          obtain ⟨c, t, rfl, hc, rfl⟩ := utf8Head_true hh
          have := List.length_pos_iff.mpr hc.ne
          obtain ⟨m, hm, rfl⟩ := hc.scalar
          simp only [if_true, List.take_left', List.drop_left']
          exact .char hm (ih t (by simp at hl; omega))
        | false =>
          obtain ⟨h1, h2, h3, h4⟩ := utf8Head_false hh hs
          simp only [Bool.false_eq_true, if_false]
          have e : s = s.take k ++ s.drop k := (List.take_append_drop k s).symm
          have hlen : (s.take k).length = k := by simp; omega
          conv => arg 1; rw [e]
          have : encodeChar 0xFFFD = [0xEF, 0xBF, 0xBD] := by decide
          rw [← this]
          refine .bad ?_ ?_ ?_ ?_ (ih _ (by simp; omega))
          · rintro m hm ⟨t, ht⟩
            rw [← e] at ht
            rw [← ht, utf8Head_char (encodeChar_bytes hm)] at hh
            cases hh
          · rw [hlen]; exact h3
          · intro h0; rw [h0] at hlen; simp at hlen; omega
          · rw [← e, hlen]; exact h4

theorem TextShown.eq {s t : Bytes} (h : TextShown s t) : ∀ n, s.length ≤ n → t = lossyLoop n s := by
  induction h with
  | nil => intro n _; cases n <;> rfl
  | @char m s t hm _ ih =>
    intro n hn
    have hc := encodeChar_bytes hm
    have := List.length_pos_iff.mpr hc.ne
    cases n with
    | zero => rw [List.length_append] at hn; omega
    | succ n =>
      rw [lossyLoop_cons (utf8Head_char hc s) (by simp [hc.ne])]
      simp only [if_true, List.take_left', List.drop_left']
      rw [ih n (by simp at hn; omega)]
  | @bad u s t hno hu hne hmax _ ih =>
    intro n hn
    have := List.length_pos_iff.mpr hne
    cases n with
    | zero => rw [List.length_append] at hn; omega
    | succ n =>
      cases hh : utf8Head (u ++ s) with
      | mk ok k =>
        cases ok with
        | true =>
          obtain ⟨c, t', e, hc, _⟩ := utf8Head_true hh
          obtain ⟨m, hm, rfl⟩ := hc.scalar
          exact absurd ⟨t', e.symm⟩ (hno m hm)
        | false =>
          obtain ⟨h1, h2, h3, h4⟩ := utf8Head_false hh (by simp [hne])
          have hk : k = u.length := by
            have a1 : k ≤ u.length := by
              rcases h3 with h3 | h3
              · have := hmax _ (List.take_prefix k (u ++ s)) h3
                simp only [List.length_take] at this; omega
              · omega
            have a2 : u.length ≤ k := by
              rcases hu with hu | hu
              · exact h4 u (List.prefix_append u s) hu
              · omega
            omega
          rw [lossyLoop_cons hh (by simp [hne]), hk]
          simp only [Bool.false_eq_true, if_false, List.drop_left']
          rw [ih n (by simp at hn; omega)]
          rfl

theorem textShown_iff (s t : Bytes) : TextShown s t ↔ t = lossy s := by
  refine ⟨fun h => h.eq _ (Nat.le_refl _), ?_⟩
  rintro rfl
  exact lossyLoop_shown _ s (Nat.le_refl _)

end Arx
