import Verif.Props.SameItems
import Verif.Proof.WordsProof
/-!
# C92: names, order, text and numbers
-/
namespace Arx

/-- **C92 (paths).** Every text spells exactly one path; its names are never empty and contain no `/`. A path is written as its names with one
`/` between them, and reading that gives the path back. -/
theorem C92_paths :
    (∀ (p : Bytes) (ns : List Bytes), PathText p ns ↔ comps p = ns) ∧
    (∀ ns : List Bytes, joinPath ns = List.intercalate [47] ns) ∧
    (∀ ns : List Bytes, (∀ c ∈ ns, c ≠ [] ∧ 47 ∉ c) → PathText (joinPath ns) ns) ∧
    CUR = ascii "." ∧ PARENT = ascii ".." ∧ [SEP] = ascii "/" :=
  ⟨pathText_iff, joinPath_eq, fun _ h => (pathText_iff _ _).mpr (comps_joinPath h), by decide, by decide, by decide⟩

/-- **C92 (order).** The order in which entries are stored, searched and listed. -/
theorem C92_order (a b : Bytes) :
    (cmpBytes a b = .lt ↔ BytesLess a b) ∧ (cmpBytes a b = .gt ↔ BytesLess b a) ∧ (cmpBytes a b = .eq ↔ a = b) ∧
    (ltBytes a b ↔ BytesLess a b) :=
  ⟨(bytesLess_iff a b).symm, cmpBytes_gt.trans (bytesLess_iff b a).symm, cmpBytes_eq, (bytesLess_iff a b).symm⟩

/-- **C92 (text).** The bytes that are accepted as text are the encodings of characters one after the other. -/
theorem C92_text (b : Bytes) : validUtf8 b = true ↔ Utf8Text b := validUtf8_iff b

/-- **C92 (shown).** How bytes are shown as text, whatever they are; and what is shown always is text. -/
theorem C92_shown (s : Bytes) : (∀ t, TextShown s t ↔ t = lossy s) ∧ Utf8Text (lossy s) := by
  refine ⟨textShown_iff s, ?_⟩
  have h := (textShown_iff s _).mpr rfl
  generalize lossy s = t at h
  induction h with
  | nil => exact ⟨[], by simp, rfl⟩
  | char hn _ ih =>
    obtain ⟨ns, h1, rfl⟩ := ih
    exact ⟨_ :: ns, by simpa using ⟨hn, h1⟩, rfl⟩
  | bad _ _ _ _ _ ih =>
    obtain ⟨ns, h1, rfl⟩ := ih
    exact ⟨0xFFFD :: ns, by simpa using ⟨Or.inr (by decide), h1⟩, rfl⟩

/-- **C92 (numbers).** Times, sizes and counts are printed in decimal: digits only, which read as the number. -/
theorem C92_numbers (n : Nat) :
    dec n = decimal n ∧ (∀ c ∈ dec n, 48 ≤ c.toNat ∧ c.toNat ≤ 57) ∧
    (dec n).foldl (fun v c => 10 * v + (c.toNat - 48)) 0 = n := by
  refine ⟨dec_eq n, ?_⟩
  rw [dec_eq]
  induction n using Nat.strongRecOn with
  | ind n ih =>
    have hb : ∀ k, k < 256 → (UInt8.ofNat k).toNat = k := fun k hk => by rw [UInt8.toNat_ofNat']; omega
    rw [decimal]
    by_cases h : n < 10
    · rw [if_pos h]
      simp only [List.mem_singleton, forall_eq, List.foldl_cons, List.foldl_nil]
      rw [hb _ (by omega)]
      omega
    · rw [if_neg h]
      obtain ⟨h1, h2⟩ := ih (n / 10) (by omega)
      rw [List.foldl_append, h2]
      simp only [List.mem_append, List.mem_singleton, List.foldl_cons, List.foldl_nil]
      rw [hb _ (by omega)]
      refine ⟨?_, by omega⟩
      rintro c (hc | rfl)
      · exact h1 c hc
      · rw [hb _ (by omega)]; omega

/-! ## Examples -/

example : PathText (ascii "//a/./b//c/") [ascii "a", ascii ".", ascii "b", ascii "c"] :=
  (pathText_iff _ _).mpr (by decide)
example : PathText (ascii "a/b") [ascii "a", ascii "b"] := .name (c := ascii "a") (by decide) (by decide) (.last (by decide) (by decide))
example : BytesLess (ascii "ab") (ascii "abc") ∧ BytesLess (ascii "a.b") (ascii "a/b") ∧ ¬ BytesLess (ascii "b") (ascii "ab") :=
  ⟨Or.inl ⟨_, [], rfl⟩, Or.inr ⟨ascii "a", _, _, _, _, rfl, rfl, by decide⟩, fun h => by
    have := (bytesLess_iff _ _).mp h
    revert this; decide⟩
example : Utf8Text [0xC3, 0xA9, 0xF0, 0x9F, 0x98, 0x80] := ⟨[0xE9, 0x1F600], by simp [Scalar], by decide⟩
/-- a surrogate, an overlong form and a number above the last character are no text -/
example : ¬ Utf8Text [0xED, 0xA0, 0x80] ∧ ¬ Utf8Text [0xC0, 0xAF] ∧ ¬ Utf8Text [0xF4, 0x90, 0x80, 0x80] := by
  refine ⟨?_, ?_, ?_⟩ <;> · rw [← C92_text]; decide +kernel
example : TextShown [0x61, 0xE2, 0x82, 0x62, 0xFF] [0x61, 0xEF, 0xBF, 0xBD, 0x62, 0xEF, 0xBF, 0xBD] :=
  (textShown_iff _ _).mpr (by decide)
example : dec 1200 = ascii "1200" := by decide

end Arx
