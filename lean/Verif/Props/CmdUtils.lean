import Verif.Spec.CmdUtils
/-!
# C46: the compression argument
-/
namespace Arx

theorem splitEq_of_argIs {s algo : Bytes} {level : Option Bytes} (h : ArgIs s algo level) : splitEq s = (algo, level) := by
  obtain ⟨h1, rfl⟩ := h
  induction algo with
  | nil => cases level <;> simp [splitEq]
  | cons c t ih =>
    simp only [List.mem_cons, not_or] at h1
    have hc : c ≠ 61 := fun e => h1.1 e.symm
    simp only [List.cons_append, splitEq, if_neg hc, ih h1.2]

/-- Every argument is of one of the two forms. -/
theorem argIs_exists (s : Bytes) : ∃ algo level, ArgIs s algo level := by
  induction s with
  | nil => exact ⟨[], none, by simp [ArgIs]⟩
  | cons c t ih =>
    by_cases hc : c = 61
    · exact ⟨[], some t, by simp [ArgIs, hc]⟩
    · obtain ⟨a, l, h1, h2⟩ := ih
      refine ⟨c :: a, l, by simp [h1, Ne.symm hc], ?_⟩
      rw [h2]; rfl

theorem lower_eq_iff {a name : Bytes} (hn : lower name = name) : lower a = name ↔ SameName a name := by
  induction a generalizing name with
  | nil => cases name <;> simp [lower, SameName]
  | cons c a ih =>
    cases name with
    | nil => simp [lower, SameName]
    | cons d b =>
      have hn1 : (if 65 ≤ d ∧ d ≤ 90 then d + 32 else d) = d ∧ lower b = b := by simpa [lower] using hn
      have hl : lower (c :: a) = (if 65 ≤ c ∧ c ≤ 90 then c + 32 else c) :: lower a := rfl
      rw [hl, List.cons.injEq, ih hn1.2, SameName]
      refine and_congr_left' ?_
      have hd : ¬ (65 ≤ d ∧ d ≤ 90) := by
        intro hd
        rw [if_pos hd] at hn1
        have := hn1.1
        have h2 := congrArg UInt8.toNat this
        rw [UInt8.toNat_add] at h2
        have : d.toNat < 256 := d.toNat_lt
        simp at h2
        omega
      by_cases hc : 65 ≤ c ∧ c ≤ 90
      · rw [if_pos hc]
        constructor
        · rintro rfl; exact Or.inr ⟨hc.1, hc.2, rfl⟩
        · rintro (rfl | ⟨_, _, h⟩)
          · exact absurd hc hd
          · exact h.symm
      · rw [if_neg hc]
        constructor
        · rintro rfl; exact Or.inl rfl
        · rintro (rfl | ⟨h1, h2, _⟩)
          · rfl
          · exact absurd ⟨h1, h2⟩ hc

theorem sameName_lower (a : Bytes) : SameName a (lower a) := by
  induction a with
  | nil => trivial
  | cons c a ih =>
    have hl : lower (c :: a) = (if 65 ≤ c ∧ c ≤ 90 then c + 32 else c) :: lower a := rfl
    rw [hl, SameName]
    refine ⟨?_, ih⟩
    by_cases hc : 65 ≤ c ∧ c ≤ 90
    · rw [if_pos hc]; exact Or.inr ⟨hc.1, hc.2, rfl⟩
    · rw [if_neg hc]; exact Or.inl rfl

theorem parseDigits_append (acc : Nat) (b : Bytes) (d : UInt8) : parseDigits acc (b ++ [d]) =
    match parseDigits acc b with
    | none => none
    | some n => if 48 ≤ d ∧ d ≤ 57 then some (n * 10 + (d.toNat - 48)) else none := by
  induction b generalizing acc with
  | nil => simp [parseDigits]
  | cons c b ih =>
    simp only [List.cons_append, parseDigits]
    by_cases hc : 48 ≤ c ∧ c ≤ 57
    · rw [if_pos hc, if_pos hc, ih]
    · rw [if_neg hc, if_neg hc]

theorem parseNat_iff {b : Bytes} {n : Nat} : parseNat b = some n ↔ Decimal b n := by
  constructor
  · have : ∀ k (b : Bytes) n, b.length ≤ k → parseNat b = some n → Decimal b n := by
      intro k
      induction k with
      | zero => intro b n hb h; cases b with
        | nil => simp [parseNat] at h
        | cons => simp at hb
      | succ k ih =>
        intro b n hb h
        by_cases hne : b = []
        · subst hne; simp [parseNat] at h
        · rw [parseNat, if_neg hne] at h
          obtain ⟨c, d, rfl⟩ : ∃ c d, b = c ++ [d] := ⟨b.dropLast, b.getLast hne, (List.dropLast_concat_getLast hne).symm⟩
          rw [parseDigits_append] at h
          by_cases hc : c = []
          · subst hc
            simp only [parseDigits] at h
            split at h
            · rename_i hd
              simp only [Option.some.injEq] at h
              subst h
              simpa using Decimal.one hd.1 hd.2
            · cases h
          · cases hp : parseDigits 0 c with
            | none => rw [hp] at h; cases h
            | some x =>
              rw [hp] at h
              simp only at h
              split at h
              · rename_i hd
                simp only [Option.some.injEq] at h
                subst h
                have := ih c x (by simp at hb; omega) (by rw [parseNat, if_neg hc]; exact hp)
                rw [Nat.mul_comm]
                exact .more this hd.1 hd.2
              · cases h
    exact this b.length b n (Nat.le_refl _)
  · intro h
    induction h with
    | one h1 h2 => simp [parseNat, parseDigits, h1, h2]
    | @more b n d hb h1 h2 ih =>
      have hne : b ≠ [] := by
        intro e; rw [e] at ih; simp [parseNat] at ih
      rw [parseNat, if_neg hne] at ih
      rw [parseNat, if_neg (by simp), parseDigits_append, ih]
      simp [h1, h2, Nat.mul_comm]

theorem Decimal.head {b : Bytes} {n : Nat} (h : Decimal b n) : ∃ d t, b = d :: t ∧ 48 ≤ d ∧ d ≤ 57 := by
  induction h with
  | one h1 h2 => exact ⟨_, _, rfl, h1, h2⟩
  | more _ _ _ ih =>
    obtain ⟨d, t, rfl, h1, h2⟩ := ih
    exact ⟨d, _, rfl, h1, h2⟩

theorem readInt_iff {signed : Bool} {b : Bytes} {v : Int} : readInt signed b = some v ↔ IntText signed b v := by
  unfold readInt
  constructor
  · intro h
    split at h
    · obtain ⟨n, hn, rfl⟩ := Option.map_eq_some_iff.mp h
      exact .plus (parseNat_iff.mp hn)
    · split at h
      · obtain ⟨n, hn, rfl⟩ := Option.map_eq_some_iff.mp h
        exact .minus (by assumption) (parseNat_iff.mp hn)
      · cases h
    · obtain ⟨n, hn, rfl⟩ := Option.map_eq_some_iff.mp h
      exact .plain (parseNat_iff.mp hn)
  · intro h
    cases h with
    | plus h => simp [parseNat_iff.mpr h]
    | minus hs h => simp [parseNat_iff.mpr h, hs]
    | plain h =>
      obtain ⟨d, t, rfl, h1, h2⟩ := h.head
      split
      · rename_i heq; cases heq; exact absurd h1 (by decide)
      · rename_i heq; cases heq; exact absurd h1 (by decide)
      · simp [parseNat_iff.mpr h]

theorem parseInt_iff {signed : Bool} {lo hi : Int} {b : Bytes} {v : Int} :
    parseInt signed lo hi b = some v ↔ IntText signed b v ∧ lo ≤ v ∧ v ≤ hi := by
  unfold parseInt
  cases hx : readInt signed b with
  | none =>
    simp only [reduceCtorEq, false_iff]
    rintro ⟨h, _⟩
    rw [readInt_iff.mpr h] at hx
    cases hx
  | some u =>
    simp only
    constructor
    · intro h
      split at h
      · rename_i hr
        cases h
        exact ⟨readInt_iff.mp hx, hr⟩
      · cases h
    · rintro ⟨h, hr⟩
      rw [readInt_iff.mpr h] at hx
      cases hx
      rw [if_pos hr]

theorem parseRanged_iff {signed : Bool} {lo hi : Int} {b : Bytes} {v : Int}
    (hlo : (if signed then -(2 ^ 31) else 0) ≤ lo) (hhi : hi ≤ (if signed then 2 ^ 31 - 1 else 2 ^ 32 - 1)) :
    parseRanged signed lo hi b = some v ↔ IntText signed b v ∧ lo ≤ v ∧ v ≤ hi := by
  unfold parseRanged
  constructor
  · intro h
    split at h
    · cases h
    · rename_i u hu
      split at h
      · rename_i hr
        cases h
        exact ⟨(parseInt_iff.mp hu).1, hr⟩
      · cases h
  · rintro ⟨h, h1, h2⟩
    have : parseInt signed (if signed then -(2 ^ 31) else 0) (if signed then 2 ^ 31 - 1 else 2 ^ 32 - 1) b = some v :=
      parseInt_iff.mpr ⟨h, Int.le_trans hlo h1, Int.le_trans h2 hhi⟩
    rw [this]
    simp [h1, h2]

theorem parseLevel_spec {signed : Bool} {lo hi : Int}
    (hlo : (if signed then -(2 ^ 31) else 0) ≤ lo) (hhi : hi ≤ (if signed then 2 ^ 31 - 1 else 2 ^ 32 - 1)) (level : Option Bytes) :
    (level = none → parseLevel signed lo hi level = .ok .default) ∧
    (∀ l v, level = some l → IntText signed l v → lo ≤ v → v ≤ hi → parseLevel signed lo hi level = .ok (.given v)) ∧
    (∀ l, level = some l → (¬ ∃ v, IntText signed l v ∧ lo ≤ v ∧ v ≤ hi) → parseLevel signed lo hi level = .error .level) := by
  refine ⟨fun h => by rw [h]; rfl, fun l v h h1 h2 h3 => ?_, fun l h hn => ?_⟩
  · rw [h, parseLevel, (parseRanged_iff hlo hhi).mpr ⟨h1, h2, h3⟩]
  · rw [h, parseLevel]
    cases hp : parseRanged signed lo hi l with
    | none => rfl
    | some v => exact absurd ⟨v, (parseRanged_iff hlo hhi).mp hp⟩ hn

theorem compressionArg_algo (ft : Features) {s algo : Bytes} {level : Option Bytes} (h : ArgIs s algo level) (A : Algo)
    (hp : A.present ft = true) (hn : SameName algo A.name) :
    compressionArg ft s = (parseLevel A.signed A.lo A.hi level).map A.comp := by
  have hl : lower algo = A.name := (lower_eq_iff (by cases A <;> decide)).mpr hn
  rw [compressionArg, splitEq_of_argIs h]
  simp only [hl]
  cases A with
  | lz4 =>
    rw [if_neg (by decide), if_pos ⟨hp, by rfl⟩]; rfl
  | lzma =>
    rw [if_neg (by decide), if_neg (fun h => absurd h.2 (by decide)), if_pos ⟨hp, by rfl⟩]; rfl
  | zstd =>
    rw [if_neg (by decide), if_neg (fun h => absurd h.2 (by decide)), if_neg (fun h => absurd h.2 (by decide)), if_pos ⟨hp, by rfl⟩]; rfl

/-- **C46 (partial).** For every build and every argument `algo` or `algo=level` (every string is one of the
two, `argIs_exists`):
* `none`, in any case, is accepted as no compression;
* the name of a built-in algorithm, in any case, is accepted with its default level, or with the level given
  if that is the decimal text of an integer in the range of the algorithm; any other level is refused as a
  bad level;
* any other name is refused, naming it (in lower case).
Missing: a level given with `none` is not refused (`C46_none_counterexample`). -/
theorem C46_parse_partial (ft : Features) {s algo : Bytes} {level : Option Bytes} (h : ArgIs s algo level) :
    (SameName algo (ascii "none") → level = none → compressionArg ft s = .ok .none) ∧
    (∀ A : Algo, A.present ft = true → SameName algo A.name →
      (level = none → compressionArg ft s = .ok (A.comp .default)) ∧
      (∀ l v, level = some l → IntText A.signed l v → A.lo ≤ v → v ≤ A.hi → compressionArg ft s = .ok (A.comp (.given v))) ∧
      (∀ l, level = some l → (¬ ∃ v, IntText A.signed l v ∧ A.lo ≤ v ∧ v ≤ A.hi) → compressionArg ft s = .error .level)) ∧
    (¬ SameName algo (ascii "none") → (∀ A : Algo, A.present ft = true → ¬ SameName algo A.name) →
      ∃ name, SameName algo name ∧ compressionArg ft s = .error (.algorithm name)) := by
  refine ⟨fun hn _ => ?_, fun A hp hn => ?_, fun hn hA => ⟨lower algo, sameName_lower algo, ?_⟩⟩
  · have hl : lower algo = ascii "none" := (lower_eq_iff (by decide)).mpr hn
    rw [compressionArg, splitEq_of_argIs h]
    simp [hl]
  · obtain ⟨k1, k2, k3⟩ := parseLevel_spec (signed := A.signed) (lo := A.lo) (hi := A.hi) (by cases A <;> decide)
      (by cases A <;> decide) level
    rw [compressionArg_algo ft h A hp hn]
    exact ⟨fun e => by rw [k1 e]; rfl, fun l v e h1 h2 h3 => by rw [k2 l v e h1 h2 h3]; rfl, fun l e h1 => by rw [k3 l e h1]; rfl⟩
  · have hnn : lower algo ≠ ascii "none" := fun e => hn ((lower_eq_iff (by decide)).mp e)
    have hAA : ∀ A : Algo, A.present ft = true → lower algo ≠ A.name := fun A hp e =>
      hA A hp ((lower_eq_iff (by cases A <;> decide)).mp e)
    rw [compressionArg, splitEq_of_argIs h]
    simp only
    rw [if_neg hnn, if_neg (fun h => hAA .lz4 h.1 h.2), if_neg (fun h => hAA .lzma h.1 h.2), if_neg (fun h => hAA .zstd h.1 h.2)]

/-- **C46 is false for `none`**: any text is accepted as its level. -/
theorem C46_none_counterexample (ft : Features) (l : Bytes) : compressionArg ft (ascii "none=" ++ l) = .ok .none := by
  have h : ArgIs (ascii "none=" ++ l) (ascii "none") (some l) := ⟨by decide, rfl⟩
  rw [compressionArg, splitEq_of_argIs h]
  rfl

/-- The three flags of the concat mode: the conversion is defined whenever a flag is given, and means the flag
given (clap accepts one at most, and the conversion is only done if one is given). -/
theorem C46_concat_mode : concatMode true false false = some .oneFile ∧ concatMode false true false = some .twoFiles ∧
    concatMode false false true = some .noConcat := ⟨rfl, rfl, rfl⟩

def allFeatures : Features := ⟨true, true, true⟩

/-- both forms, cases, signs and bounds -/
example : compressionArg allFeatures (ascii "ZStd=-22") = .ok (.zstd (.given (-22))) ∧
    compressionArg allFeatures (ascii "zstd=-23") = .error .level ∧
    compressionArg allFeatures (ascii "lz4=+15") = .ok (.lz4 (.given 15)) ∧
    compressionArg allFeatures (ascii "lz4=16") = .error .level ∧
    compressionArg allFeatures (ascii "lz4=-0") = .error .level ∧
    compressionArg allFeatures (ascii "LZMA") = .ok (.lzma .default) ∧
    compressionArg allFeatures (ascii "lzma=") = .error .level ∧
    compressionArg { allFeatures with lzma := false } (ascii "Lzma=3") = .error (.algorithm (ascii "lzma")) ∧
    compressionArg allFeatures (ascii "gzip") = .error (.algorithm (ascii "gzip")) := by decide

example : ArgIs (ascii "zstd=-5") (ascii "zstd") (some (ascii "-5")) ∧ IntText true (ascii "-5") (-5) :=
  ⟨⟨by decide, rfl⟩, .minus rfl (.one (d := 53) (by decide) (by decide))⟩

end Arx
