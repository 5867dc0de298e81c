import Verif.Model.ConvertMain
import Verif.Props.ConvertIff
import Verif.Props.ConvertEx
/-!
# The output of the converters (C61, C62)
-/
namespace Arx

/-- the output path is written -/
def ConvEv.isWritten : ConvEv → Bool
  | .written _ _ => true
  | _ => false

/-- the output that `tar2arx` writes: the given one, or the one named after the input -/
def TarOutput (tarFile outfile : Option Bytes) (out : Bytes) : Prop :=
  outfile = some out ∨ (outfile = none ∧ ∃ f, tarFile = some f ∧ f ≠ ascii "-" ∧ tarOutName f = some out)

/-- the input that `tar2arx` reads -/
def TarInput (tarFile : Option Bytes) : Option Bytes := if tarFile = some (ascii "-") then none else tarFile

theorem convertTo_written {M : Type} {run : Conv → List (Except Unit M) → Conv × COut} {sys : ConvSys M} {out : Bytes}
    {items : List (Except Unit M)} : ((convertTo run sys out items).1 = [.prepared out] ∧ (convertTo run sys out items).2 ≠ .ok ∧
      (sys.openOk = false ∨ (run Conv.new items).2 ≠ .ok)) ∨
    ∃ c, sys.openOk = true ∧ run Conv.new items = (c, .ok) ∧ (convertTo run sys out items).1 = [.prepared out, .written out c] ∧
      ((convertTo run sys out items).2 = .ok ↔ sys.writeOk = true) := by
  unfold convertTo
  cases sys.openOk with
  | false => left; simp
  | true =>
    simp only [Bool.not_true, Bool.false_eq_true, if_false]
    cases h : run Conv.new items with
    | mk c o =>
      cases o with
      | ok => right; exact ⟨c, trivial, rfl, rfl, by cases sys.writeOk <;> simp⟩
      | source => left; simp [COut.toCmd]
      | add e => left; simp [COut.toCmd]
      | panic => left; simp [COut.toCmd]

theorem tarFile_stdin (tarFile : Option Bytes) :
    (if tarFile = none ∨ tarFile = some [45] then none else tarFile) = TarInput tarFile := by
  unfold TarInput
  have : ascii "-" = [45] := rfl
  rw [this]
  cases tarFile with
  | none => simp
  | some f => simp

theorem tar2arx_eq (tarFile outfile : Option Bytes) (sys : ConvSys TarMember) :
    (¬ (∃ out, TarOutput tarFile outfile out) ∧ tar2arx tarFile outfile sys = ([], (tar2arx tarFile outfile sys).2) ∧
      (tar2arx tarFile outfile sys).2 ≠ .ok) ∨
    ∃ out evs, TarOutput tarFile outfile out ∧ (∀ e ∈ evs, e = ConvEv.named out) ∧
      tar2arx tarFile outfile sys = match sys.input (TarInput tarFile) with
        | .error e => (evs, e.toCmd)
        | .ok items => (evs ++ (convertTo Conv.tarRun sys out items).1, (convertTo Conv.tarRun sys out items).2) := by
  unfold tar2arx
  simp only [tarFile_stdin]
  cases outfile with
  | some o =>
    right
    exact ⟨o, [], Or.inl rfl, by simp, by simp; rfl⟩
  | none =>
    simp only [true_and, Option.map]
    by_cases hs : tarFile = none ∨ tarFile = some [45]
    · left
      simp only [if_pos hs]
      refine ⟨?_, trivial, by simp⟩
      rintro ⟨out, h | ⟨_, f, h1, h2, _⟩⟩
      · cases h
      · rcases hs with e | e
        · rw [e] at h1; cases h1
        · rw [e] at h1; cases h1; exact h2 rfl
    · rw [if_neg hs]
      cases tarFile with
      | none => exact absurd (Or.inl rfl) hs
      | some f =>
        simp only [Option.getD_some]
        cases hn : tarOutName f with
        | none =>
          left
          simp only
          refine ⟨?_, trivial, by simp⟩
          rintro ⟨out, h | ⟨_, f', h1, h2, h3⟩⟩
          · cases h
          · cases h1; rw [hn] at h3; cases h3
        | some out =>
          right
          refine ⟨out, [.named out], Or.inr ⟨rfl, f, rfl, ?_, hn⟩, by simp, ?_⟩
          · intro e; exact hs (Or.inr (by rw [e]; rfl))
          · simp only; rfl

/-- **C61, tar2arx.**
1. the output path is written by the last effect of the command if at all, and only when every member of the input
   was converted: a conversion that fails or crashes has not touched it;
2. the command succeeds exactly if the output is known, the input can be read, every member is valid and no two
   are in conflict, and jubako can prepare and write the archive. -/
theorem C61_tar (tarFile outfile : Option Bytes) (sys : ConvSys TarMember) :
    (∀ i e, (tar2arx tarFile outfile sys).1[i]? = some e → e.isWritten = true → i + 1 = (tar2arx tarFile outfile sys).1.length ∧
      ∃ out c items, TarOutput tarFile outfile out ∧ e = .written out c ∧ sys.input (TarInput tarFile) = .ok items ∧
        Conv.new.tarRun items = (c, .ok)) ∧
    ((tar2arx tarFile outfile sys).2 = .ok ↔ (∃ out, TarOutput tarFile outfile out) ∧
      (∃ ms : List TarMember, sys.input (TarInput tarFile) = .ok (ms.map .ok) ∧ (∀ e ∈ ms, e.Valid) ∧
        ms.Pairwise TarMember.Compatible) ∧ sys.openOk = true ∧ sys.writeOk = true) := by
  rcases tar2arx_eq tarFile outfile sys with ⟨h1, h2, h3⟩ | ⟨out, evs, hout, hev, h⟩
  · refine ⟨?_, ⟨fun h => absurd h h3, fun h => absurd h.1 h1⟩⟩
    intro i e hi
    rw [h2] at hi; simp at hi
  · have hno : ∀ e ∈ evs, e.isWritten = false := by intro e he; rw [hev e he]; rfl
    rw [h]
    cases hin : sys.input (TarInput tarFile) with
    | error x =>
      simp only
      refine ⟨?_, ?_, ?_⟩
      · intro i e hi he
        rw [hno e (List.mem_of_getElem? hi)] at he; cases he
      · intro hx; cases x <;> cases hx
      · rintro ⟨_, ⟨ms, hm, _⟩, _⟩; cases hm
    | ok items =>
      simp only
      have hiff := C41_accepts_iff items
      have hms : (∃ ms : List TarMember, (Except.ok items : Except InErr _) = .ok (ms.map .ok) ∧ (∀ e ∈ ms, e.Valid) ∧
          ms.Pairwise TarMember.Compatible) ↔ (Conv.new.tarRun items).2 = .ok := by
        rw [hiff]
        constructor
        · rintro ⟨ms, e, h⟩; cases e; exact ⟨ms, rfl, h⟩
        · rintro ⟨ms, rfl, h⟩; exact ⟨ms, rfl, h⟩
      rw [hms]
      rcases convertTo_written (run := Conv.tarRun) (sys := sys) (out := out) (items := items) with ⟨e1, e2, e3⟩ | ⟨c, e1, e2, e3, e4⟩
      · rw [e1]
        refine ⟨?_, ⟨fun hx => absurd hx e2, ?_⟩⟩
        · intro i e hi he
          have hmem := List.mem_of_getElem? hi
          rw [List.mem_append, List.mem_singleton] at hmem
          rcases hmem with hmem | rfl
          · rw [hno e hmem] at he; cases he
          · cases he
        · rintro ⟨_, h1, h2, _⟩
          rcases e3 with e3 | e3
          · rw [h2] at e3; cases e3
          · exact absurd h1 e3
      · rw [e3]
        refine ⟨?_, ?_⟩
        · intro i e hi he
          by_cases hlt : i < evs.length
          · rw [List.getElem?_append_left hlt] at hi
            rw [hno e (List.mem_of_getElem? hi)] at he; cases he
          · rw [List.getElem?_append_right (by omega)] at hi
            match hj : i - evs.length with
            | 0 => rw [hj] at hi; simp at hi; subst hi; cases he
            | 1 =>
              rw [hj] at hi; simp at hi
              exact ⟨by simp; omega, out, c, items, hout, hi.symm, rfl, e2⟩
            | k + 2 => rw [hj] at hi; simp at hi
        · rw [e4, e2]
          simp only [e1, true_and]
          exact ⟨fun h => ⟨⟨out, hout⟩, h⟩, fun h => h.2⟩

/-- **C61, zip2arx.** The same. -/
theorem C61_zip (zipFile outfile : Bytes) (sys : ConvSys ZipMember) :
    (∀ i e, (zip2arx zipFile outfile sys).1[i]? = some e → e.isWritten = true → i + 1 = (zip2arx zipFile outfile sys).1.length ∧
      ∃ c items, e = .written outfile c ∧ sys.input (some zipFile) = .ok items ∧ Conv.new.zipRun items = (c, .ok)) ∧
    ((zip2arx zipFile outfile sys).2 = .ok ↔
      (∃ ms : List ZipMember, sys.input (some zipFile) = .ok (ms.map .ok) ∧ (∀ e ∈ ms, e.Valid) ∧
        ms.Pairwise ZipMember.Compatible) ∧ sys.openOk = true ∧ sys.writeOk = true) := by
  unfold zip2arx
  cases hin : sys.input (some zipFile) with
  | error x =>
    simp only
    refine ⟨fun i e hi => by simp at hi, ?_, ?_⟩
    · intro hx; cases x <;> cases hx
    · rintro ⟨⟨ms, hm, _⟩, _⟩; cases hm
  | ok items =>
    simp only
    have hiff := C42_accepts_iff items
    have hms : (∃ ms : List ZipMember, (Except.ok items : Except InErr _) = .ok (ms.map .ok) ∧ (∀ e ∈ ms, e.Valid) ∧
        ms.Pairwise ZipMember.Compatible) ↔ (Conv.new.zipRun items).2 = .ok := by
      rw [hiff]
      constructor
      · rintro ⟨ms, e, h⟩; cases e; exact ⟨ms, rfl, h⟩
      · rintro ⟨ms, rfl, h⟩; exact ⟨ms, rfl, h⟩
    rw [hms]
    rcases convertTo_written (run := Conv.zipRun) (sys := sys) (out := outfile) (items := items) with ⟨e1, e2, e3⟩ | ⟨c, e1, e2, e3, e4⟩
    · rw [e1]
      refine ⟨?_, ⟨fun hx => absurd hx e2, ?_⟩⟩
      · intro i e hi he
        have hmem := List.mem_of_getElem? hi
        rw [List.mem_singleton] at hmem
        subst hmem; cases he
      · rintro ⟨h1, h2, _⟩
        rcases e3 with e3 | e3
        · rw [h2] at e3; cases e3
        · exact absurd h1 e3
    · rw [e3]
      refine ⟨?_, ?_⟩
      · intro i e hi he
        match i with
        | 0 => simp at hi; subst hi; cases he
        | 1 => simp at hi; exact ⟨rfl, c, items, hi.symm, rfl, e2⟩
        | k + 2 => simp at hi
      · rw [e4, e2]; simp only [e1, true_and]

/-! ## Concrete cases -/

/-- a disk where `a.tar` and `v1.2.tar`, `v1.3.tar` are what `exTar` is, and jubako can write -/
def exConvSys : ConvSys TarMember := ⟨fun _ => .ok (exTar.map .ok), true, true⟩

/-- the right side of `C61_tar` holds and fails: a tar file with a name is converted; standard input without
`--outfile` is refused; a member that cannot be read leaves no output -/
example : (tar2arx (some (ascii "a.tar")) none exConvSys).2 = .ok ∧
    (tar2arx none none exConvSys).2 = .err ∧
    (tar2arx (some (ascii "https://..")) none exConvSys).2 = .panic ∧
    (tar2arx none (some (ascii "o.arx")) { exConvSys with input := fun _ => .ok [.error ()] }).1.map ConvEv.isWritten = [false] := by
  refine ⟨by decide +kernel, by decide +kernel, by decide +kernel, by decide +kernel⟩

example : (zip2arx (ascii "a.zip") (ascii "a.arx") ⟨fun _ => .ok exZip, true, true⟩).2 = .ok ∧
    (zip2arx (ascii "a.zip") (ascii "a.arx") ⟨fun _ => .error .panic, true, true⟩).2 = .panic ∧
    (zip2arx (ascii "a.zip") (ascii "a.arx") ⟨fun _ => .ok exZip, true, false⟩).2 = .err := by
  refine ⟨by decide +kernel, by decide +kernel, by decide +kernel⟩

/-! ## The name of the output -/

theorem getLast?_append_ne {a b : Bytes} (h : b ≠ []) : (a ++ b).getLast? = b.getLast? := by
  rw [List.getLast?_append]
  cases hb : b.getLast? with
  | none => rw [List.getLast?_eq_none_iff] at hb; exact absurd hb h
  | some x => rfl

/-- text of a directory that can be put before a file name: nothing, or something that ends with `/` -/
def DirText (dir : Bytes) : Prop := dir = [] ∨ ∃ d, dir = d ++ [SEP]

theorem DirText.last {dir : Bytes} (h : DirText dir) : dir.reverse.takeWhile (· != SEP) = [] := by
  rcases h with rfl | ⟨d, rfl⟩
  · rfl
  · simp

theorem trimPath_name {dir name : Bytes} (hn : SEP ∉ name) (h0 : name ≠ []) (h1 : name ≠ CUR) (n : Nat) :
    trimPath n (dir ++ name) = dir ++ name := by
  cases n with
  | zero => rfl
  | succ n =>
    unfold trimPath
    have hl : (dir ++ name).getLast? ≠ some SEP := by
      rw [getLast?_append_ne h0]
      intro e
      exact hn (List.mem_of_getLast? e)
    rw [if_neg hl, if_neg]
    intro e
    by_cases hlen : name.length ≤ 1
    · match name, h0, hlen with
      | [c], _, _ =>
        apply h1
        have : (dir ++ [c]).getLast? = some 46 := by
          have h2 : ((dir ++ [c]).drop ((dir ++ [c]).length - 2)).getLast? = some 46 := by rw [e]; rfl
          rw [List.getLast?_drop] at h2
          split at h2
          · cases h2
          · exact h2
        simp at this
        rw [this]; rfl
    · have : SEP ∈ (dir ++ name).drop ((dir ++ name).length - 2) := by rw [e]; simp
      rw [List.drop_append, List.drop_eq_nil_of_le (by simp; omega)] at this
      exact hn (List.mem_of_mem_drop (by simpa using this))

theorem splitName_name {dir name : Bytes} (hd : DirText dir) (hn : SEP ∉ name) (h0 : name ≠ []) (h1 : name ≠ CUR)
    (h2 : name ≠ PARENT) : splitName (dir ++ name) = some (dir, name) := by
  unfold splitName
  rw [trimPath_name hn h0 h1]
  have hw : ((dir ++ name).reverse.takeWhile (· != SEP)).reverse = name := by
    rw [List.reverse_append, List.takeWhile_append_of_pos, hd.last]
    · simp
    · intro c hc
      have : c ∈ name := by simpa using hc
      have : c ≠ SEP := fun e => hn (e ▸ this)
      simpa using this
  simp only [hw]
  rw [if_neg (by rintro (h | h | h) <;> contradiction)]
  simp

theorem stem_noDot {name : Bytes} (h : (46 : UInt8) ∉ name) : stem name = name := by
  unfold stem
  simp only
  rw [if_neg (fun h' => h h'.1)]

theorem stem_dot {base ext : Bytes} (h : (46 : UInt8) ∉ ext) (hb : base ≠ []) : stem (base ++ 46 :: ext) = base := by
  unfold stem
  have : ((base ++ 46 :: ext).reverse.dropWhile (· != 46)).drop 1 = base.reverse := by
    rw [List.reverse_append, List.reverse_cons, List.append_assoc, List.dropWhile_append_of_pos]
    · simp
    · intro c hc
      have hc : c ∈ ext := by simpa using hc
      have : c ≠ 46 := fun e => h (e ▸ hc)
      simpa using this
  simp only [this, List.reverse_reverse]
  rw [if_pos ⟨by simp, hb⟩]

/-- the first part of a text that does not begin with `/` -/
theorem comps_head {p c : Bytes} (hs : p.head? ≠ some SEP) (h : (comps p).head? = some c) : p = c ∨ (c ++ [SEP]) <+: p := by
  have e : p = p.takeWhile (· != SEP) ++ p.dropWhile (· != SEP) := (List.takeWhile_append_dropWhile).symm
  have hno : SEP ∉ p.takeWhile (· != SEP) := by
    intro hm
    have := List.all_takeWhile (p := (· != SEP)) (l := p)
    rw [List.all_eq_true] at this
    simpa using this _ hm
  have hne : p ≠ [] := by rintro rfl; simp at h
  have hne' : p.takeWhile (· != SEP) ≠ [] := by
    cases p with
    | nil => exact absurd rfl hne
    | cons x t =>
      have : x ≠ SEP := fun e => hs (by rw [e]; rfl)
      rw [List.takeWhile_cons_of_pos (by simpa using this)]; simp
  cases hd : p.dropWhile (· != SEP) with
  | nil =>
    rw [hd, List.append_nil] at e
    rw [← e] at hno
    rw [comps_noSep hno, if_neg hne] at h
    left; simpa using h
  | cons x t =>
    have hx : x = SEP := by
      have := List.head?_dropWhile_not (· != SEP) p
      rw [hd] at this
      simpa using this
    subst hx
    rw [hd] at e
    right
    rw [e, comps_append, comps_noSep hno, if_neg hne'] at h
    have : p.takeWhile (· != SEP) = c := by simpa using h
    rw [this] at e
    exact ⟨t, by rw [List.append_assoc]; exact e.symm⟩

/-- the beginning of a URL -/
def UrlDir (dir : Bytes) : Prop := ascii "http:/" <+: dir ∨ ascii "https:/" <+: dir

theorem urlLike_iff {dir name : Bytes} (hd : DirText dir) (hn : SEP ∉ name)
    (hdot : dir ≠ [] ∨ (46 : UInt8) ∈ name) : urlLike (dir ++ name) = true ↔ UrlDir dir := by
  have key : ∀ s : Bytes, s ≠ [] → SEP ∉ s → (46 : UInt8) ∉ s →
      ((dir ++ name).head? ≠ some SEP ∧ (comps (dir ++ name)).head? = some s ↔ (s ++ [SEP]) <+: dir) := by
    intro s h0 hsep hnd
    constructor
    · rintro ⟨h1, h2⟩
      rcases comps_head h1 h2 with e | ⟨t, e⟩
      · exfalso
        rcases hdot with hdot | hdot
        · rcases hd with rfl | ⟨d, rfl⟩
          · exact hdot rfl
          · exact hsep (by rw [← e]; simp)
        · exact hnd (by rw [← e]; simp [hdot])
      · rcases List.append_eq_append_iff.1 e with ⟨a, ha, hb⟩ | ⟨a, ha, hb⟩
        · exact ⟨a, ha.symm⟩
        · -- `dir` ends inside the part
          cases a with
          | nil => rw [List.append_nil] at ha; exact ⟨[], by rw [List.append_nil, ha]⟩
          | cons x a =>
            exfalso
            have : SEP ∈ x :: a := by
              have h3 : (s ++ [SEP]).getLast? = (x :: a).getLast? := by
                rw [ha, getLast?_append_ne (by simp)]
              rw [List.getLast?_concat] at h3
              exact List.mem_of_getLast? h3.symm
            exact hn (by rw [hb]; exact List.mem_append_left _ this)
    · rintro ⟨t, e⟩
      rw [← e, List.append_assoc, List.append_assoc]
      constructor
      · cases s with
        | nil => exact absurd rfl h0
        | cons x s =>
          intro h
          simp at h
          exact hsep (by simp [h])
      · show (comps (s ++ SEP :: (t ++ name))).head? = some s
        rw [comps_append, comps_noSep hsep, if_neg h0]; rfl
  have k1 := key (ascii "https:") (by decide) (by decide) (by decide)
  have k2 := key (ascii "http:") (by decide) (by decide) (by decide)
  unfold urlLike schemes UrlDir
  rw [Bool.and_eq_true, decide_eq_true_iff]
  simp only [List.any_cons, List.any_nil, Bool.or_false, Bool.or_eq_true, decide_eq_true_iff]
  constructor
  · rintro ⟨h1, h2 | h2⟩
    · exact Or.inr (k1.1 ⟨h1, h2⟩)
    · exact Or.inl (k2.1 ⟨h1, h2⟩)
  · rintro (h | h)
    · have := k2.2 h; exact ⟨this.1, Or.inr this.2⟩
    · have := k1.2 h; exact ⟨this.1, Or.inl this.2⟩

/-- **C62, partial.** Where the name of the tar file has no dot but those of its extension (`.tar`, `.tgz`,
`.tar.gz`, ...), the output is the file with the same name and extension `.arx`, in the same directory; of a tar
file given by a URL, in the current directory. Missing: names with more dots, for which it is false
(`C62_counterexample`). -/
theorem C62_name_partial (dir base e1 e2 ext : Bytes) (hd : DirText dir) (hb : base ≠ [] ∧ SEP ∉ base ∧ (46 : UInt8) ∉ base)
    (h1 : SEP ∉ e1 ∧ (46 : UInt8) ∉ e1) (h2 : SEP ∉ e2 ∧ (46 : UInt8) ∉ e2)
    (hext : ext = 46 :: e1 ∨ ext = 46 :: e1 ++ 46 :: e2) :
    (¬ UrlDir dir → tarOutName (dir ++ (base ++ ext)) = some (dir ++ base ++ ascii ".arx")) ∧
    (UrlDir dir → tarOutName (dir ++ (base ++ ext)) = some (base ++ ascii ".arx")) := by
  have hbase : base ≠ CUR ∧ base ≠ PARENT := by
    constructor <;> (intro e; exact hb.2.2 (by rw [e]; decide))
  have hsp : SEP ≠ 46 := by decide
  have hsepE : SEP ∉ base ++ ext := by
    rcases hext with rfl | rfl <;> simp [hb.2.1, h1.1, h2.1, hsp]
  have hdotE : (46 : UInt8) ∈ base ++ ext := by rcases hext with rfl | rfl <;> simp
  have hne : base ++ ext ≠ [] := by simp [hb.1]
  have hcur : base ++ ext ≠ CUR ∧ base ++ ext ≠ PARENT := by
    obtain ⟨x, t, rfl⟩ : ∃ x t, base = x :: t := by
      cases base with
      | nil => exact absurd rfl hb.1
      | cons x t => exact ⟨x, t, rfl⟩
    have hx : x ≠ 46 := fun e => hb.2.2 (by simp [e])
    constructor <;> (intro e; rw [List.cons_append] at e; injection e with e _; exact hx e)
  -- one extension is removed, then another one if there is one
  have core : ∀ d : Bytes, DirText d → withExt (withExt (d ++ (base ++ ext)) []) [97, 114, 120] = d ++ base ++ ascii ".arx" := by
    intro d hd
    unfold withExt
    rw [splitName_name hd hsepE hne hcur.1 hcur.2]
    simp only [if_true, List.append_nil]
    rcases hext with rfl | rfl
    · rw [stem_dot h1.2 hb.1, splitName_name hd hb.2.1 hb.1 hbase.1 hbase.2]
      simp only [stem_noDot hb.2.2, List.append_assoc]
      rfl
    · rw [← List.append_assoc base, stem_dot h2.2 (by simp)]
      have s1 : SEP ∉ base ++ 46 :: e1 := by simp [hb.2.1, h1.1, hsp]
      have s2 : base ++ 46 :: e1 ≠ CUR ∧ base ++ 46 :: e1 ≠ PARENT := by
        obtain ⟨x, t, rfl⟩ : ∃ x t, base = x :: t := by
          cases base with
          | nil => exact absurd rfl hb.1
          | cons x t => exact ⟨x, t, rfl⟩
        have hx : x ≠ 46 := fun e => hb.2.2 (by simp [e])
        constructor <;> (intro e; rw [List.cons_append] at e; injection e with e _; exact hx e)
      rw [splitName_name hd s1 (by simp) s2.1 s2.2]
      simp only [stem_dot h1.2 hb.1, List.append_assoc]
      rfl
  have hu := urlLike_iff hd hsepE (Or.inr hdotE)
  unfold tarOutName
  constructor
  · intro h
    rw [if_neg (fun h' => h (hu.1 h')), core dir hd]
  · intro h
    rw [if_pos (hu.2 h), splitName_name hd hsepE hne hcur.1 hcur.2]
    have := core [] (Or.inl rfl)
    simp only [List.nil_append] at this
    simp only [this]

example : tarOutName (ascii "a/b.d/x.tar.gz") = some (ascii "a/b.d/x.arx") ∧
    tarOutName (ascii "https://h.org/p/x.tgz") = some (ascii "x.arx") := by
  refine ⟨by decide +kernel, by decide +kernel⟩

/-- the hypotheses of `C62_name_partial` are met -/
example : DirText (ascii "a/b.d/") ∧ ¬ UrlDir (ascii "a/b.d/") ∧ DirText (ascii "https://h.org/") ∧ UrlDir (ascii "https://h.org/") := by
  refine ⟨Or.inr ⟨ascii "a/b.d", by decide⟩, ?_, Or.inr ⟨ascii "https://h.org", by decide⟩, Or.inr (by decide)⟩
  rintro (h | h) <;> revert h <;> decide

/-- `r` is the file name `name` without its extension: what is before its last dot, unless that is nothing -/
def DropsExt (name r : Bytes) : Prop :=
  ((46 : UInt8) ∉ name ∧ r = name) ∨ (∃ e, (46 : UInt8) ∉ e ∧ name = 46 :: e ∧ r = name) ∨
    ∃ b e, b ≠ [] ∧ (46 : UInt8) ∉ e ∧ name = b ++ 46 :: e ∧ r = b

theorem DropsExt.stem {name r : Bytes} (h : DropsExt name r) : Arx.stem name = r := by
  rcases h with ⟨h, rfl⟩ | ⟨e, he, rfl, rfl⟩ | ⟨b, e, hb, he, rfl, rfl⟩
  · exact stem_noDot h
  · unfold Arx.stem
    have : ((46 :: e).reverse.dropWhile (· != 46)).drop 1 = [] := by
      rw [List.reverse_cons, List.dropWhile_append_of_pos]
      · simp
      · intro c hc
        have hc : c ∈ e := by simpa using hc
        have : c ≠ 46 := fun x => he (x ▸ hc)
        simpa using this
    simp only [this]
    rw [if_neg (fun h => h.2 rfl)]
  · exact stem_dot he hb

/-- **C62, exactly.** The output of a file named `name` in directory `dir` is named `base` with extension `.arx`,
where `base` is `name` without its extension, without its extension again; it is in the same directory, and for a URL
in the current one. (Left out: names like `..x`, whose first part is `.` or `..`.) -/
theorem C62_exact (dir name mid base : Bytes) (hd : DirText dir) (hn : SEP ∉ name ∧ name ≠ [] ∧ name ≠ CUR ∧ name ≠ PARENT)
    (h1 : DropsExt name mid) (hm : mid ≠ CUR ∧ mid ≠ PARENT) (h2 : DropsExt mid base) :
    (¬ UrlDir dir → tarOutName (dir ++ name) = some (dir ++ base ++ ascii ".arx")) ∧
    (UrlDir dir → tarOutName (dir ++ name) = some (base ++ ascii ".arx")) := by
  have hmid : SEP ∉ mid ∧ mid ≠ [] := by
    rcases h1 with ⟨_, rfl⟩ | ⟨e, _, _, rfl⟩ | ⟨b, e, hb, _, rfl, rfl⟩
    · exact ⟨hn.1, hn.2.1⟩
    · exact ⟨hn.1, hn.2.1⟩
    · exact ⟨fun h => hn.1 (by simp [h]), hb⟩
  have core : ∀ d : Bytes, DirText d → withExt (withExt (d ++ name) []) [97, 114, 120] = d ++ base ++ ascii ".arx" := by
    intro d hd
    unfold withExt
    rw [splitName_name hd hn.1 hn.2.1 hn.2.2.1 hn.2.2.2]
    simp only [if_true, List.append_nil, h1.stem]
    rw [splitName_name hd hmid.1 hmid.2 hm.1 hm.2]
    simp only [h2.stem, List.append_assoc]
    rfl
  have c0 := core [] (Or.inl rfl)
  simp only [List.nil_append] at c0
  by_cases hdir : dir = []
  · subst hdir
    have : tarOutName name = some (base ++ ascii ".arx") := by
      unfold tarOutName
      split
      · have := splitName_name (dir := []) (Or.inl rfl) hn.1 hn.2.1 hn.2.2.1 hn.2.2.2
        rw [List.nil_append] at this
        rw [this]
        simp only [c0]
      · rw [c0]
    exact ⟨fun _ => this, fun _ => this⟩
  · have hu := urlLike_iff hd hn.1 (Or.inl hdir)
    unfold tarOutName
    constructor
    · intro h
      rw [if_neg (fun h' => h (hu.1 h')), core dir hd]
    · intro h
      rw [if_pos (hu.2 h), splitName_name hd hn.1 hn.2.1 hn.2.2.1 hn.2.2.2]
      simp only [c0]

/-- the hypotheses of `C62_exact` are met -/
example : DropsExt (ascii ".a.v1.tar") (ascii ".a.v1") ∧ DropsExt (ascii ".a.v1") (ascii ".a") ∧
    tarOutName (ascii "d/.a.v1.tar") = some (ascii "d/.a.arx") := by
  refine ⟨Or.inr (Or.inr ⟨_, ascii "tar", by decide, by decide, by decide, rfl⟩),
    Or.inr (Or.inr ⟨_, ascii "v1", by decide, by decide, by decide, rfl⟩), by decide +kernel⟩

/-- **C62 is false in full**: a name with more dots loses a part, and two tar files of one directory are converted
to the same output. Nothing asks before the second replaces the first (`arx create` has `--force` for this). -/
theorem C62_counterexample :
    (tar2arx (some (ascii "v1.2.tar")) none exConvSys).2 = .ok ∧ (tar2arx (some (ascii "v1.3.tar")) none exConvSys).2 = .ok ∧
    TarOutput (some (ascii "v1.2.tar")) none (ascii "v1.arx") ∧ TarOutput (some (ascii "v1.3.tar")) none (ascii "v1.arx") := by
  refine ⟨by decide +kernel, by decide +kernel, Or.inr ⟨rfl, _, rfl, by decide +kernel, by decide +kernel⟩,
    Or.inr ⟨rfl, _, rfl, by decide +kernel, by decide +kernel⟩⟩

end Arx
