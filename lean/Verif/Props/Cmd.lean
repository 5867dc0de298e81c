import Verif.Proof.OutputProof
import Verif.Props.Extract3
/-!
# C45 (`arx dump`) and C52 (`arx extract`)
-/
namespace Arx

/-! ## Lists of paths -/

theorem linesFrom_append {l : Bytes} (h : (10 : UInt8) ∉ l) (acc t : Bytes) :
    linesFrom acc (l ++ t) = linesFrom (acc ++ l) t := by
  induction l generalizing acc with
  | nil => simp
  | cons b l ih =>
    simp only [List.mem_cons, not_or] at h
    have hb : b ≠ 10 := fun e => h.1 e.symm
    rw [List.cons_append, linesFrom, if_neg hb, ih h.2]
    simp

/-- The lines read are the ones of the text. -/
theorem TextOf.lines {ls : List Bytes} {t : Bytes} (h : TextOf ls t) : linesFrom [] t = ls := by
  induction h with
  | empty => rfl
  | last h1 h2 =>
    have := linesFrom_append h2 [] []
    rw [List.append_nil] at this
    rw [this]; simp [linesFrom, h1]
  | line h1 h2 _ ih =>
    rw [linesFrom_append h1]
    simp [linesFrom, stripCr, h2, ih]
  | @crlf l t ls h1 _ ih =>
    have : l ++ 13 :: 10 :: t = (l ++ [13]) ++ 10 :: t := by simp
    rw [this, linesFrom_append (by simp [h1])]
    simp [linesFrom, stripCr, ih]

/-- Every text has lines. -/
theorem TextOf.exists (t : Bytes) : ∃ ls, TextOf ls t := by
  have : ∀ n (t : Bytes), t.length ≤ n → ∃ ls, TextOf ls t := by
    intro n
    induction n with
    | zero => intro t ht; cases t with
      | nil => exact ⟨_, .empty⟩
      | cons => simp at ht
    | succ n ih =>
      intro t ht
      by_cases hm : (10 : UInt8) ∈ t
      · obtain ⟨l, r, rfl, hl⟩ : ∃ l r, t = l ++ 10 :: r ∧ (10 : UInt8) ∉ l := by
          clear ih ht
          induction t with
          | nil => simp at hm
          | cons b t ih =>
            by_cases hb : b = 10
            · exact ⟨[], t, by simp [hb], by simp⟩
            · obtain ⟨l, r, h1, h2⟩ := ih (by simpa [Ne.symm hb] using hm)
              exact ⟨b :: l, r, by simp [h1], by simp [h2, Ne.symm hb]⟩
        obtain ⟨ls, hls⟩ := ih r (by simp at ht; omega)
        by_cases hcr : l.getLast? = some 13
        · obtain ⟨u, hu⟩ : ∃ u, l = u ++ [13] := by
            obtain ⟨u, hu⟩ := List.getLast?_eq_some_iff.mp hcr
            exact ⟨u, hu⟩
          subst hu
          refine ⟨u :: ls, ?_⟩
          have := TextOf.crlf (l := u) (by simp at hl; exact hl) hls
          simpa using this
        · exact ⟨_, .line hl hcr hls⟩
      · by_cases he : t = []
        · exact ⟨[], by rw [he]; exact .empty⟩
        · exact ⟨_, .last he hm⟩
  exact this t.length t (Nat.le_refl _)

/-! ## C45 -/

/-- a builder that cannot fail on the rows of `a` -/
def TotalBuilder (a : Archive) {F L D : Type} (B : Builder F L D) : Prop :=
  ∀ (i : Nat) (r : RawEntry), a.entries[i]? = some r →
    (∃ x, B.file i r = .ok x) ∧ (∃ x, B.link i r = .ok x) ∧ (∃ x, B.dir i r = .ok x)

theorem Good.getLoop_missing {a : Archive} {m : PathMap} {P : List (List Bytes)} (G : Good a m P) {F L D : Type}
    {B : Builder F L D} (hB : TotalBuilder a B) :
    ∀ (cs : List Bytes) (d : List Bytes) (rg : Range), cs ≠ [] → RangeIs P d rg.offset rg.count →
      m (d ++ cs) = none → a.getLoop B rg cs = .error .notFound := by
  intro cs
  induction cs with
  | nil => intro d rg h; exact absurd rfl h
  | cons c cs ih =>
    intro d rg _ hr hm
    simp only [Archive.getLoop]
    rcases G.find_spec hr c with ⟨j, hj, hP, hf⟩ | ⟨_, hf⟩
    · rw [hf]
      simp only
      obtain ⟨r, n, h1, h2, h3, h4⟩ := G.create_spec B hP
      obtain ⟨⟨x1, b1⟩, ⟨x2, b2⟩, ⟨x3, b3⟩⟩ := hB _ _ h1
      cases cs with
      | nil => rw [hm] at h2; cases h2
      | cons c' cs' =>
        have hassoc : d ++ c :: c' :: cs' = (d ++ [c]) ++ c' :: cs' := by simp
        rw [h4]
        cases hk : n.kind with
        | dir =>
          simp only [b3, Except.map]
          obtain ⟨hrr, _⟩ := G.rowRange hP h1 h2 hk
          exact ih (d ++ [c]) (Arx.rowRange r) (by simp) hrr (by rw [← hassoc]; exact hm)
        | file s ct => simp only [b1, Except.map]
        | link t => simp only [b2, Except.map]
    · rw [hf]

/-- What `get_entry` answers for `arx dump`. -/
theorem dump_getEntry {rs : List AddReq} {a : Archive} {m : PathMap} (h : Written rs a)
    (hm : SpecRun PathMap.empty rs m) (path : RPath) (hp : comps path ≠ []) :
    match m (comps path) with
    | some n => ∃ e, a.getEntry dumpBuilder path = .ok e ∧
        (match n.kind with
         | .file _ c => e = .file c
         | .dir => ∃ r, e = .dir r ()
         | .link _ => e = .link ())
    | none => a.getEntry dumpBuilder path = .error .notFound := by
  obtain ⟨P, G⟩ := h.good' hm
  have hroot : RangeIs P [] a.root.offset a.root.count := by rw [G.root.1]; exact G.root.2
  have hl := G.getLoop (B := dumpBuilder) (fun i r _ => ⟨(), rfl⟩) (comps path) [] a.root hp hroot
  simp only [List.nil_append] at hl
  have hmiss : m (comps path) = none → a.getEntry dumpBuilder path = .error .notFound := fun hn =>
    G.getLoop_missing (fun i r _ => ⟨⟨_, rfl⟩, ⟨_, rfl⟩, ⟨_, rfl⟩⟩) (comps path) [] a.root hp hroot hn
  rcases hl with ⟨i, hi, hc⟩ | ⟨hn, hc⟩ | ⟨_, _, _, _, _, _, _, _, hn, _⟩
  · obtain ⟨r, n, h1, h2, h3, h4⟩ := G.create_spec dumpBuilder hi
    rw [h2]
    simp only
    rw [Archive.getEntry, hc, h4]
    obtain ⟨_, _, _, _, _, _, q7⟩ := h3
    cases hk : n.kind with
    | dir => exact ⟨_, rfl, _, rfl⟩
    | link t => exact ⟨_, rfl, rfl⟩
    | file s c =>
      rw [hk] at q7
      exact ⟨_, rfl, by rw [← q7.2.2.1]⟩
  · rw [hn]; exact hmiss hn
  · rw [hn]; exact hmiss hn

/-- **C45 (partial).** `arx dump archive path` and `arx dump archive path -`, for every archive and path, and
whatever happens to standard output:
* a file whose content is available: a prefix of the content is delivered to standard output; all of it, and
  the result is Ok, if standard output takes it; the result is an error only if a write failed;
* a directory, a link, or no entry: an error, nothing is written.
Missing: an output file (never written, `C45_file_counterexample`), a file whose pack is missing (reported as
a success, `C45_missing_counterexample`), the empty path (crash), and failures when the last bytes, still in
the buffers, are written at the end of the process (reported as a success, `C58_counterexample`; at most 1024
bytes can be lost so). -/
theorem C45_dump_partial {rs : List AddReq} {a : Archive} {m : PathMap} (h : Written rs a)
    (hm : SpecRun PathMap.empty rs m) (bytes : ContentAddr → GetBytes) (path : RPath) (hp : comps path ≠ [])
    (out : Option Bytes) (hout : out = none ∨ out = some (ascii "-")) (o : OutEnv) (ns : List Nat) (d : DumpSys) :
    match m (comps path) with
    | none => dump o ns a bytes path out d = (d, .err)
    | some n =>
      match n.kind with
      | .dir => dump o ns a bytes path out d = (d, .err)
      | .link _ => dump o ns a bytes path out d = (d, .err)
      | .file _ c =>
        (∀ b, bytes c = .found b → ∃ got res, dump o ns a bytes path out d = ({ d with stdout := d.stdout ++ got }, res) ∧
          Delivered got b ∧ (o.Healthy 1024 → got = b ∧ res = .ok) ∧ (res = .ok → AllBut 1024 got b) ∧
          (res = .ok ∨ (res = .err ∧ ∃ t k j, o.ev t = .fail k j))) ∧
        (bytes c = .err → dump o ns a bytes path out d = (d, .err)) := by
  have hg := dump_getEntry h hm path hp
  have hred : ∀ e, a.getEntry dumpBuilder path = .ok e → dump o ns a bytes path out d = dumpEntry bytes e (d.toStdout o ns) d := by
    intro e he
    rw [dump, he]
    rcases hout with rfl | rfl
    · rfl
    · rfl
  cases hk : m (comps path) with
  | none =>
    rw [hk] at hg
    simp only at hg ⊢
    rw [dump, hg]
  | some n =>
    rw [hk] at hg
    simp only at hg ⊢
    obtain ⟨e, he, hke⟩ := hg
    rw [hred e he]
    cases hn : n.kind with
    | dir => rw [hn] at hke; obtain ⟨r, rfl⟩ := hke; rfl
    | link t => rw [hn] at hke; cases hke; rfl
    | file s c =>
      rw [hn] at hke; cases hke
      simp only [dumpEntry]
      refine ⟨fun b hb => ?_, fun hb => by rw [hb]⟩
      rw [hb]
      simp only [DumpSys.toStdout]
      have hw := Sink.writes_spec (o := o) (chop ns b) (Sink.Has.new dumpCap)
      rw [chop_flatten, List.nil_append] at hw
      revert hw
      cases Sink.new.writes dumpCap o (chop ns b) with
      | mk s' ok =>
        cases ok with
        | true =>
          intro hw
          refine ⟨_, _, rfl, ?_, fun ho => ⟨hw.close_healthy ho, rfl⟩, fun _ => hw.close, .inl rfl⟩
          have := s'.close_prefix o
          rw [hw.1] at this
          exact this
        | false =>
          intro hw
          refine ⟨_, _, rfl, (s'.close_prefix o).trans hw.1, fun ho => absurd hw.2 ho.not_failed, (fun e => by cases e), .inr ⟨rfl, hw.2⟩⟩

/-- **C45 is false for an output file**: whatever the archive, the path, and the file given as output, `dump`
writes nothing at all — neither to the file nor to standard output — and it reports an error unless the file
exists and the content is empty (or its pack is missing). -/
theorem C45_file_counterexample (a : Archive) (bytes : ContentAddr → GetBytes) (path : RPath) (out : Bytes)
    (hout : out ≠ ascii "-") (o : OutEnv) (ns : List Nat) (d : DumpSys) :
    (dump o ns a bytes path (some out) d).1 = d ∧
    ((dump o ns a bytes path (some out) d).2 = .ok → (∃ old, d.files out = some old) ∧
      ∃ c, a.getEntry dumpBuilder path = .ok (.file c) ∧ (bytes c = .missing ∨ bytes c = .found [])) := by
  have hne : out ≠ [45] := fun e => hout (by rw [e]; rfl)
  rw [dump]
  cases hg : a.getEntry dumpBuilder path with
  | error e => cases e <;> simp
  | ok e =>
    simp only [if_neg hne]
    cases hf : d.files out with
    | none => simp
    | some old =>
      simp only
      cases e with
      | dir r u => simp [dumpEntry]
      | link u => simp [dumpEntry]
      | file c =>
        simp only [dumpEntry]
        cases hb : bytes c with
        | err => simp
        | missing => simp [hb]
        | found b =>
          simp only [DumpSys.toReadOnly]
          by_cases hbe : b = []
          · subst hbe; simp [hb]
          · simp [hbe]

/-- **C45 is false for a missing pack**: on every archive, dumping a file whose pack is missing succeeds without
output. -/
theorem C45_missing_counterexample {rs : List AddReq} {a : Archive} {m : PathMap} (h : Written rs a)
    (hm : SpecRun PathMap.empty rs m) (bytes : ContentAddr → GetBytes) {path : RPath} (hp : comps path ≠ [])
    {n : Node} {s : Nat} {c : ContentAddr} (hn : m (comps path) = some n) (hk : n.kind = .file s c)
    (hb : bytes c = .missing) (o : OutEnv) (ns : List Nat) (d : DumpSys) : dump o ns a bytes path none d = (d, .ok) := by
  have hg := dump_getEntry h hm path hp
  rw [hn] at hg
  simp only [hk] at hg
  obtain ⟨e, he, rfl⟩ := hg
  rw [dump, he]
  simp [dumpEntry, hb]

/-- standard output works, everything is buffered as long as possible -/
def fineOut : OutEnv := ⟨fun _ => .accept 0, 2 ^ 20⟩
/-- the device takes no byte; a buffered write succeeds nevertheless -/
def fullOut : OutEnv := ⟨fun _ => .accept 0, 0⟩
/-- the third write fails after two bytes -/
def brokenOut : OutEnv := ⟨fun t => if t = 2 then .fail 2 0 else .accept 0, 0⟩

/-- the example archive: content of `b/x`, a directory, no entry, an output file, a failing output -/
example : let d : DumpSys := ⟨ascii "> ", fun _ => some (ascii "old")⟩
    fineOut.Healthy 1024 ∧
    (dump fineOut [1] exArchive exBytes (ascii "b/x") none d).1.stdout = ascii "> xyz" ∧
    (dump fineOut [0, 0] exArchive exBytes (ascii "b/x") (some (ascii "-")) d).1.stdout = ascii "> xyz" ∧
    (dump fineOut [] exArchive exBytes (ascii "b") none d).2 = .err ∧
    (dump fineOut [] exArchive exBytes (ascii "c") none d).2 = .err ∧
    (dump fineOut [] exArchive exBytes (ascii "b/x") (some (ascii "f")) d).2 = .err ∧
    (dump brokenOut [0, 0] exArchive exBytes (ascii "b/x") none d).2 = .err ∧
    (dump brokenOut [0, 0] exArchive exBytes (ascii "b/x") none d).1.stdout = ascii "> xy" := by
  refine ⟨⟨fun t => ⟨0, rfl⟩, by decide⟩, ?_⟩
  decide

end Arx
