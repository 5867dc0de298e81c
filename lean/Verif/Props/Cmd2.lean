import Verif.Props.Cmd
/-!
# C52: `arx extract` extracts what its options ask for
-/
namespace Arx

/-- The configuration the command runs with. -/
def ExtractOpts.cfg (o : ExtractOpts) (sys : CmdSys) (a : Archive) (bytes : ContentAddr → GetBytes) (files : List RPath) : XCfg :=
  { a := a, bytes := bytes, files := files, recurse := o.recursion, base := o.target sys.cwd, mode := o.overwrite, env := sys.env }

/-- The lines of the file list, if there is one, are `lines`. -/
def ExtractOpts.Lines (o : ExtractOpts) (sys : CmdSys) (lines : List Bytes) : Prop :=
  ∀ l, o.fileList = some l → ∃ text, sys.text l = some text ∧ TextOf lines text

theorem ExtractOpts.run_source {rs : List AddReq} {m : PathMap} {a : Archive} {bytes : ContentAddr → GetBytes}
    {o : ExtractOpts} {sys : CmdSys} (h : Written rs a) (hm : SpecRun PathMap.empty rs m)
    (harch : sys.archive = some (a, bytes)) {depth : Nat} {fs : FS} {last : List (Nat × WriteRes)} {w : World} {res : XResult}
    (hrun : o.run sys depth fs last = some (w, res)) :
    ∃ files rg, o.toExtract sys = some files ∧ Source rs m a rg o.rootOf ∧
      (o.cfg sys a bytes files).extractRange depth rg fs last = (w, res) := by
  rw [ExtractOpts.run] at hrun
  cases hf : o.toExtract sys with
  | none => rw [hf] at hrun; cases hrun
  | some files =>
    rw [hf, harch] at hrun
    simp only at hrun
    cases hr : o.rootDir with
    | none =>
      rw [hr] at hrun
      simp only [Option.some.injEq] at hrun
      exact ⟨files, a.root, rfl, ⟨h, hm, Or.inl ⟨by simp [ExtractOpts.rootOf, hr], rfl⟩⟩, hrun⟩
    | some p =>
      rw [hr] at hrun
      rcases C31_extract_root (cfg := o.cfg sys a bytes files) h hm p depth fs last with ⟨_, _, rg, hs, he⟩ | ⟨_, he⟩
      · have hrun' : (o.cfg sys a bytes files).extractRoot depth p fs last = some (w, res) := hrun
        rw [he, Option.some.injEq] at hrun'
        exact ⟨files, rg, rfl, by rw [ExtractOpts.rootOf, hr]; exact hs, hrun'⟩
      · have hrun' : (o.cfg sys a bytes files).extractRoot depth p fs last = some (w, res) := hrun
        rw [he] at hrun'
        cases hrun'

theorem ExtractOpts.selected_iff {o : ExtractOpts} {sys : CmdSys} {lines : List Bytes} (hacc : o.Accepted)
    (hl : o.Lines sys lines) (hne : o.fileList ≠ none → lines ≠ []) {files : List RPath}
    (hf : o.toExtract sys = some files) (p : List Bytes) (d : Bool) :
    Selected files o.recursion p d ↔ Wanted o lines p d := by
  unfold Wanted
  cases hfl : o.fileList with
  | none =>
    rw [ExtractOpts.toExtract, hfl] at hf
    simp only [Option.some.injEq] at hf
    subst hf
    by_cases he : o.files = []
    · simp [Selected, he]
    · have hrec : o.recursion = !o.noRecurse := by
        have h1 := hacc.1
        unfold ExtractOpts.recursion
        cases hr : o.recurse <;> cases hn : o.noRecurse <;> simp_all
      simp only [Selected, AskedBy, hrec]
  | some l =>
    obtain ⟨text, ht, hlines⟩ := hl l hfl
    rw [ExtractOpts.toExtract, hfl] at hf
    simp only [ht, readLines, hlines.lines] at hf
    split at hf
    · cases hf
      have hrec : o.recursion = o.recurse := by
        have h2 := hacc.2 (by rw [hfl]; simp)
        unfold ExtractOpts.recursion
        cases hr : o.recurse <;> cases hn : o.noRecurse <;> simp_all
      have := hne (by rw [hfl]; simp)
      simp only [Selected, AskedBy, hrec, this, false_or]
    · cases hf

/-- **C52 (partial).** Whatever the options of `arx extract`, and whatever the archive: if the command gets to
extracting, then
* nothing outside the output directory, and nothing in it but what the options ask for (`Wanted`), has
  changed;
* if it succeeds, in a place where the entries did not exist and with their contents available, then exactly
  the entries asked for exist.
Missing: an empty file list, with which everything is extracted (`C52_empty_list_counterexample`). -/
theorem C52_extract_partial {rs : List AddReq} {m : PathMap} {a : Archive} {bytes : ContentAddr → GetBytes}
    {o : ExtractOpts} {sys : CmdSys} {lines : List Bytes} (h : Written rs a) (hm : SpecRun PathMap.empty rs m)
    (hacc : o.Accepted) (harch : sys.archive = some (a, bytes)) (hl : o.Lines sys lines)
    (hne : o.fileList ≠ none → lines ≠ [])
    {depth : Nat} {before after : FS} {last : List (Nat × WriteRes)} {w : World} {res : XResult}
    (hd : a.entries.length < depth) (hrun : o.run sys depth before last = some (w, res)) (hfin : w.finished)
    (haft : w.fs = after) (T : PlainTarget before (o.target sys.cwd) (m.sub o.rootOf)) :
    (∀ q, ¬ q <+: o.target sys.cwd →
      (¬ ∃ p n, q = o.target sys.cwd ++ p ∧ m.sub o.rootOf p = some n ∧ Wanted o lines p n.isDir) →
      after.nodes q = before.nodes q) ∧
    (res = .ok → (∀ p n, m.sub o.rootOf p = some n → before.nodes (o.target sys.cwd ++ p) = none) →
      (∀ p n s c, m.sub o.rootOf p = some n → n.kind = .file s c → ∃ b, bytes c = .found b) →
      ∀ p n, m.sub o.rootOf p = some n →
        (after.nodes (o.target sys.cwd ++ p) ≠ none ↔ Wanted o lines p n.isDir)) := by
  obtain ⟨files, rg, hf, hs, hx⟩ := ExtractOpts.run_source h hm harch hrun
  have hX : Extraction (o.cfg sys a bytes files) rg before after res := ⟨depth, last, w, hd, hx, hfin, haft⟩
  have hsel := ExtractOpts.selected_iff hacc hl hne hf
  constructor
  · intro q hq hno
    refine (C16_nothing_else (cfg := o.cfg sys a bytes files) hs T hX).nodes q hq ?_
    rintro ⟨p, n, h1, h2, h3⟩
    exact hno ⟨p, n, h1, h2, (hsel p n.isDir).mp h3⟩
  · rintro rfl hnew hcont p n hp
    rw [← hsel p n.isDir]
    exact C13_selection (cfg := o.cfg sys a bytes files) hs T hX hnew hcont p n hp

/-- **C52, refusals.** The command ends with an error before it touches anything exactly when the file list
cannot be read or has a line that is not UTF-8, when the archive cannot be opened, or when `--root-dir` is not
the path of a directory of the archive. -/
theorem C52_refused {rs : List AddReq} {m : PathMap} {a : Archive} {bytes : ContentAddr → GetBytes} {o : ExtractOpts}
    {sys : CmdSys} (h : Written rs a) (hm : SpecRun PathMap.empty rs m)
    (harch : sys.archive = none ∨ sys.archive = some (a, bytes)) (depth : Nat) (fs : FS) (last : List (Nat × WriteRes)) :
    o.run sys depth fs last = none ↔
      (∃ l, o.fileList = some l ∧ (sys.text l = none ∨
        ∃ text lines, sys.text l = some text ∧ TextOf lines text ∧ ∃ x ∈ lines, validUtf8 x = false)) ∨
      sys.archive = none ∨
      (∃ p, o.rootDir = some p ∧ ¬ (RootName p ∧ ∃ n, m (comps p) = some n ∧ n.isDir = true)) := by
  have hfiles : o.toExtract sys = none ↔ (∃ l, o.fileList = some l ∧ (sys.text l = none ∨
        ∃ text lines, sys.text l = some text ∧ TextOf lines text ∧ ∃ x ∈ lines, validUtf8 x = false)) := by
    unfold ExtractOpts.toExtract
    cases hfl : o.fileList with
    | none => simp
    | some l =>
      simp only [readLines, Option.some.injEq, exists_eq_left']
      cases ht : sys.text l with
      | none => simp
      | some t =>
        obtain ⟨ls, hls⟩ := TextOf.exists t
        simp only [hls.lines, reduceCtorEq, Option.some.injEq, exists_eq_left', false_or]
        constructor
        · intro hn
          split at hn
          · cases hn
          · rename_i hall
            refine ⟨t, ls, rfl, hls, ?_⟩
            simpa [List.all_eq_true] using hall
        · rintro ⟨text, ls', e, hls', x, hx, hxu⟩
          cases e
          have : ls' = ls := by rw [← hls.lines, ← hls'.lines]
          subst this
          rw [if_neg]
          simp only [List.all_eq_true]
          intro hall
          rw [hall x hx] at hxu; cases hxu
  rw [← hfiles]
  unfold ExtractOpts.run
  cases hf : o.toExtract sys with
  | none => simp
  | some files =>
    rcases harch with hno | harch
    · simp [hno]
    · rw [harch]
      simp only [reduceCtorEq, false_or]
      cases hr : o.rootDir with
      | none => simp
      | some p =>
        simp only [Option.some.injEq, exists_eq_left']
        rcases C31_extract_root (cfg := o.cfg sys a bytes files) h hm p depth fs last with ⟨h1, h2, rg, _, he⟩ | ⟨hn, he⟩
        · show (o.cfg sys a bytes files).extractRoot depth p fs last = none ↔ _
          rw [he]
          simp [h1, h2]
        · show (o.cfg sys a bytes files).extractRoot depth p fs last = none ↔ _
          rw [he]
          simp only [true_iff]
          exact hn

/-- **C52 is false for an empty file list**: whatever the archive, the command then does the same as without
file list: it extracts everything. -/
theorem C52_empty_list_counterexample (o : ExtractOpts) (sys : CmdSys) (l : Bytes) (hl : sys.text l = some [])
    (depth : Nat) (fs : FS) (last : List (Nat × WriteRes)) :
    { o with fileList := some l, files := [] }.run sys depth fs last =
      { o with fileList := none, files := [] }.run sys depth fs last := by
  simp [ExtractOpts.run, ExtractOpts.toExtract, readLines, hl, linesFrom, ExtractOpts.recursion]

/-! ### Examples -/

def exCmd : CmdSys where
  cwd := [ascii "t"]
  text p := if p = ascii "l" then some (ascii "a\nb/x\r\n") else if p = ascii "e" then some [] else none
  archive := some (exArchive, exBytes)
  env := (exX [] .error).env

def exOpts (files : List Bytes) (list : Option Bytes) : ExtractOpts := ⟨none, files, none, list, false, false, .warn⟩

/-- `arx extract -L l`, with lines `a` and `b/x`: the directory `a` without its content, `b` and `b/x`; with an
empty list everything; the hypotheses of `C52_extract_partial` are met -/
example : (exOpts [] (some (ascii "l"))).Accepted ∧ (exOpts [] (some (ascii "l"))).Lines exCmd [ascii "a", ascii "b/x"] ∧
    PlainTarget fs0 ((exOpts [] (some (ascii "l"))).target exCmd.cwd) (exMap.sub []) := by
  refine ⟨⟨by decide, by decide⟩, ?_, exT.plain (bytes := exBytes) exExtractable.names⟩
  intro l hl
  cases hl
  exact ⟨_, rfl, .line (l := ascii "a") (by decide) (by decide) (.crlf (l := ascii "b/x") (t := []) (by decide) .empty)⟩

example :
    let run := fun o => (((exOpts [] (some o)).run exCmd 5 fs0 finish).map (fun r =>
      (r.2, [[ascii "t", ascii "a"], [ascii "t", ascii "a", ascii "l"], [ascii "t", ascii "b"], [ascii "t", ascii "b", ascii "x"]].map
        (fun q => (r.1.fs.nodes q).isSome))))
    run (ascii "l") = some (.ok, [true, false, true, true]) ∧ run (ascii "e") = some (.ok, [true, true, true, true]) ∧
    run (ascii "none") = none := by decide

/-- with paths, directories are extracted with their content unless `--no-recurse` -/
example :
    let run := fun (o : ExtractOpts) => ((o.run exCmd 5 fs0 finish).map (fun r =>
      (r.2, [[ascii "t", ascii "a"], [ascii "t", ascii "a", ascii "l"], [ascii "t", ascii "b"], [ascii "t", ascii "b", ascii "x"]].map
        (fun q => (r.1.fs.nodes q).isSome))))
    run (exOpts [ascii "b"] none) = some (.ok, [false, false, true, true]) ∧
    run { exOpts [ascii "b"] none with noRecurse := true } = some (.ok, [false, false, true, false]) := by decide

end Arx
