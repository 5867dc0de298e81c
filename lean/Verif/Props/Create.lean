import Verif.Spec.Create
import Verif.Props.Python2
import Verif.Props.Cmd
/-!
# C43: `arx create` and its output file
-/
namespace Arx

theorem Src.exists_iff {s : Src} {p : List Bytes} : s.exists p = true ↔ Present s p := by
  unfold Src.exists Present
  cases h : s.fs.resolve true p with
  | error e => simp
  | ok l => cases l <;> simp

theorem Src.isDir_iff {s : Src} {p : List Bytes} : s.isDir p = true ↔ DirAt s p := by
  unfold Src.isDir DirAt
  cases h : s.fs.resolve true p with
  | error e => simp
  | ok l =>
    cases l with
    | missing a b => simp
    | found q =>
      cases hq : s.fs.nodes q with
      | none => simp [hq]
      | some x => cases x <;> simp [hq]

theorem addInputs_events (sys : CreateSys) (cwd : List Bytes) (pre : RPath) (rc : Bool) : ∀ (fs : List Bytes) (a : Adder) (i : Nat),
    ∀ e ∈ (addInputs sys cwd pre rc a i fs).1, e.isWritten = false ∧ e.isPrinted = false := by
  intro fs
  induction fs with
  | nil => intro a i e he; simp [addInputs] at he
  | cons f fs ih =>
    intro a i e he
    rw [addInputs] at he
    revert he
    cases addFromPath (sys.cenv cwd) pre a f rc (sys.walks i) with
    | mk a' o =>
      cases o <;> intro he <;> simp only [List.mem_cons, List.not_mem_nil, or_false] at he
      case ok =>
        rcases he with rfl | he
        · exact ⟨rfl, rfl⟩
        · exact ih _ _ _ he
      all_goals (subst he; exact ⟨rfl, rfl⟩)

theorem CreateOpts.addAll_events (o : CreateOpts) (sys : CreateSys) (cwd : List Bytes) :
    ∀ e ∈ (o.addAll sys cwd).1, e.isWritten = false ∧ e.isPrinted = false := by
  intro e he
  unfold CreateOpts.addAll at he
  simp only at he
  split at he
  · split at he
    · simp at he; subst he; exact ⟨rfl, rfl⟩
    · simp only [List.mem_cons, List.mem_map] at he
      rcases he with rfl | ⟨x, _, rfl⟩ <;> exact ⟨rfl, rfl⟩
  · split at he
    · cases he
    · split at he
      · cases he
      · exact addInputs_events _ _ _ _ _ _ _ e he

/-- **C43.** For all options clap accepts, whatever the file system and its changes, and whatever fails:
1. if the directory of the output does not exist, or the output exists and `--force` is not given, the command
   fails and has no effect at all: nothing is written, no input is read;
2. the output path is written by the last effect of the command if at all, so a command that fails in any way
   before has not touched it; and only if the directory of the output existed, and the output did not exist
   or `--force` was given, when the command looked;
3. the command succeeds only if it has done so (or was asked for the list of compressions, which only
   prints). -/
theorem C43_no_overwrite (o : CreateOpts) (sys : CreateSys) (hacc : o.Accepted) :
    (∀ out, o.listCompressions = false → o.outfile = some out →
      (¬ DirAt sys.atParent (absNames sys.cwd out).dropLast ∨ (Present sys.atOut (namesOf sys.cwd out) ∧ o.force = false)) →
      (o.run sys).1 = [] ∧ (o.run sys).2 ≠ .ok) ∧
    (∀ i e, (o.run sys).1[i]? = some e → e.isWritten = true →
      i + 1 = (o.run sys).1.length ∧ ∃ out a, o.outfile = some out ∧ e = .written (namesOf sys.cwd out) a ∧
        DirAt sys.atParent (absNames sys.cwd out).dropLast ∧
        (Present sys.atOut (namesOf sys.cwd out) → o.force = true)) ∧
    ((o.run sys).2 = .ok → (o.listCompressions = true ∧ (o.run sys).1 = [.printed]) ∨
      (o.listCompressions = false ∧ ∃ e ∈ (o.run sys).1, e.isWritten = true)) := by
  have hlc := hacc.2.2
  unfold CreateOpts.run
  by_cases hl : o.listCompressions = true
  · rw [if_pos hl]
    refine ⟨fun out h => (by rw [hl] at h; cases h), ?_, fun _ => Or.inl ⟨hl, rfl⟩⟩
    intro i e hi he
    cases i with
    | zero => simp at hi; subst hi; cases he
    | succ i => simp at hi
  · rw [if_neg hl]
    have hl' : o.listCompressions = false := by simpa using hl
    cases ho : o.outfile with
    | none => exact absurd (hlc ho) hl
    | some out =>
      simp only [Option.some.injEq]
      generalize hN : namesOf sys.cwd out = N
      have hcheck : checkOutput sys out o.force = .ok → DirAt sys.atParent (absNames sys.cwd out).dropLast ∧ (Present sys.atOut N → o.force = true) := by
        unfold checkOutput
        intro h
        rw [hN] at h
        by_cases h1 : absNames sys.cwd out = []
        · rw [if_pos h1] at h; cases h
        · rw [if_neg h1] at h
          by_cases h2 : sys.atParent.isDir (absNames sys.cwd out).dropLast = true
          · rw [h2] at h
            refine ⟨Src.isDir_iff.mp h2, fun hp => ?_⟩
            rw [Src.exists_iff.mpr hp] at h
            cases hf : o.force with
            | true => rfl
            | false => rw [hf] at h; simp at h
          · simp [h2] at h
      cases hc : checkOutput sys out o.force with
      | panic =>
        refine ⟨fun _ _ _ _ => ⟨rfl, by simp⟩, fun i e hi => by simp at hi, fun h => by cases h⟩
      | err =>
        refine ⟨fun _ _ _ _ => ⟨rfl, by simp⟩, fun i e hi => by simp at hi, fun h => by cases h⟩
      | ok =>
        obtain ⟨k1, k2⟩ := hcheck hc
        have part1 : ∀ r : List CreateEv × CmdRes, ∀ out' : Bytes, o.listCompressions = false → out = out' →
            (¬ DirAt sys.atParent (absNames sys.cwd out').dropLast ∨ (Present sys.atOut (namesOf sys.cwd out') ∧ o.force = false)) →
            r.1 = [] ∧ r.2 ≠ .ok := by
          rintro r out' _ rfl hbad
          rw [hN] at hbad
          rcases hbad with h | ⟨h, hf⟩
          · exact absurd k1 h
          · rw [k2 h] at hf; cases hf
        simp only
        by_cases hfl : o.fileList = some []
        · rw [if_pos hfl]
          exact ⟨part1 _, fun i e hi => by simp at hi, fun h => by cases h⟩
        · rw [if_neg hfl]
          cases hch : sys.chdir o.baseDir with
          | none => exact ⟨part1 _, fun i e hi => by simp at hi, fun h => by cases h⟩
          | some cwd =>
            simp only
            by_cases hop : sys.openOk = true
            · rw [hop]
              simp only [Bool.not_true, Bool.false_eq_true, if_false]
              have hev := o.addAll_events sys cwd
              revert hev
              cases o.addAll sys cwd with
              | mk evs ar =>
                cases ar with
                | mk a r =>
                  intro hev
                  have nowr : ∀ (i : Nat) (e : CreateEv), (CreateEv.opened N :: evs)[i]? = some e → e.isWritten = true → False := by
                    intro i e hi he
                    cases i with
                    | zero => simp at hi; subst hi; cases he
                    | succ i =>
                      simp at hi
                      have := (hev e (List.mem_of_getElem? hi)).1
                      rw [this] at he; cases he
                  cases r with
                  | err => exact ⟨part1 _, fun i e hi he => (nowr i e hi he).elim, fun h => by cases h⟩
                  | panic => exact ⟨part1 _, fun i e hi he => (nowr i e hi he).elim, fun h => by cases h⟩
                  | ok =>
                    refine ⟨part1 _, ?_, fun _ => Or.inr ⟨hl', .written N a, by simp, rfl⟩⟩
                    intro i e hi he
                    simp only [List.cons_append] at hi ⊢
                    rcases Nat.lt_or_ge i (CreateEv.opened N :: evs).length with hlt | hge
                    · rw [← List.cons_append, List.getElem?_append_left hlt] at hi
                      exact (nowr i e hi he).elim
                    · rw [← List.cons_append, List.getElem?_append_right hge] at hi
                      have : i - (CreateEv.opened N :: evs).length = 0 := by
                        rcases Nat.eq_zero_or_pos (i - (CreateEv.opened N :: evs).length) with h | h
                        · exact h
                        · rw [List.getElem?_eq_none (by simp only [List.length_cons, List.length_nil] at h ⊢; omega)] at hi; cases hi
                      rw [this] at hi
                      simp only [List.getElem?_cons_zero, Option.some.injEq] at hi
                      simp only [List.length_cons] at this hge
                      refine ⟨by simp; omega, out, a, rfl, by rw [hN]; exact hi.symm, k1, by rw [hN]; exact k2⟩
            · have hop' : sys.openOk = false := by simpa using hop
              rw [hop']
              simp only [Bool.not_false, if_true]
              refine ⟨part1 ([.opened N], .err), ?_, fun h => by cases h⟩
              intro i e hi he
              cases i with
              | zero => simp at hi; subst hi; cases he
              | succ i => simp at hi

/-- `arx create -o x.arx d` in `/`, where `d` is a directory with files and no `x.arx` exists -/
def exSys : CreateSys where
  cwd := []
  atParent := exSrc
  atOut := exSrc
  atChdir := exSrc
  atCheck := exSrc
  src _ := exSrc
  fault _ := false
  text p := if p = [ascii "list"] then some (ascii "d\n") else none
  walks _ := ⟨exSrc, exLs, 5, List.replicate 20 true ++ List.replicate 20 false⟩
  openOk := true
  writeOk := true

def exCreate : CreateOpts := ⟨some (ascii "x.arx"), none, none, [ascii "d"], none, false, false, false, false, false⟩

example : exCreate.Accepted := ⟨by decide, by decide, by decide⟩
example : (exCreate.run exSys).2 = .ok ∧ (exCreate.run exSys).1.map CreateEv.isWritten = [false, false, true] := by
  constructor <;> decide +kernel
/-- the output exists; and `--force` -/
example : ({ exCreate with outfile := some (ascii "d/f") }.run exSys).2 = .err ∧
    ({ exCreate with outfile := some (ascii "d/f"), force := true }.run exSys).2 = .ok ∧
    ({ exCreate with outfile := some (ascii "y/f"), force := true }.run exSys).2 = .err ∧
    ({ exCreate with outfile := some (ascii "/") }.run exSys).2 = .panic := by
  refine ⟨?_, ?_, ?_, ?_⟩ <;> decide +kernel

/-- a trailing separator: `d/f/` does not exist, as `d/f` is a file; `d/` is the directory `d` -/
example : (exSrc.exists (namesOf [] (ascii "d/f")), exSrc.exists (namesOf [] (ascii "d/f/")), exSrc.exists (namesOf [] (ascii "d/"))) =
    (true, false, true) := by decide +kernel

/-- how the path of a file list is understood after the directory was changed -/
theorem C44_list_path {names : List Bytes} (h : ∀ c ∈ names, ValidName c ∧ c ≠ CUR) (cwd : List Bytes) (hcwd : CUR ∉ cwd) :
    absFile cwd (joinPath names) = cwd ++ names ∧ (names ≠ [] → absFile cwd (SEP :: joinPath names) = names) ∧
    (names ≠ [] → absFile cwd (joinPath names ++ [SEP]) = cwd ++ names ++ [CUR]) := by
  have hv : ∀ c ∈ names, ValidName c := fun c hc => (h c hc).1
  have f1 : cwd.filter (· ≠ CUR) = cwd := List.filter_eq_self.mpr (fun c hc => decide_eq_true (fun e => hcwd (e ▸ hc)))
  have f2 : names.filter (· ≠ CUR) = names := List.filter_eq_self.mpr (fun c hc => by simpa using (h c hc).2)
  obtain ⟨h1, h2, _, _⟩ := C33_place hv cwd
  have t1 : trailing (joinPath names) = [] := if_neg (joinPath_getLast hv)
  have b1 : baseNames cwd (joinPath names) = cwd ++ names := by rw [namesOf, t1, List.append_nil] at h1; exact h1
  refine ⟨?_, fun hne => ?_, fun hne => ?_⟩
  · unfold absFile absNames
    rw [b1, t1, List.filter_append, f1, f2, List.append_nil]
  · have t2 : trailing (SEP :: joinPath names) = [] := by
      refine if_neg ?_
      have := joinPath_getLast hv
      cases hj : joinPath names with
      | nil => exact absurd ((joinPath_eq_nil hv).mp hj) hne
      | cons b t => rw [hj] at this; simpa [List.getLast?_cons] using this
    have b2 := h2 hne
    rw [namesOf, t2, List.append_nil] at b2
    unfold absFile absNames
    rw [b2, t2, f2, List.append_nil]
  · have b3 : baseNames cwd (joinPath names ++ [SEP]) = baseNames cwd (joinPath names) := by
      unfold baseNames
      rw [comps_append_sep, List.head?_append]
      cases hj : joinPath names with
      | nil => exact absurd ((joinPath_eq_nil hv).mp hj) hne
      | cons b t => rfl
    have t3 : trailing (joinPath names ++ [SEP]) = [CUR] := by unfold trailing; rw [List.getLast?_concat, if_pos rfl]
    unfold absFile absNames
    rw [b3, b1, t3, List.filter_append, f1, f2]

example : absFile [ascii "home"] (ascii "./a/./l/") = [ascii "home", ascii "a", ascii "l", CUR] := by decide

end Arx
