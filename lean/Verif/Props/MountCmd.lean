import Verif.Model.MountCmd
import Verif.Props.Mount2
import Verif.Props.FileName
/-!
# The commands that mount (C65)
-/
namespace Arx

theorem mountRootCmd_ok {a : Archive} {rd : Option Bytes} {rg : Range} : mountRootCmd a rd = .ok rg ↔ mountRoot a rd = some rg := by
  unfold mountRootCmd mountRoot
  cases rd with
  | none => simp
  | some p =>
    simp only
    cases RPath.fromPathRef p with
    | error e => simp
    | ok rp =>
      simp only
      cases a.getEntry _ rp with
      | error e => cases e <;> simp
      | ok x => cases x <;> simp

/-- the place where `arx mount` mounts: the given directory, or a new one beside the archive whose name begins with
the archive's -/
def MountPlace (o : MountOpts) (sys : MountSys) (dir : Bytes) : Prop :=
  (o.mountdir = some dir) ∨
    (o.mountdir = none ∧ ∃ pre name r, NamesFile (absolute sys.cwd o.infile) pre name ∧ sys.tmp = some r ∧
      dir = pre ++ name ++ ascii "." ++ r)

/-- all that `arx mount` needs before it can mount -/
def MountReady (o : MountOpts) (sys : MountSys) (a : Archive) (rg : Range) (dir : Bytes) : Prop :=
  sys.archive = some a ∧ mountRoot a o.rootDir = some rg ∧ MountPlace o sys dir ∧ (o.foreground = false → sys.detachOk = true)

theorem mountCmd_cases (o : MountOpts) (sys : MountSys) :
    ((∀ e ∈ (mountCmd o sys).1, ∀ d r op, e ≠ .serve d r op) ∧ (mountCmd o sys).2 ≠ .ok ∧ ¬ ∃ a rg dir, MountReady o sys a rg dir) ∨
    ∃ a rg dir made removed, MountReady o sys a rg dir ∧
      (o.mountdir = none → made = [.mkdir dir] ∧ removed = [.rmdir dir]) ∧ (o.mountdir ≠ none → made = [] ∧ removed = []) ∧
      mountCmd o sys = (made ++ (if o.foreground then [] else [MountEv.detach]) ++
        (if validUtf8 (absolute sys.cwd o.infile) then
          [.serve (absolute sys.cwd dir) rg (mountOptions (absolute sys.cwd o.infile))] else []) ++ removed,
        if o.foreground then (if validUtf8 (absolute sys.cwd o.infile) then if sys.mountOk then .ok else .err else .panic) else .ok) := by
  unfold mountCmd
  simp only [joinPaths_absolute]
  cases ha : sys.archive with
  | none => left; exact ⟨by simp, by simp, by rintro ⟨a, _, _, h, _⟩; rw [ha] at h; cases h⟩
  | some a =>
    simp only
    cases hr : mountRootCmd a o.rootDir with
    | error e =>
      left
      refine ⟨by simp, ?_, ?_⟩
      · intro h
        simp only at h
        subst h
        unfold mountRootCmd at hr
        repeat' split at hr
        all_goals cases hr
      · rintro ⟨a', rg, _, h, h2, _⟩
        rw [ha] at h; cases h
        rw [mountRootCmd_ok.mpr h2] at hr; cases hr
    | ok range =>
      simp only
      have hroot := mountRootCmd_ok.mp hr
      -- the place
      have fin : ∀ dir : Bytes, ∀ tmp : Option Bytes, MountPlace o sys dir →
          (o.mountdir = none → tmp = some dir) → (o.mountdir ≠ none → tmp = none) →
          ∀ res : List MountEv × CmdRes, res = (if !o.foreground && !sys.detachOk then (tmp.toList.map MountEv.mkdir ++ tmp.toList.map MountEv.rmdir, .err)
            else
              let detached := if o.foreground then [] else [MountEv.detach]
              let (served, res) :=
                if validUtf8 (absolute sys.cwd o.infile) then
                  ([MountEv.serve (absolute sys.cwd dir) range (mountOptions (absolute sys.cwd o.infile))], if sys.mountOk then CmdRes.ok else .err)
                else ([], .panic)
              (tmp.toList.map MountEv.mkdir ++ detached ++ served ++ tmp.toList.map MountEv.rmdir, if o.foreground then res else .ok)) →
          ((∀ e ∈ res.1, ∀ d r op, e ≠ .serve d r op) ∧ res.2 ≠ .ok ∧ ¬ ∃ a rg dir, MountReady o sys a rg dir) ∨
          ∃ a rg dir made removed, MountReady o sys a rg dir ∧
            (o.mountdir = none → made = [.mkdir dir] ∧ removed = [.rmdir dir]) ∧ (o.mountdir ≠ none → made = [] ∧ removed = []) ∧
            res = (made ++ (if o.foreground then [] else [MountEv.detach]) ++
              (if validUtf8 (absolute sys.cwd o.infile) then
                [.serve (absolute sys.cwd dir) rg (mountOptions (absolute sys.cwd o.infile))] else []) ++ removed,
              if o.foreground then (if validUtf8 (absolute sys.cwd o.infile) then if sys.mountOk then .ok else .err else .panic) else .ok) := by
        intro dir tmp hp ht ht' res e
        by_cases hd : (!o.foreground && !sys.detachOk) = true
        · left
          rw [if_pos hd] at e
          rw [e]
          refine ⟨?_, by simp, ?_⟩
          · intro x hx d r op he
            subst he
            simp at hx
          · rintro ⟨_, _, _, _, _, _, h⟩
            simp at hd
            rw [h hd.1] at hd; cases hd.2
        · right
          rw [if_neg hd] at e
          refine ⟨a, range, dir, tmp.toList.map MountEv.mkdir, tmp.toList.map MountEv.rmdir, ⟨ha, hroot, hp, ?_⟩, ?_, ?_, ?_⟩
          · intro h; rw [h] at hd; simpa using hd
          · intro h; rw [ht h]; exact ⟨rfl, rfl⟩
          · intro h; rw [ht' h]; exact ⟨rfl, rfl⟩
          · rw [e]
            cases validUtf8 (absolute sys.cwd o.infile) <;> simp
      cases hm : o.mountdir with
      | some d =>
        simp only
        have := fin d none (Or.inl hm) (by rw [hm]; simp) (fun _ => rfl) _ rfl
        rw [hm] at this
        exact this
      | none =>
        simp only
        cases hs : splitName (absolute sys.cwd o.infile) with
        | none =>
          left
          refine ⟨by simp, by simp, ?_⟩
          rintro ⟨_, _, _, _, _, h | ⟨_, pre, name, r, h, _⟩, _⟩
          · rw [hm] at h; cases h
          · rw [splitName_iff.mpr h] at hs; cases hs
        | some x =>
          obtain ⟨pre, name⟩ := x
          simp only
          cases ht : sys.tmp with
          | none =>
            left
            refine ⟨by simp, by simp, ?_⟩
            rintro ⟨_, _, _, _, _, h | ⟨_, _, _, r, _, h, _⟩, _⟩
            · rw [hm] at h; cases h
            · rw [ht] at h; cases h
          | some r =>
            simp only
            have := fin (pre ++ name ++ 46 :: r) (some (pre ++ name ++ 46 :: r))
              (Or.inr ⟨hm, pre, name, r, splitName_iff.mp hs, ht, by simp [show ascii "." = [46] from rfl]⟩) (fun _ => rfl) (by rw [hm]; simp) _ rfl
            rw [hm] at this
            simpa only using this

/-- **C65, what is mounted.** Whatever the options and the system: if `arx mount` mounts, it mounts read-only, at the
given directory (or a new one beside the archive), and shows the directory of the archive that was asked for; a
directory it has made is removed at the end. -/
theorem C65_mounted (o : MountOpts) (sys : MountSys) {dir : Bytes} {rg : Range} {opts : List MountOption}
    (h : .serve dir rg opts ∈ (mountCmd o sys).1) :
    MountOption.ro ∈ opts ∧ (∃ a d, sys.archive = some a ∧ mountRoot a o.rootDir = some rg ∧ MountPlace o sys d ∧ dir = absolute sys.cwd d) ∧
    ∀ d, .mkdir d ∈ (mountCmd o sys).1 → (mountCmd o sys).1.getLast? = some (.rmdir d) := by
  rcases mountCmd_cases o sys with ⟨h1, _⟩ | ⟨a, rg', d, made, removed, ⟨h1, h2, h3, _⟩, h4, h5, e⟩
  · exact absurd rfl (h1 _ h _ _ _)
  · rw [e] at h ⊢
    have hmr : (made = [.mkdir d] ∧ removed = [.rmdir d]) ∨ (made = [] ∧ removed = []) := by
      by_cases hm : o.mountdir = none
      · exact Or.inl (h4 hm)
      · exact Or.inr (h5 hm)
    cases hv : validUtf8 (absolute sys.cwd o.infile) with
    | false =>
      exfalso
      rw [hv] at h
      rcases hmr with ⟨rfl, rfl⟩ | ⟨rfl, rfl⟩ <;> cases o.foreground <;> simp at h
    | true =>
      rw [hv] at h
      simp only [if_true] at h ⊢
      refine ⟨?_, ?_, ?_⟩
      · rcases hmr with ⟨rfl, rfl⟩ | ⟨rfl, rfl⟩ <;> cases o.foreground <;> simp at h <;> obtain ⟨_, _, rfl⟩ := h <;>
          simp [mountOptions]
      · rcases hmr with ⟨rfl, rfl⟩ | ⟨rfl, rfl⟩ <;> cases o.foreground <;> simp at h <;> obtain ⟨rfl, rfl, _⟩ := h <;>
          exact ⟨a, d, h1, h2, h3, rfl⟩
      · intro d' hd'
        rcases hmr with ⟨rfl, rfl⟩ | ⟨rfl, rfl⟩ <;> cases o.foreground <;> simp at hd' <;> subst hd' <;> simp

/-- **C65, partial: the result in the foreground.** It is success exactly if the archive can be opened, the directory
to show is one of its directories, there is a place to mount, the path of the archive is UTF-8, and the kernel mounts
(and unmounts) without error. Missing: in the background, for which it is false (`C65_counterexample`). -/
theorem C65_foreground_partial (o : MountOpts) (sys : MountSys) (hf : o.foreground = true) :
    (mountCmd o sys).2 = .ok ↔ (∃ a rg d, sys.archive = some a ∧ mountRoot a o.rootDir = some rg ∧ MountPlace o sys d) ∧
      validUtf8 (absolute sys.cwd o.infile) = true ∧ sys.mountOk = true := by
  rcases mountCmd_cases o sys with ⟨_, h1, h2⟩ | ⟨a, rg', d, made, removed, ⟨h1, h2, h3, _⟩, h4, h5, e⟩
  · constructor
    · intro h; exact absurd h h1
    · rintro ⟨⟨a, rg, d, g1, g2, g3⟩, _⟩
      exact absurd ⟨a, rg, d, g1, g2, g3, by rw [hf]; simp⟩ h2
  · rw [e, hf]
    simp only [if_true]
    cases hv : validUtf8 (absolute sys.cwd o.infile) with
    | false => simp
    | true =>
      cases hm : sys.mountOk with
      | false => simp
      | true => simp; exact ⟨a, h1, ⟨rg', h2⟩, d, h3⟩

/-- **C65, exactly, in the background**: success means that the command could go to the background, not that it
mounts. -/
theorem C65_background (o : MountOpts) (sys : MountSys) (hf : o.foreground = false) :
    (mountCmd o sys).2 = .ok ↔ (∃ a rg d, sys.archive = some a ∧ mountRoot a o.rootDir = some rg ∧ MountPlace o sys d) ∧
      sys.detachOk = true := by
  rcases mountCmd_cases o sys with ⟨_, h1, h2⟩ | ⟨a, rg', d, made, removed, ⟨h1, h2, h3, h6⟩, h4, h5, e⟩
  · constructor
    · intro h; exact absurd h h1
    · rintro ⟨⟨a, rg, d, g1, g2, g3⟩, g4⟩
      exact absurd ⟨a, rg, d, g1, g2, g3, fun _ => g4⟩ h2
  · rw [e, hf]
    simp only [Bool.false_eq_true, if_false, true_iff]
    exact ⟨⟨a, rg', d, h1, h2, h3⟩, h6 hf⟩

/-- **C65, created archives.** Which `--root-dir` is shown: the directory of the archive with that path, if the text is a relative
path in UTF-8 (see `RootName`); and when the command succeeds. -/
theorem C65_created {rs : List AddReq} {a : Archive} {m : PathMap} (h : Written rs a) (hm : SpecRun PathMap.empty rs m)
    (o : MountOpts) (sys : MountSys) (ha : sys.archive = some a) :
    ((∃ p, o.rootDir = some p ∧ ¬ (RootName p ∧ ∃ n, m (comps p) = some n ∧ n.isDir = true)) →
      (∀ dir rg opts, .serve dir rg opts ∉ (mountCmd o sys).1) ∧ (mountCmd o sys).2 ≠ .ok) ∧
    ((∀ p, o.rootDir = some p → RootName p ∧ ∃ n, m (comps p) = some n ∧ n.isDir = true) →
      ((mountCmd o sys).2 = .ok ↔ (∃ d, MountPlace o sys d) ∧
        if o.foreground then validUtf8 (absolute sys.cwd o.infile) = true ∧ sys.mountOk = true else sys.detachOk = true)) := by
  constructor
  · rintro ⟨p, hp, hno⟩
    have hnone : ∀ rg, mountRoot a o.rootDir ≠ some rg := fun rg hrg => by
      rw [hp] at hrg; exact hno ((C31_root_dir_accepted h hm p).mp ⟨rg, hrg⟩)
    constructor
    · intro dir rg opts hs
      obtain ⟨_, ⟨a', d, h1, h2, _⟩, _⟩ := C65_mounted o sys hs
      rw [ha] at h1; cases h1
      exact hnone rg h2
    · intro hok
      cases hf : o.foreground with
      | true =>
        obtain ⟨⟨a', rg, d, h1, h2, _⟩, _⟩ := (C65_foreground_partial o sys hf).mp hok
        rw [ha] at h1; cases h1; exact hnone rg h2
      | false =>
        obtain ⟨⟨a', rg, d, h1, h2, _⟩, _⟩ := (C65_background o sys hf).mp hok
        rw [ha] at h1; cases h1; exact hnone rg h2
  · intro hall
    have hsome : ∃ rg, mountRoot a o.rootDir = some rg := by
      cases hr : o.rootDir with
      | none => exact ⟨_, rfl⟩
      | some p => exact (C31_root_dir_accepted h hm p).mpr (hall p hr)
    obtain ⟨rg, hrg⟩ := hsome
    cases hf : o.foreground with
    | true =>
      rw [C65_foreground_partial o sys hf]
      simp only [if_true]
      constructor
      · rintro ⟨⟨_, _, d, _, _, h3⟩, h4⟩; exact ⟨⟨d, h3⟩, h4⟩
      · rintro ⟨⟨d, h3⟩, h4⟩; exact ⟨⟨a, rg, d, ha, hrg, h3⟩, h4⟩
    | false =>
      rw [C65_background o sys hf]
      simp only [Bool.false_eq_true, if_false]
      constructor
      · rintro ⟨⟨_, _, d, _, _, h3⟩, h4⟩; exact ⟨⟨d, h3⟩, h4⟩
      · rintro ⟨⟨d, h3⟩, h4⟩; exact ⟨⟨a, rg, d, ha, hrg, h3⟩, h4⟩

/-- **C65, the other commands.** `mount.fuse.arx` and the self mounting executable mount the whole archive,
read-only, at the given directory, or nothing; `mount.fuse.arx` refuses the option `rw`. Their result is success
exactly if the archive can be opened, its path is UTF-8 and the kernel mounts. -/
theorem C65_others (infile dir : Bytes) (options : List Bytes) (exe : Option Bytes) (sys : MountSys) :
    (∀ e ∈ (mountFuse infile dir options sys).1 ++ (autoMount exe dir sys).1, ∃ a opts, sys.archive = some a ∧ e = .serve dir a.root opts ∧
      MountOption.ro ∈ opts) ∧
    ((mountFuse infile dir options sys).2 = .ok ↔ ascii "rw" ∉ options ∧ sys.archive ≠ none ∧
      validUtf8 (absolute sys.cwd infile) = true ∧ sys.mountOk = true) ∧
    ((autoMount exe dir sys).2 = .ok ↔ (∃ x, exe = some x ∧ validUtf8 (absolute sys.cwd x) = true) ∧ sys.archive ≠ none ∧ sys.mountOk = true) := by
  have hrw : ascii "rw" = [114, 119] := rfl
  rw [hrw]
  refine ⟨?_, ?_, ?_⟩
  · intro e he
    rcases List.mem_append.mp he with he | he
    · unfold mountFuse at he
      simp only [joinPaths_absolute] at he
      split at he
      · simp at he
      · cases ha : sys.archive with
        | none => rw [ha] at he; simp at he
        | some a =>
          rw [ha] at he
          simp only at he
          split at he
          · simp at he; exact ⟨a, _, rfl, he, by simp [mountOptions]⟩
          · simp at he
    · unfold autoMount at he
      simp only [joinPaths_absolute] at he
      cases exe with
      | none => simp at he
      | some x =>
        simp only at he
        cases ha : sys.archive with
        | none => rw [ha] at he; simp at he
        | some a =>
          rw [ha] at he
          simp only at he
          split at he
          · simp at he; exact ⟨a, _, rfl, he, by simp [mountOptions]⟩
          · simp at he
  · unfold mountFuse
    simp only [joinPaths_absolute]
    by_cases h : [114, 119] ∈ options
    · rw [if_pos (by simpa using h)]; simp [h]
    · rw [if_neg (by simpa using h)]
      cases sys.archive with
      | none => simp
      | some a =>
        simp only
        cases validUtf8 (absolute sys.cwd infile) with
        | false => simp
        | true => cases sys.mountOk <;> simp [h]
  · unfold autoMount
    simp only [joinPaths_absolute]
    cases exe with
    | none => simp
    | some x =>
      cases sys.archive with
      | none => simp
      | some a =>
        simp only
        cases hv : validUtf8 (absolute sys.cwd x) with
        | false => simp [hv]
        | true => cases sys.mountOk <;> simp [hv]

/-! ## Concrete cases -/

/-- `a.arx` in `/home`; the kernel refuses to mount -/
def refusingSys : MountSys := ⟨ascii "/home", some exArchive, some (ascii "x1"), true, false⟩

/-- **C65 is false in the background**: the mount point does not exist, so the kernel refuses; the command has
reported success. The same command in the foreground reports the error. -/
theorem C65_counterexample :
    (mountCmd ⟨ascii "a.arx", some (ascii "missing"), none, false⟩ refusingSys).2 = .ok ∧
    (mountCmd ⟨ascii "a.arx", some (ascii "missing"), none, true⟩ refusingSys).2 = .err := by
  refine ⟨by decide +kernel, by decide +kernel⟩

/-- the hypotheses of `C65_created` are met; `./b/.` and `b//` are texts for `--root-dir`, `a/./b`, `/b` and a text that is not UTF-8 are not -/
example : Written exReqs exArchive ∧ RootName (ascii "./b") ∧ RootName (ascii "b//") ∧ RootName (ascii "b/.") ∧ ¬ RootName (ascii "a/./b") ∧
    ¬ RootName (ascii "/b") ∧ ¬ RootName [255] := by
  simp only [← fromPathRef_iff]
  exact ⟨exWritten, by decide, by decide, by decide, by decide, by decide, by decide⟩

/-- mounted beside the archive -/
example : (mountCmd ⟨ascii "a.arx", none, none, true⟩ { refusingSys with mountOk := true }) =
    ([.mkdir (ascii "/home/a.arx.x1"), .serve (ascii "/home/a.arx.x1") exArchive.root (mountOptions (ascii "/home/a.arx")),
      .rmdir (ascii "/home/a.arx.x1")], .ok) := by decide +kernel

/-- the empty `--root-dir` crashes; `-o ro,rw` is not refused, the mount is still read-only -/
example : (mountCmd ⟨ascii "a.arx", none, some [], true⟩ refusingSys).2 = .panic ∧
    (mountFuse (ascii "a.arx") (ascii "m") [ascii "ro,rw"] { refusingSys with mountOk := true }).2 = .ok ∧
    (mountFuse (ascii "a.arx") (ascii "m") [ascii "rw"] { refusingSys with mountOk := true }).2 = .err := by
  refine ⟨by decide +kernel, by decide +kernel, by decide +kernel⟩

end Arx
