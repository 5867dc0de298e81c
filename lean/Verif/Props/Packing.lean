import Verif.Spec.Packing
import Verif.Props.CmdLine
import Verif.Props.ToolReadme

/-!
# C101: the archive is packed as asked
-/
namespace Arx

theorem asksCreate_iff {ft : Features} {argv : List Bytes} {o : CreateOpts} {comp : Compression} {concat : ConcatMode} :
    arxCli ft argv = .args ⟨none, none, some (.create o comp concat)⟩ ↔ AsksCreate ft argv o comp concat := by
  rw [C94_command]
  constructor
  · rintro ⟨vs, sub, rest, h1, h2, h3, h4⟩
    subst h3
    exact ⟨vs, rest, h1, h2, h4⟩
  · rintro ⟨vs, rest, h1, h2, h3⟩
    exact ⟨vs, _, rest, h1, h2, rfl, h3⟩

/-- A run of `create` opens at most one archive, and one that is written has been opened. -/
theorem CreateOpts.run_opened (o : CreateOpts) (sys : CreateSys) (comp : Compression) (concat : ConcatMode) :
    (o.packings comp concat sys).length ≤ 1 ∧
      ∀ out a, .written out a ∈ (o.run sys).1 → o.packings comp concat sys = [⟨out, comp, concat⟩] := by
  have hin : ∀ (cwd : List Bytes) (pre : RPath) (r : Bool) (fs : List Bytes) (a : Adder) (i : Nat) (e : CreateEv),
      e ∈ (addInputs sys cwd pre r a i fs).1 → ∃ p, e = .input p := by
    intro cwd pre r fs
    induction fs with
    | nil => intro a i e he; simp [addInputs] at he
    | cons f fs ih =>
      intro a i e he
      unfold addInputs at he
      split at he
      · simp only [List.mem_cons] at he
        rcases he with rfl | he
        · exact ⟨_, rfl⟩
        · exact ih _ _ _ he
      · simp only [List.mem_cons, List.not_mem_nil, or_false] at he
        exact ⟨_, he⟩
  have hadd : ∀ cwd, ∀ e ∈ (o.addAll sys cwd).1, (∀ out, e ≠ .opened out) ∧ ∀ out a, e ≠ .written out a := by
    intro cwd e he
    unfold CreateOpts.addAll at he
    simp only at he
    split at he
    · split at he
      · simp only [List.mem_cons, List.not_mem_nil, or_false] at he
        subst he
        exact ⟨fun _ => by simp, fun _ _ => by simp⟩
      · simp only [List.mem_cons, List.mem_map] at he
        rcases he with rfl | ⟨x, _, rfl⟩ <;> exact ⟨fun _ => by simp, fun _ _ => by simp⟩
    · split at he
      · simp at he
      · split at he
        · simp at he
        · obtain ⟨p, rfl⟩ := hin _ _ _ _ _ _ _ he
          exact ⟨fun _ => by simp, fun _ _ => by simp⟩
  have hno : ∀ cwd, (o.addAll sys cwd).1.filterMap (CreateEv.packing comp concat) = [] := by
    intro cwd
    rw [List.filterMap_eq_nil_iff]
    intro e he
    have := (hadd cwd e he).1
    cases e with
    | opened out => exact absurd rfl (this out)
    | _ => rfl
  unfold CreateOpts.packings CreateOpts.run
  split
  · simp [List.filterMap_cons, CreateEv.packing]
  · split
    · simp
    · simp only
      split
      · simp
      · simp
      · split
        · simp
        · split
          · simp
          · rename_i cwd _
            split
            · simp [List.filterMap_cons, CreateEv.packing]
            · have h1 := hno cwd
              have h2 := hadd cwd
              split
              · rename_i evs a he
                rw [he] at h1 h2
                simp only at h1 h2
                refine ⟨by simp [List.filterMap_append, List.filterMap_cons, CreateEv.packing, -List.filterMap_eq_nil_iff, h1], ?_⟩
                intro out' a' hm
                simp only [List.cons_append, List.mem_cons, List.mem_append, List.not_mem_nil, or_false, reduceCtorEq, false_or] at hm
                rcases hm with hm | hm
                · exact absurd rfl ((h2 _ hm).2 out' a')
                · injection hm with e1 e2
                  simp [List.filterMap_append, List.filterMap_cons, CreateEv.packing, -List.filterMap_eq_nil_iff, h1, e1]
              · rename_i evs a r hr he
                rw [he] at h1 h2
                simp only at h1 h2
                refine ⟨by simp [List.filterMap_cons, CreateEv.packing, h1], ?_⟩
                intro out' a' hm
                simp only [List.mem_cons, reduceCtorEq, false_or] at hm
                exact absurd rfl ((h2 _ hm).2 out' a')

theorem convertTo_prepared {M : Type} (run : Conv → List (Except Unit M) → Conv × COut) (sys : ConvSys M) (out : Bytes)
    (items : List (Except Unit M)) (comp : Compression) (concat : ConcatMode) :
    convPackings (convertTo run sys out items).1 comp concat = [⟨out, comp, concat⟩] ∧
      ∀ o c, .written o c ∈ (convertTo run sys out items).1 → o = out := by
  unfold convertTo convPackings
  split
  · simp [List.filterMap_cons, ConvEv.packing]
  · split <;> simp_all [List.filterMap_cons, ConvEv.packing]

theorem tar_prepared (input out : Option Bytes) (sys : ConvSys TarMember) (comp : Compression) (concat : ConcatMode) :
    (convPackings (tar2arx input out sys).1 comp concat).length ≤ 1 ∧
      ∀ o c, .written o c ∈ (tar2arx input out sys).1 → convPackings (tar2arx input out sys).1 comp concat = [⟨o, comp, concat⟩] := by
  unfold tar2arx
  simp only
  split
  · simp [convPackings]
  · split
    · simp [convPackings]
    · rename_i evs out' he
      have hevs : ∀ e ∈ evs, ∃ o, e = .named o := by
        intro e hm
        cases out with
        | some o => simp at he; rw [he.1] at hm; simp at hm
        | none =>
          simp at he
          obtain ⟨o, _, rfl, _⟩ := he
          simp at hm
          exact ⟨_, hm⟩
      have hf : evs.filterMap (ConvEv.packing comp concat) = [] := by
        rw [List.filterMap_eq_nil_iff]
        intro e hm
        obtain ⟨o, rfl⟩ := hevs e hm
        rfl
      split
      · refine ⟨by simp [convPackings, hf], ?_⟩
        intro o c hm
        obtain ⟨_, h⟩ := hevs _ hm
        cases h
      · rename_i items _
        obtain ⟨h1, h2⟩ := convertTo_prepared Conv.tarRun sys out' items comp concat
        have hall : convPackings (evs ++ (convertTo Conv.tarRun sys out' items).1) comp concat = [⟨out', comp, concat⟩] := by
          unfold convPackings at *
          rw [List.filterMap_append, hf, h1]; rfl
        refine ⟨by simp [hall], ?_⟩
        intro o c hm
        rw [hall]
        rcases List.mem_append.mp hm with hm | hm
        · obtain ⟨_, h⟩ := hevs _ hm
          cases h
        · rw [h2 o c hm]

theorem zip_prepared (input out : Bytes) (sys : ConvSys ZipMember) (comp : Compression) (concat : ConcatMode) :
    (convPackings (zip2arx input out sys).1 comp concat).length ≤ 1 ∧
      ∀ o c, .written o c ∈ (zip2arx input out sys).1 → convPackings (zip2arx input out sys).1 comp concat = [⟨o, comp, concat⟩] := by
  unfold zip2arx
  split
  · simp [convPackings]
  · rename_i items _
    obtain ⟨h1, h2⟩ := convertTo_prepared Conv.zipRun sys out items comp concat
    refine ⟨by simp [h1], ?_⟩
    intro o c hm
    rw [h1, h2 o c hm]

/-- **C101: `arx create` packs as asked.** For every build, command line and system: `arx` has jubako pack an archive with some
compression and number of files exactly if the command line is one of `create` that says so (with the defaults of the help) and the
run gets to open the archive; there is at most one, and an archive that is written was packed so. -/
theorem C101_create (ft : Features) (argv : List Bytes) (p : ProgSys) :
    (∀ pk, pk ∈ arxPackings ft argv p ↔
      ∃ o, AsksCreate ft argv o pk.compression pk.concat ∧ .opened pk.out ∈ (o.run p.main.create).1) ∧
    (arxPackings ft argv p).length ≤ 1 ∧
    (∀ evs out a, (arxProgram ft argv p).1 = .create evs → .written out a ∈ evs →
      ∃ o comp concat, AsksCreate ft argv o comp concat ∧ arxPackings ft argv p = [⟨out, comp, concat⟩]) := by
  refine ⟨?_, ?_, ?_⟩
  · intro pk
    constructor
    · intro h
      unfold arxPackings at h
      split at h
      · rename_i o comp concat he
        unfold CreateOpts.packings at h
        rw [List.mem_filterMap] at h
        obtain ⟨e, h1, h2⟩ := h
        cases e <;> simp only [CreateEv.packing, ConvEv.packing, reduceCtorEq, Option.some.injEq] at h2
        subst h2
        exact ⟨o, asksCreate_iff.mp he, h1⟩
      · simp at h
    · rintro ⟨o, h1, h2⟩
      unfold arxPackings
      rw [asksCreate_iff.mpr h1]
      simp only
      unfold CreateOpts.packings
      rw [List.mem_filterMap]
      exact ⟨_, h2, rfl⟩
  · unfold arxPackings
    split
    · exact (CreateOpts.run_opened _ _ _ _).1
    · simp
  · intro evs out a h hw
    unfold arxProgram at h
    split at h
    · simp [arxMain] at h
    · simp [arxMain] at h
    · rename_i ca hc
      obtain ⟨man, compl, cmd⟩ := ca
      simp only at h
      cases cmd with
      | none => cases man <;> cases compl <;> simp [arxMain] at h
      | some c =>
        simp only [Cli.exec] at h
        cases man with
        | some w => cases c <;> simp [arxMain] at h
        | none =>
          cases compl with
          | some w => cases c <;> simp [arxMain] at h
          | none =>
            cases c with
            | create o comp concat =>
              simp [arxMain] at h
              subst h
              refine ⟨o, comp, concat, asksCreate_iff.mp hc, ?_⟩
              unfold arxPackings
              rw [hc]
              exact (CreateOpts.run_opened o _ comp concat).2 out a hw
            | list _ _ => simp [arxMain] at h
            | dump _ _ out' =>
              simp only at h
              split at h
              · simp [arxMain] at h
              · split at h <;> simp at h
            | extract _ _ => simp [arxMain] at h
            | mount _ => simp [arxMain] at h

/-- **C101: `tar2arx` packs as asked.** -/
theorem C101_tar (ft : Features) (argv : List Bytes) (sys : ConvSys TarMember) :
    (∀ pk, pk ∈ tarPackings ft argv sys ↔
      ∃ input out, AsksPacked ft (tarDef ft) argv input out pk.compression pk.concat ∧ .prepared pk.out ∈ (tar2arx input out sys).1) ∧
    (tarPackings ft argv sys).length ≤ 1 ∧
    (∀ out c, .written out c ∈ (tarProgram ft argv sys).1 →
      ∃ input o comp concat, AsksPacked ft (tarDef ft) argv input o comp concat ∧ tarPackings ft argv sys = [⟨out, comp, concat⟩]) := by
  refine ⟨?_, ?_, ?_⟩
  · intro pk
    constructor
    · intro h
      unfold tarPackings at h
      split at h
      · rename_i input out comp concat he
        unfold convPackings at h
        rw [List.mem_filterMap] at h
        obtain ⟨e, h1, h2⟩ := h
        cases e <;> simp only [CreateEv.packing, ConvEv.packing, reduceCtorEq, Option.some.injEq] at h2
        subst h2
        exact ⟨input, out, (C94_tar2arx _ _ _ _ _ _).mp he, h1⟩
      · simp at h
    · rintro ⟨input, out, h1, h2⟩
      unfold tarPackings
      rw [(C94_tar2arx _ _ _ _ _ _).mpr h1]
      simp only
      unfold convPackings
      rw [List.mem_filterMap]
      exact ⟨_, h2, rfl⟩
  · unfold tarPackings
    split
    · exact (tar_prepared _ _ _ _ _).1
    · simp
  · intro out c hw
    unfold tarProgram at hw
    unfold tarPackings
    split at hw
    · simp at hw
    · simp at hw
    · rename_i input o comp concat he
      refine ⟨input, o, comp, concat, (C94_tar2arx _ _ _ _ _ _).mp he, ?_⟩
      rw [he]
      exact (tar_prepared _ _ _ _ _).2 out c hw

/-- **C101 (part): `zip2arx` packs into as many files as asked**, always with `zstd` at its default level. Missing: the compression
that is asked for, see `C101_zip_counterexample`. -/
theorem C101_zip_partial (ft : Features) (argv : List Bytes) (sys : ConvSys ZipMember) :
    (∀ pk, pk ∈ zipPackings ft argv sys ↔
      ∃ input out asked, AsksPacked ft (zipDef ft) argv (some input) (some out) asked pk.concat ∧ pk.compression = .zstd .default ∧
        .prepared pk.out ∈ (zip2arx input out sys).1) ∧
    (zipPackings ft argv sys).length ≤ 1 ∧
    (∀ out c, .written out c ∈ (zipProgram ft argv sys).1 →
      ∃ input o asked concat, AsksPacked ft (zipDef ft) argv input o asked concat ∧ zipPackings ft argv sys = [⟨out, .zstd .default, concat⟩]) := by
  refine ⟨?_, ?_, ?_⟩
  · intro pk
    constructor
    · intro h
      unfold zipPackings at h
      split at h
      · rename_i input out comp concat he
        unfold convPackings at h
        rw [List.mem_filterMap] at h
        obtain ⟨e, h1, h2⟩ := h
        cases e <;> simp only [CreateEv.packing, ConvEv.packing, reduceCtorEq, Option.some.injEq] at h2
        subst h2
        exact ⟨input, out, comp, ((C94_zip2arx _ _ _ _ _ _).mp he).2.2, rfl, h1⟩
      · simp at h
    · rintro ⟨input, out, asked, h1, h3, h2⟩
      unfold zipPackings
      rw [(C94_zip2arx _ _ _ _ _ _).mpr ⟨by simp, by simp, h1⟩]
      simp only
      unfold convPackings
      rw [List.mem_filterMap]
      refine ⟨_, h2, ?_⟩
      rw [← h3]
      rfl
  · unfold zipPackings
    split
    · exact (zip_prepared _ _ _ _ _).1
    · simp
  · intro out c hw
    unfold zipProgram at hw
    unfold zipPackings
    split at hw
    · simp at hw
    · simp at hw
    · rename_i input o comp concat he
      refine ⟨some input, some o, comp, concat, ((C94_zip2arx _ _ _ _ _ _).mp he).2.2, ?_⟩
      rw [he]
      exact (zip_prepared _ _ _ _ _).2 out c hw
    · simp at hw

/-- **C101 fails for `zip2arx`**: whenever another compression is asked for and an archive is opened, it is not packed as asked. -/
theorem C101_zip_counterexample (ft : Features) (argv : List Bytes) (sys : ConvSys ZipMember) (input out : Option Bytes) (asked : Compression)
    (concat : ConcatMode) (h : AsksPacked ft (zipDef ft) argv input out asked concat) (hne : asked ≠ .zstd .default) :
    ∀ pk ∈ zipPackings ft argv sys, pk.compression ≠ asked := by
  intro pk hp
  obtain ⟨_, _, _, _, h2, _⟩ := ((C101_zip_partial ft argv sys).1 pk).mp hp
  rw [h2]
  exact fun e => hne e.symm

/-! ## Examples -/

/-- `zip2arx -o a.arx --compression none a.zip` packs with `zstd`. -/
example : AsksPacked allFeatures (zipDef allFeatures) [ascii "-o", ascii "a.arx", ascii "--compression", ascii "none", ascii "a.zip"]
      (some (ascii "a.zip")) (some (ascii "a.arx")) .none .oneFile ∧
    zipPackings allFeatures [ascii "-o", ascii "a.arx", ascii "--compression", ascii "none", ascii "a.zip"] tripZipSys =
      [⟨ascii "a.arx", .zstd .default, .oneFile⟩] := by
  have h : zipCli allFeatures [ascii "-o", ascii "a.arx", ascii "--compression", ascii "none", ascii "a.zip"] =
    .convert (some (ascii "a.zip")) (some (ascii "a.arx")) .none .oneFile := by decide +kernel
  refine ⟨((C94_zip2arx _ _ _ _ _ _).mp h).2.2, ?_⟩
  unfold zipPackings
  rw [h]
  decide +kernel

/-- `tar2arx -o a.arx -c lzma=5 --two-files a.tar` packs as asked. -/
example : tarPackings allFeatures [ascii "-o", ascii "a.arx", ascii "-c", ascii "lzma=5", ascii "--two-files", ascii "a.tar"] exConvSys =
      [⟨ascii "a.arx", .lzma (.given 5), .twoFiles⟩] := by
  have h : tarCli allFeatures [ascii "-o", ascii "a.arx", ascii "-c", ascii "lzma=5", ascii "--two-files", ascii "a.tar"] =
    .convert (some (ascii "a.tar")) (some (ascii "a.arx")) (.lzma (.given 5)) .twoFiles := by decide +kernel
  unfold tarPackings
  rw [h]
  decide +kernel

/-- `arx create -o x.arx --compression none -2 d` likewise. -/
example : arxPackings allFeatures [ascii "create", ascii "-o", ascii "x.arx", ascii "--compression", ascii "none", ascii "-2", ascii "d"] (readmeProg fineOut) =
      [⟨[ascii "x.arx"], .none, .twoFiles⟩] := by
  have h : arxCli allFeatures [ascii "create", ascii "-o", ascii "x.arx", ascii "--compression", ascii "none", ascii "-2", ascii "d"] =
    .args ⟨none, none, some (.create ⟨some (ascii "x.arx"), none, none, [ascii "d"], none, false, false, false, false, false⟩ .none .twoFiles)⟩ := by decide +kernel
  unfold arxPackings
  rw [h]
  decide +kernel

end Arx
