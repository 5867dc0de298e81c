import Verif.Spec.ToolReadme
import Verif.Props.Readme
import Verif.Props.ConvMount
import Verif.Props.ListFile

/-!
# C99: the command lines of the READMEs of the converters
-/
namespace Arx

variable {ft : Features} {A T : Bytes}

theorem tarProgram_readme (hz : ft.zstd = true) (hA : WordName A) (hT : WordName T) (hu : validUtf8 T = true) (sys : ConvSys TarMember) :
    tarProgram ft (readmeConvert A T) sys = ((tar2arx (some T) (some A) sys).1, (tar2arx (some T) (some A) sys).2.exit) := by
  rw [tarProgram, (C95_convert hz hA hT).1 hu]

theorem zipProgram_readme (hz : ft.zstd = true) (hA : WordName A) (hT : WordName T) (sys : ConvSys ZipMember) :
    zipProgram ft (readmeConvert A T) sys = ((zip2arx T A sys).1, (zip2arx T A sys).2.exit) := by
  rw [zipProgram, (C95_convert hz hA hT).2]

theorem WordName.tarInput (hT : WordName T) : TarInput (some T) = some T := by
  have : T ≠ ascii "-" := by rintro rfl; exact hT.2 rfl
  simp [TarInput, this]

/-- **C99, converting.** `tar2arx -o A T`, `zip2arx -o A T`: the status is 0 exactly if the input can be read, every member is valid and no two are in
conflict, and the archive can be written; then an archive was written to `A`, and this is the last thing done. -/
theorem C99_convert (hz : ft.zstd = true) (hA : WordName A) (hT : WordName T) :
    (∀ sys, validUtf8 T = true →
      ((tarProgram ft (readmeConvert A T) sys).2 = .code 0 ↔
        (∃ ms : List TarMember, sys.input (some T) = .ok (ms.map .ok) ∧ (∀ e ∈ ms, e.Valid) ∧ ms.Pairwise TarMember.Compatible) ∧
          sys.openOk = true ∧ sys.writeOk = true) ∧
      ((tarProgram ft (readmeConvert A T) sys).2 = .code 0 → ∃ c, (tarProgram ft (readmeConvert A T) sys).1.getLast? = some (.written A c))) ∧
    (∀ sys,
      ((zipProgram ft (readmeConvert A T) sys).2 = .code 0 ↔
        (∃ ms : List ZipMember, sys.input (some T) = .ok (ms.map .ok) ∧ (∀ e ∈ ms, e.Valid) ∧ ms.Pairwise ZipMember.Compatible) ∧
          sys.openOk = true ∧ sys.writeOk = true) ∧
      ((zipProgram ft (readmeConvert A T) sys).2 = .code 0 → ∃ c, (zipProgram ft (readmeConvert A T) sys).1.getLast? = some (.written A c))) := by
  constructor
  · intro sys hu
    rw [tarProgram_readme hz hA hT hu]
    have hne : T ≠ [45] := by rintro rfl; exact hT.2 rfl
    refine ⟨?_, fun h => ?_⟩
    · simp only [cmdExit_ok]
      rw [(C61_tar (some T) (some A) sys).2, hT.tarInput]
      simp [TarOutput]
    · simp only [cmdExit_ok] at h
      unfold tar2arx at h ⊢
      simp only [reduceCtorEq, false_and, if_false, Option.some.injEq, hne, or_self] at h ⊢
      cases hi : sys.input (some T) with
      | error e => simp only [hi] at h; cases e <;> cases h
      | ok items =>
        simp only [hi, convertTo] at h ⊢
        cases ho : sys.openOk with
        | false => simp [ho] at h
        | true =>
          simp only [ho, Bool.not_true, Bool.false_eq_true, if_false] at h ⊢
          cases hr : Conv.new.tarRun items with
          | mk c r =>
            simp only [hr] at h ⊢
            cases r
            case ok => exact ⟨c, rfl⟩
            all_goals cases h
  · intro sys
    rw [zipProgram_readme hz hA hT]
    refine ⟨?_, fun h => ?_⟩
    · simp only [cmdExit_ok]
      exact (C61_zip T A sys).2
    · simp only [cmdExit_ok] at h
      unfold zip2arx at h ⊢
      cases hi : sys.input (some T) with
      | error e => simp only [hi] at h; cases e <;> cases h
      | ok items =>
        simp only [hi, convertTo] at h ⊢
        cases ho : sys.openOk with
        | false => simp [ho] at h
        | true =>
          simp only [ho, Bool.not_true, Bool.false_eq_true, if_false] at h ⊢
          cases hr : Conv.new.zipRun items with
          | mk c r =>
            simp only [hr] at h ⊢
            cases r
            case ok => exact ⟨c, rfl⟩
            all_goals cases h

theorem asksPrint_iff {ft : Features} {c : CmdDef} (W : c.WF) (ho : ∀ o ∈ toolOpts ft, o ∈ c.opts) (hw : c.words.length = 1) (hr : c.rest = none) (argv : List Bytes) :
    (match c.read [] none argv with
      | .uses l => match concatOf l, compressionOf ft l with
        | some _, some _ => printAsked l
        | _, _ => false
      | .help => true
      | _ => false) = true ↔ AsksPrint ft c argv := by
  unfold AsksPrint
  rw [← W.help_iff]
  constructor
  · intro h
    cases hrd : c.read [] none argv with
    | usage => simp [hrd] at h
    | help => exact Or.inl rfl
    | sub _ _ _ => simp [hrd] at h
    | uses l =>
      obtain ⟨g1, g2⟩ := W.read_iff.mp hrd
      simp only [hrd] at h
      split at h
      · rename_i cc pp hc hp
        obtain ⟨k1, k2⟩ := toolOf_iff (ft := ft) W ho hw hr g1 g2 (input := (wordsOf l).head?) (out := valueOf l .outfile) (comp := pp) (concat := cc)
        exact Or.inr ⟨l, _, _, pp, cc, g1, g2, k1.mp ⟨hc, hp, rfl, rfl⟩, k2.mp h⟩
      · cases h
  · rintro (h | ⟨l, input, out, comp, concat, g1, g2, g3, g4⟩)
    · simp [h]
    · obtain ⟨k1, k2⟩ := toolOf_iff (ft := ft) W ho hw hr g1 g2 (input := input) (out := out) (comp := comp) (concat := concat)
      obtain ⟨e1, e2, e3, e4⟩ := k1.mpr g3
      simp only [W.read_iff.mpr ⟨g1, g2⟩, e1, e2, k2.mpr g4]

/-- **C99, other lines.** A line of `tar2arx` or `zip2arx` that does not ask to convert does nothing; the status is 0 if it asks for something that is
only printed, and 2 otherwise. -/
theorem C99_other (ft : Features) (argv : List Bytes) :
    (¬ AsksConvert ft (tarDef ft) false argv → ∀ sys,
      (AsksPrint ft (tarDef ft) argv → tarProgram ft argv sys = ([], .code 0)) ∧ (¬ AsksPrint ft (tarDef ft) argv → tarProgram ft argv sys = ([], .code 2))) ∧
    (¬ AsksConvert ft (zipDef ft) true argv → ∀ sys,
      (AsksPrint ft (zipDef ft) argv → zipProgram ft argv sys = ([], .code 0)) ∧ (¬ AsksPrint ft (zipDef ft) argv → zipProgram ft argv sys = ([], .code 2))) := by
  constructor
  · intro hn sys
    have key := asksPrint_iff (ft := ft) (tarDef_wf ft) (fun _ ho => ho) rfl rfl argv
    have kp : tarCli ft argv = .print ↔ AsksPrint ft (tarDef ft) argv := by
      rw [← key]
      unfold tarCli
      cases (tarDef ft).read [] none argv with
      | usage => simp
      | help => simp
      | sub _ _ _ => simp
      | uses l =>
        simp only
        cases concatOf l <;> cases compressionOf ft l <;> simp
    have hc : ∀ i o cp cc, tarCli ft argv ≠ .convert i o cp cc := by
      intro i o cp cc e
      obtain ⟨l, h1, h2, h3, h4⟩ := (C94_tar2arx ft argv i o cp cc).mp e
      exact hn ⟨l, i, o, cp, cc, h1, h2, h3, h4, by simp⟩
    unfold tarProgram
    refine ⟨fun h => by rw [kp.mpr h], fun h => ?_⟩
    cases ht : tarCli ft argv with
    | usage => rfl
    | print => exact absurd (kp.mp ht) h
    | convert i o cp cc => exact absurd ht (hc i o cp cc)
  · intro hn sys
    have key := asksPrint_iff (ft := ft) (zipDef_wf ft) (fun _ ho => ho) rfl rfl argv
    have kp : zipCli ft argv = .print ↔ AsksPrint ft (zipDef ft) argv := by
      rw [← key]
      unfold zipCli
      cases (zipDef ft).read [] none argv with
      | usage => simp
      | help => simp
      | sub _ _ _ => simp
      | uses l =>
        simp only
        cases concatOf l <;> cases compressionOf ft l <;> simp
        split <;> simp_all
    have hc : ∀ i o cp cc, zipCli ft argv ≠ .convert i o cp cc := by
      intro i o cp cc e
      obtain ⟨n1, n2, l, h1, h2, h3, h4⟩ := (C94_zip2arx ft argv i o cp cc).mp e
      exact hn ⟨l, i, o, cp, cc, h1, h2, h3, h4, fun _ => ⟨n1, n2⟩⟩
    unfold zipProgram
    refine ⟨fun h => by rw [kp.mpr h], fun h => ?_⟩
    cases ht : zipCli ft argv with
    | usage => rfl
    | print => exact absurd (kp.mp ht) h
    | convert i o cp cc => exact absurd ht (hc i o cp cc)

/-- The hypotheses are met. -/
example : tarProgram allFeatures [ascii "-h"] exConvSys = ([], .code 0) ∧ zipProgram allFeatures [ascii "a.zip"] tripZipSys = ([], .code 2) := by
  have h1 : tarCli allFeatures [ascii "-h"] = .print := by decide +kernel
  have h2 : zipCli allFeatures [ascii "a.zip"] = .usage := by decide +kernel
  unfold tarProgram zipProgram
  rw [h1, h2]
  exact ⟨rfl, rfl⟩

/-- The entry is of this kind. -/
def MKind.Of (bytes : ContentAddr → GetBytes) (n : Node) : MKind → Prop
  | .dir => n.isDir = true
  | .link t => n.kind = .link t
  | .file d => ∃ s c, n.kind = .file s c ∧ bytes c = .found d

theorem reads_of_map {rs : List AddReq} {m : PathMap} {a : Archive} {bytes : ContentAddr → GetBytes} (h : Written rs a) (hm : SpecRun PathMap.empty rs m)
    {has : List Bytes → MKind → Prop} (hat : ∀ y k, has y k → ∃ n, m y = some n ∧ k.Of bytes n)
    (honly : ∀ z n, m z = some n → ∃ y k, has y k ∧ z <+: y)
    (hA : WordName A) (ft' : Features) {p : ProgSys} (hf : p.archives A = some (a, bytes)) (hd : a.entries.length < p.main.depth) :
    MembersRead ft' A p has := by
  have W := h.mapWF hm
  have hin : ∀ z, (∃ n, m z = some n) ↔ z ≠ [] ∧ ∃ y k, has y k ∧ z <+: y := by
    intro z
    constructor
    · rintro ⟨n, hn⟩
      exact ⟨(by rintro rfl; rw [W.root] at hn; cases hn), honly z n hn⟩
    · rintro ⟨hz, y, k, hy, hp⟩
      obtain ⟨n, hn, _⟩ := hat y k hy
      by_cases e : z = y
      · rw [e]; exact ⟨n, hn⟩
      · obtain ⟨d, h1, _⟩ := W.ancestors _ n z hn ⟨hz, e, hp⟩
        exact ⟨d, h1⟩
  have hline : ∀ f, Plain f → validUtf8 f = true → arxProgram ft' (readmeDump A f) p = arxMain (command (.dump f)) (p.at A) := by
    intro f hp hu
    rw [arxProgram, readmeDump, show [ascii "dump", A, f] = ascii "dump" :: A :: f :: (none : Option Bytes).toList from rfl,
      readme_dump_line hA hp hu (by intro O hO; cases hO)]
    rfl
  refine ⟨?_, ?_, ?_⟩
  · obtain ⟨V, b, e, k1, k2, k3⟩ := C74_list h hm (sys := p.at A) (bytes := bytes) hf hd
    refine ⟨V, b, e, k1.1, fun z => ?_, ?_, k3⟩
    · rw [k1.2 z, ← hin z]
      refine ⟨fun x => x.1, fun x => ⟨x, List.nil_prefix, ?_⟩⟩
      rintro rfl
      obtain ⟨n, hn⟩ := x
      rw [W.root] at hn; cases hn
    · rw [arxProgram, readme_list_line hA]
      exact k2
  · intro f hp hu hc d hk
    obtain ⟨n, hn, s, c, h1, h2⟩ := hat _ _ hk
    rw [hline f hp hu]
    exact ((C74_dump h hm (sys := p.at A) (bytes := bytes) hf f hc).2 n s c hn h1).2.2 d h2
  · intro f hp hu hc hno
    rw [hline f hp hu]
    refine (C74_dump h hm (sys := p.at A) (bytes := bytes) hf f hc).1 ?_
    intro n s c hn hk
    obtain ⟨y, k, hy, hpre⟩ := honly _ n hn
    obtain ⟨n', hn', hof⟩ := hat y k hy
    by_cases e : comps f = y
    · rw [← e, hn] at hn'
      cases hn'
      cases k with
      | dir => simp [MKind.Of, Node.isDir, Kind.isDir, hk] at hof
      | link t => rw [MKind.Of, hk] at hof; cases hof
      | file d => exact hno d (by rw [e]; exact hy)
    · obtain ⟨d, h1, h2⟩ := W.ancestors _ n' _ hn' ⟨hc, e, hpre⟩
      rw [hn] at h1; cases h1
      simp [Node.isDir, Kind.isDir, hk] at h2

theorem written_entries {c : Creator} {order : List Nat} (ho : IsLayout c order) : (writeArchive c order).entries.length ≤ c.store.length := by
  have h1 : (writeArchive c order).entries.length ≤ order.length := by
    simp only [writeArchive]; exact List.length_filterMap_le _ _
  have := ho.1.length_eq
  simp only [List.length_range] at this
  omega

theorem TarRun.map {sys : ConvSys TarMember} {ms : List TarMember} {c : Conv} {order : List Nat} (h : TarRun ft A T sys ms c order) :
    ∃ rs m, Written rs (writeArchive c.creator order) ∧ SpecRun PathMap.empty rs m ∧
      (∀ y k, TarHas ms y k → ∃ n, m y = some n ∧ k.Of (packBytes c.contents) n) ∧ ∀ z n, m z = some n → ∃ y k, TarHas ms y k ∧ z <+: y := by
  have hw := h.wrote
  rw [tarProgram_readme h.zstd h.archiveName h.tarName h.text] at hw
  obtain ⟨i, hi⟩ := List.mem_iff_getElem?.mp hw
  obtain ⟨_, out', c', items, _, e1, e2, e3⟩ := (C61_tar (some T) (some A) sys).1 i _ hi rfl
  cases e1
  rw [h.tarName.tarInput, h.input] at e2; cases e2
  obtain ⟨rs, m, g1, g2, g3, g4⟩ := C41_tar_partial e3
  have hmem : ∀ e, Except.ok e ∈ ms.map (Except.ok (ε := Unit)) ↔ e ∈ ms := by
    intro e; simp
  refine ⟨rs, m, ⟨_, order, g1, h.layout, rfl, by have := h.size; omega⟩, g2, ?_, ?_⟩
  · rintro y k ⟨e, he, rfl, hk⟩
    have hig : ¬ e.Ignored := by
      unfold TarMember.Ignored
      rcases hk with ⟨hd, _⟩ | ⟨hl, _⟩ | ⟨hf, _⟩
      · unfold TarMember.Directory at hd
        rcases hd with hd | ⟨hd | hd | hd, _⟩ <;> simp [hd]
      · simp [hl]
      · obtain ⟨hd, _⟩ := hf
        rcases hd with hd | hd | hd <;> simp [hd]
    obtain ⟨P, S, hPS⟩ := List.append_of_mem ((hmem e).mpr he)
    obtain ⟨info, k1, k2, k3, k4, k5⟩ := g3 P e S hPS hig
    rcases hk with ⟨hd, rfl⟩ | ⟨hl, t, ht, rfl⟩ | ⟨hf, d, hd, rfl⟩
    · obtain ⟨n, h1, h2, _⟩ := k5 hd
      exact ⟨n, h1, h2⟩
    · obtain ⟨t', ht', h1⟩ := k3 hl
      rw [ht] at ht'; cases ht'
      exact ⟨_, h1, rfl⟩
    · obtain ⟨d', a, hd', hb, h1⟩ := k4 hf
      rw [hd] at hd'; cases hd'
      exact ⟨_, h1, _, a, rfl, hb⟩
  · intro z n hz
    obtain ⟨e, h1, h2, h3⟩ := g4 z n hz
    obtain ⟨P, S, hPS⟩ := List.append_of_mem h1
    obtain ⟨info, _, _, k3, k4, _⟩ := g3 P e S hPS h2
    have h1 := (hmem e).mp h1
    rcases e.sort h2 with hd | hl | hf
    · exact ⟨_, .dir, ⟨e, h1, rfl, Or.inl ⟨hd, rfl⟩⟩, h3⟩
    · obtain ⟨t, ht, _⟩ := k3 hl
      exact ⟨_, .link t, ⟨e, h1, rfl, Or.inr (Or.inl ⟨hl, t, ht, rfl⟩)⟩, h3⟩
    · obtain ⟨d, _, hd, _⟩ := k4 hf
      exact ⟨_, .file d, ⟨e, h1, rfl, Or.inr (Or.inr ⟨hf, d, hd, rfl⟩)⟩, h3⟩

theorem ZipRun.map {sys : ConvSys ZipMember} {ms : List ZipMember} {c : Conv} {order : List Nat} (h : ZipRun ft A T sys ms c order) :
    ∃ rs m, Written rs (writeArchive c.creator order) ∧ SpecRun PathMap.empty rs m ∧
      (∀ y k, ZipHas ms y k → ∃ n, m y = some n ∧ k.Of (packBytes c.contents) n) ∧ ∀ z n, m z = some n → ∃ y k, ZipHas ms y k ∧ z <+: y := by
  have hw := h.wrote
  rw [zipProgram_readme h.zstd h.archiveName h.zipName] at hw
  obtain ⟨i, hi⟩ := List.mem_iff_getElem?.mp hw
  obtain ⟨_, c', items, e1, e2, e3⟩ := (C61_zip T A sys).1 i _ hi rfl
  cases e1
  rw [h.input] at e2; cases e2
  obtain ⟨rs, m, g1, g2, g3, g4⟩ := C42_zip_partial e3
  have hmem : ∀ e, Except.ok e ∈ ms.map (Except.ok (ε := Unit)) ↔ e ∈ ms := by
    intro e; simp
  refine ⟨rs, m, ⟨_, order, g1, h.layout, rfl, by have := h.size; omega⟩, g2, ?_, ?_⟩
  · rintro y k ⟨e, he, rfl, hk⟩
    obtain ⟨P, S, hPS⟩ := List.append_of_mem ((hmem e).mpr he)
    obtain ⟨t, _, _, k4, k5⟩ := g3 P e S hPS
    rcases hk with ⟨hd, rfl⟩ | ⟨hf, d, hd, rfl⟩
    · obtain ⟨n, h1, h2, _⟩ := k5 hd
      exact ⟨n, h1, h2⟩
    · obtain ⟨d', a, hd', hb, h1⟩ := k4 hf
      rw [hd] at hd'; cases hd'
      exact ⟨_, h1, _, a, rfl, hb⟩
  · intro z n hz
    obtain ⟨_, e, h1, h3⟩ := g4 z n hz
    obtain ⟨P, S, hPS⟩ := List.append_of_mem h1
    obtain ⟨t, _, _, k4, _⟩ := g3 P e S hPS
    have h1 := (hmem e).mp h1
    cases hd : e.isDir with
    | true => exact ⟨_, .dir, ⟨e, h1, rfl, Or.inl ⟨hd, rfl⟩⟩, h3⟩
    | false =>
      obtain ⟨d, _, hd', _⟩ := k4 hd
      exact ⟨_, .file d, ⟨e, h1, rfl, Or.inr ⟨hd, d, hd', rfl⟩⟩, h3⟩

/-- **C99, `arx list A` and `arx dump A f`** of an archive made by `tar2arx -o A T`: the members of the tar archive. -/
theorem C99_tar_read {sys : ConvSys TarMember} {ms : List TarMember} {c : Conv} {order : List Nat} (h : TarRun ft A T sys ms c order) (ft' : Features)
    {p : ProgSys} (hf : p.archives A = some (writeArchive c.creator order, packBytes c.contents)) (hd : c.creator.store.length < p.main.depth) :
    MembersRead ft' A p (TarHas ms) := by
  obtain ⟨rs, m, h1, h2, h3, h4⟩ := h.map
  exact reads_of_map h1 h2 h3 h4 h.archiveName ft' hf (Nat.lt_of_le_of_lt (written_entries h.layout) hd)

/-- **C99, `arx list A` and `arx dump A f`** of an archive made by `zip2arx -o A T`: the members of the zip archive. -/
theorem C99_zip_read {sys : ConvSys ZipMember} {ms : List ZipMember} {c : Conv} {order : List Nat} (h : ZipRun ft A T sys ms c order) (ft' : Features)
    {p : ProgSys} (hf : p.archives A = some (writeArchive c.creator order, packBytes c.contents)) (hd : c.creator.store.length < p.main.depth) :
    MembersRead ft' A p (ZipHas ms) := by
  obtain ⟨rs, m, h1, h2, h3, h4⟩ := h.map
  exact reads_of_map h1 h2 h3 h4 h.archiveName ft' hf (Nat.lt_of_le_of_lt (written_entries h.layout) hd)

/-- The run of `arx extract A -C O`. -/
theorem readme_extract_run {a : Archive} {bytes : ContentAddr → GetBytes} (hA : WordName A) (ft' : Features) {p : ProgSys} (hf : p.archives A = some (a, bytes)) {O : Bytes} (hO : WordName O)
    (hd : a.entries.length < p.main.depth) {w : World} {e : Exit}
    (hrun : arxProgram ft' (readmeExtract A O) p = (.extract (some w), e)) (hfin : w.finished)
    (hfault : ∀ n, p.main.cmd.env.fault n = false) (hns : ∀ n, NoErr (p.main.cmd.env.sched n)) (hnl : NoErr p.main.last) :
    ∃ res, CleanExtraction ((readmeExtractOpts O).cfg (p.at A).cmd a bytes []) a.root p.main.fs w.fs res ∧ (res = .ok → e = .code 0) := by
  rw [arxProgram, readme_extract_line hA hO] at hrun
  have h1 : ((readmeExtractOpts O).run (p.at A).cmd p.main.depth p.main.fs p.main.last).map (·.1) = some w := Effect.extract.inj (congrArg Prod.fst hrun)
  have h2 : (readmeExtractOpts O).exit (p.at A).cmd ((readmeExtractOpts O).run (p.at A).cmd p.main.depth p.main.fs p.main.last) = e := congrArg Prod.snd hrun
  cases hr : (readmeExtractOpts O).run (p.at A).cmd p.main.depth p.main.fs p.main.last with
  | none => rw [hr] at h1; cases h1
  | some r =>
    obtain ⟨w', res⟩ := r
    rw [hr] at h1 h2
    cases h1
    have harch : (p.at A).cmd.archive = some (a, bytes) := hf
    have k3 : ((readmeExtractOpts O).cfg (p.at A).cmd a bytes []).extractRange p.main.depth a.root p.main.fs p.main.last = (w', res) := by
      have : (readmeExtractOpts O).toExtract (p.at A).cmd = some [] := rfl
      rw [ExtractOpts.run, this, harch] at hr
      exact Option.some.inj hr
    refine ⟨res, ⟨hfault, hns, p.main.depth, p.main.last, _, hd, k3, hfin, rfl, hnl⟩, ?_⟩
    rintro rfl
    exact h2.symm

/-- **C99, `arx extract A -C O`** of an archive made by `tar2arx -o A T`, to an empty or missing directory, no call failing: the tree of the tar
archive (see C73). -/
theorem C99_tar_extract {sys : ConvSys TarMember} {ms : List TarMember} {c : Conv} {order : List Nat} (h : TarRun ft A T sys ms c order)
    (hplace : ∀ e ∈ ms, ¬ e.Ignored → e.Placeable) (ft' : Features)
    {p : ProgSys} (hf : p.archives A = some (writeArchive c.creator order, packBytes c.contents)) {O : Bytes} (hO : WordName O)
    (hd : c.creator.store.length < p.main.depth) {w : World} {e : Exit}
    (hrun : arxProgram ft' (readmeExtract A O) p = (.extract (some w), e)) (hfin : w.finished)
    (hfault : ∀ n, p.main.cmd.env.fault n = false) (hns : ∀ n, NoErr (p.main.cmd.env.sched n)) (hnl : NoErr p.main.last)
    (hT : EmptyTarget p.main.fs (baseNames p.main.cmd.cwd O)) :
    e = .code 0 ∧ TarTree ms w.fs (baseNames p.main.cmd.cwd O) := by
  obtain ⟨res, hc, hx⟩ := readme_extract_run h.archiveName ft' hf hO (Nat.lt_of_le_of_lt (written_entries h.layout) hd) hrun hfin hfault hns hnl
  have hw := h.wrote
  rw [tarProgram_readme h.zstd h.archiveName h.tarName h.text] at hw
  obtain ⟨r1, r2, _⟩ := C73_tar hw (by rw [h.tarName.tarInput]; exact h.input) hplace h.layout (by have := h.size; omega)
    (cfg := (readmeExtractOpts O).cfg (p.at A).cmd (writeArchive c.creator order) (packBytes c.contents) []) rfl rfl rfl hT hc
  exact ⟨hx r1, r2⟩

/-- **C99, `arx extract A -C O`** of an archive made by `zip2arx -o A T`. -/
theorem C99_zip_extract {sys : ConvSys ZipMember} {ms : List ZipMember} {c : Conv} {order : List Nat} (h : ZipRun ft A T sys ms c order)
    (hplace : ∀ e ∈ ms, PARENT ∉ memberNames e.name) (ft' : Features)
    {p : ProgSys} (hf : p.archives A = some (writeArchive c.creator order, packBytes c.contents)) {O : Bytes} (hO : WordName O)
    (hd : c.creator.store.length < p.main.depth) {w : World} {e : Exit}
    (hrun : arxProgram ft' (readmeExtract A O) p = (.extract (some w), e)) (hfin : w.finished)
    (hfault : ∀ n, p.main.cmd.env.fault n = false) (hns : ∀ n, NoErr (p.main.cmd.env.sched n)) (hnl : NoErr p.main.last)
    (hT : EmptyTarget p.main.fs (baseNames p.main.cmd.cwd O)) :
    e = .code 0 ∧ ZipTree ms w.fs (baseNames p.main.cmd.cwd O) := by
  obtain ⟨res, hc, hx⟩ := readme_extract_run h.archiveName ft' hf hO (Nat.lt_of_le_of_lt (written_entries h.layout) hd) hrun hfin hfault hns hnl
  have hw := h.wrote
  rw [zipProgram_readme h.zstd h.archiveName h.zipName] at hw
  obtain ⟨r1, r2, _⟩ := C73_zip hw h.input hplace h.layout (by have := h.size; omega)
    (cfg := (readmeExtractOpts O).cfg (p.at A).cmd (writeArchive c.creator order) (packBytes c.contents) []) rfl rfl rfl hT hc
  exact ⟨hx r1, r2⟩

/-- The run of `arx mount A M`. -/
theorem readme_mount_run {a : Archive} {bytes : ContentAddr → GetBytes} (hA : WordName A) (ft' : Features) {p : ProgSys} (hf : p.archives A = some (a, bytes))
    {M : Bytes} (hM : WordName M) (hdet : p.main.mount.detachOk = true) (hu : validUtf8 (joinPaths p.main.mount.cwd A) = true) :
    (p.at A).mount.archive = some a ∧
    mountCmd ⟨A, some M, none, false⟩ (p.at A).mount =
      ([.detach, .serve (joinPaths p.main.mount.cwd M) a.root (mountOptions (joinPaths p.main.mount.cwd A))], .ok) ∧
    arxProgram ft' (readmeMount A M) p =
      (.mount [.detach, .serve (joinPaths p.main.mount.cwd M) a.root (mountOptions (joinPaths p.main.mount.cwd A))], .code 0) := by
  have har : (p.at A).mount.archive = some a := by
    show (p.archives A).map (·.1) = _
    rw [hf]; rfl
  have hcmd : mountCmd ⟨A, some M, none, false⟩ (p.at A).mount =
      ([.detach, .serve (joinPaths p.main.mount.cwd M) a.root (mountOptions (joinPaths p.main.mount.cwd A))], .ok) := by
    have h1 : (p.at A).mount.detachOk = true := hdet
    have h2 : (p.at A).mount.cwd = p.main.mount.cwd := rfl
    simp only [mountCmd, har, mountRootCmd, h1, h2, hu]
    simp
  refine ⟨har, hcmd, ?_⟩
  rw [arxProgram, readme_mount_line hA hM]
  show (Effect.mount (mountCmd ⟨A, some M, none, false⟩ (p.at A).mount).1, (mountCmd ⟨A, some M, none, false⟩ (p.at A).mount).2.exit) = _
  rw [hcmd]
  rfl

/-- **C99, `arx mount A M`** of an archive made by `tar2arx -o A T`: the command returns with status 0 and serves the archive at `M`; any program that copies the
mount gets the members of the tar archive with their data, targets and attributes (see C81). -/
theorem C99_tar_mount {sys : ConvSys TarMember} {ms : List TarMember} {c : Conv} {order : List Nat} (h : TarRun ft A T sys ms c order)
    (hshow : ∀ e ∈ ms, ¬ e.Ignored → e.Showable) (ft' : Features)
    {p : ProgSys} (hf : p.archives A = some (writeArchive c.creator order, packBytes c.contents)) {M : Bytes} (hM : WordName M)
    (hdet : p.main.mount.detachOk = true) (hu : validUtf8 (joinPaths p.main.mount.cwd A) = true) :
    ∃ rg opts, arxProgram ft' (readmeMount A M) p = (.mount [.detach, .serve (joinPaths p.main.mount.cwd M) rg opts], .code 0) ∧
    ∃ B, ∀ (cl : Client) (before : List FReq), cl.Served before → ∀ n ≥ B,
      ∃ l st, cl.copy ⟨writeArchive c.creator order, rg, packBytes c.contents⟩ n
          ((FsState.init.run ⟨writeArchive c.creator order, rg, packBytes c.contents⟩ before).2, 0) [] 1 = (some l, st) ∧ ShowsTar ms [] l := by
  obtain ⟨har, hcmd, hrun⟩ := readme_mount_run h.archiveName ft' hf hM hdet hu
  have hw := h.wrote
  rw [tarProgram_readme h.zstd h.archiveName h.tarName h.text] at hw
  refine ⟨_, _, hrun, ?_⟩
  obtain ⟨B, hB⟩ := C81_tar hw (by rw [h.tarName.tarInput]; exact h.input) hshow h.layout h.size (mo := ⟨A, some M, none, false⟩) har
    (dir := joinPaths p.main.mount.cwd M) (rg := (writeArchive c.creator order).root) (opts := mountOptions (joinPaths p.main.mount.cwd A))
    (by rw [hcmd]; simp)
  refine ⟨B, fun cl before hs n hn => ?_⟩
  obtain ⟨l, st, h1, h2, _⟩ := hB cl before hs n hn
  exact ⟨l, st, h1, h2⟩

/-- **C99, `arx mount A M`** of an archive made by `zip2arx -o A T`. -/
theorem C99_zip_mount {sys : ConvSys ZipMember} {ms : List ZipMember} {c : Conv} {order : List Nat} (h : ZipRun ft A T sys ms c order)
    (hshow : ∀ e ∈ ms, e.Showable) (ft' : Features)
    {p : ProgSys} (hf : p.archives A = some (writeArchive c.creator order, packBytes c.contents)) {M : Bytes} (hM : WordName M)
    (hdet : p.main.mount.detachOk = true) (hu : validUtf8 (joinPaths p.main.mount.cwd A) = true) :
    ∃ rg opts, arxProgram ft' (readmeMount A M) p = (.mount [.detach, .serve (joinPaths p.main.mount.cwd M) rg opts], .code 0) ∧
    ∃ B, ∀ (cl : Client) (before : List FReq), cl.Served before → ∀ n ≥ B,
      ∃ l st, cl.copy ⟨writeArchive c.creator order, rg, packBytes c.contents⟩ n
          ((FsState.init.run ⟨writeArchive c.creator order, rg, packBytes c.contents⟩ before).2, 0) [] 1 = (some l, st) ∧ ShowsZip ms [] l := by
  obtain ⟨har, hcmd, hrun⟩ := readme_mount_run h.archiveName ft' hf hM hdet hu
  have hw := h.wrote
  rw [zipProgram_readme h.zstd h.archiveName h.zipName] at hw
  refine ⟨_, _, hrun, ?_⟩
  obtain ⟨B, hB⟩ := C81_zip hw h.input hshow h.layout h.size (mo := ⟨A, some M, none, false⟩) har
    (dir := joinPaths p.main.mount.cwd M) (rg := (writeArchive c.creator order).root) (opts := mountOptions (joinPaths p.main.mount.cwd A))
    (by rw [hcmd]; simp)
  refine ⟨B, fun cl before hs n hn => ?_⟩
  obtain ⟨l, st, h1, h2, _⟩ := hB cl before hs n hn
  exact ⟨l, st, h1, h2⟩

/-! ### Examples: `tar2arx -o a.arx a.tar`, `zip2arx -o a.arx a.zip` -/

def toolProg (c : Conv) (order : List Nat) : ProgSys where
  main := { mainSys fineOut with depth := 9, cmd := { exCmd with cwd := [] } }
  archives n := if n = ascii "a.arx" then some (writeArchive c.creator order, packBytes c.contents) else none
  files _ := none

def rdTarConv : Conv := ((tar2arx (some (ascii "a.tar")) (some (ascii "a.arx")) exConvSys).1.filterMap ConvEv.conv?).headD Conv.new

theorem exTarRun : TarRun allFeatures (ascii "a.arx") (ascii "a.tar") exConvSys exTar rdTarConv [0, 2, 1] where
  zstd := rfl
  archiveName := by unfold WordName; decide
  tarName := by unfold WordName; decide
  text := by decide
  input := rfl
  wrote := by
    rw [tarProgram_readme rfl (by unfold WordName; decide) (by unfold WordName; decide) (by decide)]
    obtain ⟨N, hN⟩ := ConvEv.written_of (evs := (tar2arx (some (ascii "a.tar")) (some (ascii "a.arx")) exConvSys).1) (by decide +kernel)
    obtain ⟨i, hi⟩ := List.mem_iff_getElem?.mp hN
    obtain ⟨_, out, c, items, ho, e1, _⟩ := (C61_tar _ _ _).1 i _ hi rfl
    cases e1
    rcases ho with ho | ⟨ho, _⟩
    · cases ho; exact hN
    · cases ho
  layout := ⟨by decide +kernel, by decide +kernel⟩
  size := by decide +kernel

theorem exZipRun : ZipRun allFeatures (ascii "a.arx") (ascii "a.zip") tripZipSys tripZip tripZipConv [0, 2, 1, 3] where
  zstd := rfl
  archiveName := by unfold WordName; decide
  zipName := by unfold WordName; decide
  input := rfl
  wrote := by
    rw [zipProgram_readme rfl (by unfold WordName; decide) (by unfold WordName; decide)]
    obtain ⟨N, hN⟩ := ConvEv.written_of (evs := (zip2arx (ascii "a.zip") (ascii "a.arx") tripZipSys).1) (by decide +kernel)
    obtain ⟨i, hi⟩ := List.mem_iff_getElem?.mp hN
    obtain ⟨_, c, items, e1, _⟩ := (C61_zip _ _ _).1 i _ hi rfl
    cases e1
    exact hN
  layout := ⟨by decide +kernel, by decide +kernel⟩
  size := by decide +kernel

/-- the hypotheses of the theorems above are met, … -/
example : MembersRead allFeatures (ascii "a.arx") (toolProg rdTarConv [0, 2, 1]) (TarHas exTar) :=
  C99_tar_read exTarRun allFeatures rfl (by decide +kernel)

example : MembersRead allFeatures (ascii "a.arx") (toolProg tripZipConv [0, 2, 1, 3]) (ZipHas tripZip) :=
  C99_zip_read exZipRun allFeatures rfl (by decide +kernel)

/-- … with non-trivial members … -/
example : TarHas exTar [ascii "l"] (.link (ascii "d/f")) ∧ ZipHas tripZip [ascii "d", ascii "f"] (.file (ascii "hello")) := by
  refine ⟨⟨exTar[3], by simp [exTar], by decide +kernel, Or.inr (Or.inl ⟨rfl, _, rfl, rfl⟩)⟩, ⟨tripZip[1], by simp [tripZip], by decide +kernel, Or.inr ⟨rfl, _, rfl, rfl⟩⟩⟩

/-- … and what is printed is what one expects. -/
def Effect.printed : Effect → Bytes
  | .stdout b => b
  | _ => []

example : ((arxProgram allFeatures (readmeList (ascii "a.arx")) (toolProg rdTarConv [0, 2, 1])).1.printed = ascii "d\nd/f\nl\n") ∧
    (arxProgram allFeatures (readmeDump (ascii "a.arx") (ascii "d/f")) (toolProg tripZipConv [0, 2, 1, 3])).1.printed = ascii "hello" ∧
    (arxProgram allFeatures (readmeDump (ascii "a.arx") (ascii "d")) (toolProg tripZipConv [0, 2, 1, 3])).2 = .code 1 := by
  refine ⟨?_, ?_, ?_⟩ <;> decide +kernel

/-- the hypotheses of `C99_tar_extract` and `C99_zip_extract` are met -/
example : (∃ w e, arxProgram allFeatures (readmeExtract (ascii "a.arx") (ascii "t")) (toolProg rdTarConv [0, 2, 1]) = (.extract (some w), e) ∧
      e = .code 0 ∧ TarTree exTar w.fs [ascii "t"]) ∧
    ∃ w e, arxProgram allFeatures (readmeExtract (ascii "a.arx") (ascii "t")) (toolProg tripZipConv [0, 2, 1, 3]) = (.extract (some w), e) ∧
      e = .code 0 ∧ ZipTree tripZip w.fs [ascii "t"] := by
  have run : ∀ (c : Conv) order, ∃ r, (readmeExtractOpts (ascii "t")).run ((toolProg c order).at (ascii "a.arx")).cmd 9 fs0 finish = some r ∧
      r = ((readmeExtractOpts (ascii "t")).cfg ((toolProg c order).at (ascii "a.arx")).cmd (writeArchive c.creator order) (packBytes c.contents) []).extractRange 9
        (writeArchive c.creator order).root fs0 finish ∧
      arxProgram allFeatures (readmeExtract (ascii "a.arx") (ascii "t")) (toolProg c order) =
        (.extract (some r.1), (readmeExtractOpts (ascii "t")).exit ((toolProg c order).at (ascii "a.arx")).cmd (some r)) := by
    intro c order
    have e : (readmeExtractOpts (ascii "t")).run ((toolProg c order).at (ascii "a.arx")).cmd 9 fs0 finish =
        some (((readmeExtractOpts (ascii "t")).cfg ((toolProg c order).at (ascii "a.arx")).cmd (writeArchive c.creator order) (packBytes c.contents) []).extractRange 9
        (writeArchive c.creator order).root fs0 finish) := rfl
    refine ⟨_, e, rfl, ?_⟩
    rw [arxProgram, readme_extract_line (by unfold WordName; decide) (by unfold WordName; decide), ← e]
    show (Effect.extract (((readmeExtractOpts (ascii "t")).run ((toolProg c order).at (ascii "a.arx")).cmd 9 fs0 finish).map (·.1)), _) = _
    rw [e]
    rfl
  have hnl : NoErr finish := by
    intro x hx; simp only [finish, List.mem_cons, List.not_mem_nil, or_false] at hx; rcases hx with rfl | rfl | rfl <;> simp
  have hns : ∀ (c : Conv) order n, NoErr ((toolProg c order).main.cmd.env.sched n) := fun c order n x hx => by cases hx
  constructor
  · obtain ⟨r, h1, h2, h3⟩ := run rdTarConv [0, 2, 1]
    refine ⟨r.1, _, h3, ?_⟩
    refine C99_tar_extract exTarRun ?_ allFeatures rfl (O := ascii "t") (by unfold WordName; decide) (by decide +kernel) h3 ?_ (fun _ => rfl) (hns _ _) hnl exT
    · intro e he _
      simp only [exTar, List.mem_cons, List.not_mem_nil, or_false] at he
      rcases he with rfl | rfl | rfl | rfl
      · exact ⟨by decide +kernel, fun h => by cases h⟩
      · exact ⟨by decide +kernel, fun h => by cases h⟩
      · exact ⟨by decide +kernel, fun h => by cases h⟩
      · exact ⟨by decide +kernel, fun _ t ht => by cases ht; exact ⟨by decide +kernel, by decide +kernel⟩⟩
    · rw [h2]; decide +kernel
  · obtain ⟨r, h1, h2, h3⟩ := run tripZipConv [0, 2, 1, 3]
    refine ⟨r.1, _, h3, ?_⟩
    refine C99_zip_extract exZipRun (by decide +kernel) allFeatures rfl (O := ascii "t") (by unfold WordName; decide) (by decide +kernel) h3 ?_ (fun _ => rfl) (hns _ _) hnl exT
    rw [h2]; decide +kernel

/-- those of `C99_tar_mount` are met -/
example : ∃ rg opts, arxProgram allFeatures (readmeMount (ascii "a.arx") (ascii "m")) (toolProg rdTarConv [0, 2, 1]) =
    (.mount [.detach, .serve (ascii "/m") rg opts], .code 0) := by
  obtain ⟨rg, opts, h, _⟩ := C99_tar_mount exTarRun (p := toolProg rdTarConv [0, 2, 1]) (M := ascii "m") (by
    intro e he _
    simp only [exTar, List.mem_cons, List.not_mem_nil, or_false] at he
    rcases he with rfl | rfl | rfl | rfl <;>
      exact ⟨by decide +kernel, fun t ht => by cases ht; decide, fun t ht => by cases ht <;> decide, fun d hd => by cases hd; decide⟩)
    allFeatures rfl (by unfold WordName; decide) rfl (by decide +kernel)
  exact ⟨rg, opts, h⟩

end Arx
