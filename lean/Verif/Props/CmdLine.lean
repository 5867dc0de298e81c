import Verif.Proof.CmdLineProof
import Verif.Props.CmdUtils
import Verif.Spec.Main
/-!
# Command lines mean what the help says

For every list of words (bytes), every build: the programs take the command line exactly if it is written with the arguments of the
command in any of the usual ways, each at most once, with values of the right kind; and then they run with the values given.
-/
namespace Arx

theorem compText_iff {ft : Features} {v : Bytes} {comp : Compression} : compressionArg ft v = .ok comp ↔ CompText ft v comp := by
  obtain ⟨algo, level, hA⟩ := argIs_exists v
  have key : ∀ algo' level', ArgIs v algo' level' → algo' = algo ∧ level' = level := by
    intro a' l' h
    have := (splitEq_of_argIs h).symm.trans (splitEq_of_argIs hA)
    simpa using this
  have none_ok : SameName algo (ascii "none") → compressionArg ft v = .ok .none := by
    intro hn
    have hl : lower algo = ascii "none" := (lower_eq_iff (by decide)).mpr hn
    rw [compressionArg, splitEq_of_argIs hA]
    simp [hl]
  obtain ⟨_, h2, h3⟩ := C46_parse_partial ft hA
  constructor
  · intro h
    by_cases hn : SameName algo (ascii "none")
    · rw [none_ok hn] at h
      cases h
      exact ⟨algo, level, hA, Or.inl ⟨hn, rfl⟩⟩
    · by_cases hA' : ∃ A : Algo, A.present ft = true ∧ SameName algo A.name
      · obtain ⟨A, g1, g2⟩ := hA'
        obtain ⟨k1, k2, k3⟩ := h2 A g1 g2
        cases level with
        | none =>
          rw [k1 rfl] at h; cases h
          exact ⟨algo, none, hA, Or.inr ⟨A, g1, g2, Or.inl ⟨rfl, rfl⟩⟩⟩
        | some t =>
          by_cases hr : ∃ n, IntText A.signed t n ∧ A.lo ≤ n ∧ n ≤ A.hi
          · obtain ⟨n, r1, r2, r3⟩ := hr
            rw [k2 t n rfl r1 r2 r3] at h; cases h
            exact ⟨algo, some t, hA, Or.inr ⟨A, g1, g2, Or.inr ⟨t, n, rfl, r1, r2, r3, rfl⟩⟩⟩
          · rw [k3 t rfl hr] at h; cases h
      · obtain ⟨name, _, e⟩ := h3 hn (fun A g1 g2 => hA' ⟨A, g1, g2⟩)
        rw [e] at h; cases h
  · rintro ⟨algo', level', hA', h⟩
    obtain ⟨rfl, rfl⟩ := key algo' level' hA'
    rcases h with ⟨hn, rfl⟩ | ⟨A, g1, g2, h⟩
    · exact none_ok hn
    · obtain ⟨k1, k2, _⟩ := h2 A g1 g2
      rcases h with ⟨e, rfl⟩ | ⟨t, n, e, r1, r2, r3, rfl⟩
      · exact k1 e
      · exact k2 t n e r1 r2 r3

theorem compressionValue_iff {ft : Features} {v : Bytes} {comp : Compression} :
    compressionValue ft v = some comp ↔ validUtf8 v = true ∧ CompText ft v comp := by
  rw [← compText_iff]
  unfold compressionValue
  by_cases hv : validUtf8 v = true
  · rw [if_pos hv]
    cases h : compressionArg ft v with
    | ok c => simp [hv]
    | error e => simp
  · rw [if_neg hv]; simp [hv]

theorem compressionValue_zstd {ft : Features} {comp : Compression} :
    compressionValue ft (ascii "zstd") = some comp ↔ ft.zstd = true ∧ comp = .zstd .default := by
  obtain ⟨a, b, c⟩ := ft
  cases a <;> cases b <;> cases c <;> simp [compressionValue, compressionArg, show validUtf8 (ascii "zstd") = true by decide,
    show splitEq (ascii "zstd") = (ascii "zstd", none) by decide, show lower (ascii "zstd") = ascii "zstd" by decide,
    show ascii "zstd" ≠ ascii "none" by decide, show ascii "zstd" ≠ ascii "lz4" by decide, show ascii "zstd" ≠ ascii "lzma" by decide,
    parseLevel, Except.map, eq_comm]

theorem compressionOf_iff {ft : Features} {l : List Use} {comp : Compression} (hg : GivesValue l .compression (valueOf l .compression)) :
    compressionOf ft l = some comp ↔ CompressionSaid ft l comp := by
  unfold compressionOf CompressionSaid
  cases hv : valueOf l .compression with
  | none =>
    have hno : ∀ v, .value .compression v ∉ l := fun v hm => by
      have := (hg v).mpr hm; rw [hv] at this; exact absurd this (by simp)
    rw [Option.getD_none, compressionValue_zstd]
    constructor
    · intro h; exact Or.inr ⟨hno, h⟩
    · rintro (⟨v, h, _⟩ | ⟨_, h⟩)
      · exact absurd h (hno v)
      · exact h
  | some v =>
    have hm := (hg v).mp hv
    rw [Option.getD_some, compressionValue_iff]
    constructor
    · intro h; exact Or.inl ⟨v, hm, h⟩
    · rintro (⟨w, h, h'⟩ | ⟨h, _⟩)
      · have := (hg w).mpr h
        rw [hv] at this
        cases this
        exact h'
      · exact absurd hm (h v)

theorem concatOf_iff {l : List Use} {m : ConcatMode} (h1 : GivesFlag l .oneFile (usedIn l .oneFile))
    (h2 : GivesFlag l .twoFiles (usedIn l .twoFiles)) (h3 : GivesFlag l .multipleFiles (usedIn l .multipleFiles)) :
    concatOf l = some m ↔ ConcatSaid l m := by
  unfold concatOf ConcatSaid
  unfold GivesFlag at h1 h2 h3
  rw [← h1, ← h2, ← h3]
  cases usedIn l .oneFile <;> cases usedIn l .twoFiles <;> cases usedIn l .multipleFiles <;> simp [concatMode, eq_comm]

/-- `arx create`. -/
theorem createOf_iff {ft : Features} {argv : List Bytes} {l : List Use} (hl : Line (createDef ft) argv l) (ha : Allowed (createDef ft) l)
    {cli : Cli} : createOf ft l = some cli ↔
      ∃ o comp concat, cli = .create o comp concat ∧ CreateSaid l o ∧ o.Accepted ∧ CompressionSaid ft l comp ∧ ConcatSaid l concat := by
  have W := createDef_wf ft
  have gout := ha.gives (o := ⟨.outfile, some 111, some (ascii "outfile"), .value, pathValue⟩) (by simp [createDef]) rfl
  have gstrip := ha.gives (o := ⟨.stripPrefix, none, some (ascii "strip-prefix"), .value, textValue⟩) (by simp [createDef]) rfl
  have gbase := ha.gives (o := ⟨.baseDir, some 67, none, .value, pathValue⟩) (by simp [createDef]) rfl
  have glist := ha.gives (o := ⟨.fileList, some 76, some (ascii "file-list"), .value, pathValue⟩) (by simp [createDef]) rfl
  have gcomp := ha.gives (o := ⟨.compression, some 99, some (ascii "compression"), .value, fun v => (compressionValue ft v).isSome⟩)
    (by simp [createDef]) rfl
  have ulist := W.used_value hl.known (o := ⟨.fileList, some 76, some (ascii "file-list"), .value, pathValue⟩) (by simp [createDef]) rfl
  have frec := W.gives_flag ha (o := ⟨.recurse, some 114, some (ascii "recurse"), .flag, noValue⟩) (by simp [createDef]) rfl
  have fnor := W.gives_flag ha (o := ⟨.noRecurse, none, some (ascii "no-recurse"), .flag, noValue⟩) (by simp [createDef]) rfl
  have flc := W.gives_flag ha (o := ⟨.listCompressions, none, some (ascii "list-compressions"), .flag, noValue⟩) (by simp [createDef]) rfl
  have fforce := W.gives_flag ha (o := ⟨.force, some 102, some (ascii "force"), .flag, noValue⟩) (by simp [createDef]) rfl
  have fsym := W.gives_flag ha (o := ⟨.followSymlink, none, some (ascii "follow-symlink"), .flag, noValue⟩) (by simp [createDef]) rfl
  have f1 := W.gives_flag ha (o := ⟨.oneFile, some 49, some (ascii "one-file"), .flag, noValue⟩) (by simp [createDef, concatOpts]) rfl
  have f2 := W.gives_flag ha (o := ⟨.twoFiles, some 50, some (ascii "two-files"), .flag, noValue⟩) (by simp [createDef, concatOpts]) rfl
  have f3 := W.gives_flag ha (o := ⟨.multipleFiles, some 78, some (ascii "multiple-files"), .flag, noValue⟩) (by simp [createDef, concatOpts]) rfl
  have ulist' : usedIn l .fileList = true ↔ valueOf l .fileList ≠ none := by
    rw [ulist]
    constructor
    · rintro ⟨v, hv⟩ e; rw [(glist v).mpr hv] at e; exact absurd e (by simp)
    · intro h
      cases hv : valueOf l .fileList with
      | none => exact absurd hv h
      | some v => exact ⟨v, (glist v).mp hv⟩
  unfold createOf
  constructor
  · intro h
    cases hc : concatOf l with
    | none => simp [hc] at h
    | some concat =>
      cases hp : compressionOf ft l with
      | none => simp [hc, hp] at h
      | some comp =>
        simp only [hc, hp] at h
        split at h
        · cases h
        · rename_i hno
          simp only [not_or] at hno
          obtain ⟨n1, n2, n3⟩ := hno
          simp only [Option.some.injEq] at h
          refine ⟨_, comp, concat, h.symm, ⟨gout, gstrip, gbase, wordsOf_eq l, glist, frec, fnor, flc, fforce, fsym⟩, ⟨n1, ?_, ?_⟩,
            (compressionOf_iff gcomp).mp hp, (concatOf_iff f1 f2 f3).mp hc⟩
          · intro hf
            exact Classical.byContradiction fun e => n2 ⟨e, ulist'.mpr hf⟩
          · intro ho
            exact Classical.byContradiction fun e => n3 ⟨ho, e⟩
  · rintro ⟨o, comp, concat, rfl, ⟨s1, s2, s3, s4, s5, s6, s7, s8, s9, s10⟩, ⟨a1, a2, a3⟩, hcomp, hconc⟩
    simp only [(compressionOf_iff gcomp).mpr hcomp, (concatOf_iff f1 f2 f3).mpr hconc]
    have e1 := gout.unique s1
    have e2 := gstrip.unique s2
    have e3 := gbase.unique s3
    have e5 := glist.unique s5
    have e6 := frec.unique s6
    have e7 := fnor.unique s7
    have e8 := flc.unique s8
    have e9 := fforce.unique s9
    have e10 := fsym.unique s10
    have e4 : wordsOf l = o.infiles := by rw [wordsOf_eq, s4]
    simp only at e1 e2 e3 e5 e6 e7 e8 e9 e10
    rw [if_neg]
    · rw [e1, e2, e3, e4, e5, e6, e7, e8, e9, e10]
    · rintro (h | ⟨h, h'⟩ | ⟨h, h'⟩)
      · rw [e6, e7] at h; exact a1 h
      · rw [ulist', e5] at h'; rw [e4] at h; exact h (a2 h')
      · rw [e1] at h; rw [e8] at h'; exact h' (a3 h)

/-- `arx extract`. -/
theorem extractOf_iff {argv : List Bytes} {l : List Use} (hl : Line extractDef argv l) (ha : Allowed extractDef l) {cli : Cli} :
    extractOf l = some cli ↔ ∃ infile o, cli = .extract infile o ∧ ExtractSaid l infile o ∧ o.Accepted := by
  have W := extractDef_wf
  have gout := ha.gives (o := ⟨.outdir, some 67, none, .value, pathValue⟩) (by simp [extractDef]) rfl
  have groot := ha.gives (o := ⟨.rootDir, none, some (ascii "root-dir"), .value, pathValue⟩) (by simp [extractDef]) rfl
  have glist := ha.gives (o := ⟨.fileList, some 76, some (ascii "file-list"), .value, pathValue⟩) (by simp [extractDef]) rfl
  have gold := ha.gives (o := ⟨.infileOld, some 102, some (ascii "file"), .value, pathValue⟩) (by simp [extractDef]) rfl
  have gover := ha.gives (o := ⟨.overwrite, none, some (ascii "overwrite"), .value, fun v => (overwriteValue v).isSome⟩) (by simp [extractDef]) rfl
  have ulist := W.used_value hl.known (o := ⟨.fileList, some 76, some (ascii "file-list"), .value, pathValue⟩) (by simp [extractDef]) rfl
  have frec := W.gives_flag ha (o := ⟨.recurse, some 114, some (ascii "recurse"), .flag, noValue⟩) (by simp [extractDef]) rfl
  have fnor := W.gives_flag ha (o := ⟨.noRecurse, none, some (ascii "no-recurse"), .flag, noValue⟩) (by simp [extractDef]) rfl
  simp only at gout groot glist gold gover ulist frec fnor
  have ulist' : usedIn l .fileList = true ↔ valueOf l .fileList ≠ none := by
    rw [ulist]
    constructor
    · rintro ⟨v, hv⟩ e; rw [(glist v).mpr hv] at e; exact absurd e (by simp)
    · intro h
      cases hv : valueOf l .fileList with
      | none => exact absurd hv h
      | some v => exact ⟨v, (glist v).mp hv⟩
  have over : ∀ m, overwriteValue ((valueOf l .overwrite).getD (ascii "warn")) = some m ↔ OverwriteSaid l m := by
    intro m
    have hw : overwriteValue (ascii "warn") = some .warn := by decide
    cases hv : valueOf l .overwrite with
    | none =>
      have hno : ∀ v, .value .overwrite v ∉ l := fun v hm => by
        have := (gover v).mpr hm; rw [hv] at this; exact absurd this (by simp)
      rw [Option.getD_none, hw]
      simp [OverwriteSaid, hno, eq_comm]
    | some v =>
      have hm : ∀ w, .value .overwrite w ∈ l ↔ v = w := fun w => by rw [← gover w, hv]; simp
      rw [Option.getD_some]
      simp only [OverwriteSaid, hm]
      have hex : ¬ ∀ w, ¬ v = w := fun h => h v rfl
      have n1 : ascii "warn" ≠ ascii "skip" := by decide
      have n2 : ascii "newer" ≠ ascii "skip" := by decide
      have n3 : ascii "newer" ≠ ascii "warn" := by decide
      have n4 : ascii "overwrite" ≠ ascii "skip" := by decide
      have n5 : ascii "overwrite" ≠ ascii "warn" := by decide
      have n6 : ascii "overwrite" ≠ ascii "newer" := by decide
      have n7 : ascii "error" ≠ ascii "skip" := by decide
      have n8 : ascii "error" ≠ ascii "warn" := by decide
      have n9 : ascii "error" ≠ ascii "newer" := by decide
      have n10 : ascii "error" ≠ ascii "overwrite" := by decide
      unfold overwriteValue
      split
      · rename_i e; subst e; simp [n1.symm, n2.symm, n4.symm, n7.symm, eq_comm]
      · rename_i d1
        split
        · rename_i e; subst e; simp [n1, n3.symm, n5.symm, n8.symm, eq_comm]
        · rename_i d2
          split
          · rename_i e; subst e; simp [n2, n3, n6.symm, n9.symm, eq_comm]
          · rename_i d3
            split
            · rename_i e; subst e; simp [n4, n5, n6, n10.symm, eq_comm]
            · rename_i d4
              split
              · rename_i e; subst e; simp [n7, n8, n9, n10, eq_comm]
              · rename_i d5
                simp [d1, d2, d3, d4, d5]
  have old : ∀ v, valueOf l .infileOld = some v ↔ .value .infileOld v ∈ l := gold
  have noold : valueOf l .infileOld = none ↔ ∀ v, .value .infileOld v ∉ l := by
    constructor
    · intro h v hm; rw [(old v).mpr hm] at h; exact absurd h (by simp)
    · intro h
      cases hv : valueOf l .infileOld with
      | none => rfl
      | some v => exact absurd ((old v).mp hv) (h v)
  unfold extractOf
  rw [wordsOf_eq]
  constructor
  · intro h
    cases hm : overwriteValue ((valueOf l .overwrite).getD (ascii "warn")) with
    | none => simp [hm] at h
    | some mode =>
      cases hs : said l with
      | cons infile files =>
        cases ho : valueOf l .infileOld with
        | some v => simp [hm, hs, ho] at h
        | none =>
          simp only [hm, hs, ho] at h
          split at h
          · cases h
          · rename_i hno
            simp only [not_or] at hno
            simp only [Option.some.injEq] at h
            exact ⟨infile, _, h.symm, ⟨Or.inl ⟨noold.mp ho, hs⟩, gout, groot, glist, frec, fnor, (over mode).mp hm⟩, hno.1,
              fun hf => Classical.byContradiction fun e => hno.2 ⟨e, ulist'.mpr hf⟩⟩
      | nil =>
        cases ho : valueOf l .infileOld with
        | none => simp [hm, hs, ho] at h
        | some infile =>
          simp only [hm, hs, ho] at h
          split at h
          · cases h
          · rename_i hno
            simp only [Option.some.injEq] at h
            exact ⟨infile, _, h.symm, ⟨Or.inr ⟨(old infile).mp ho, hs, rfl⟩, gout, groot, glist, frec, fnor, (over mode).mp hm⟩, hno, fun _ => rfl⟩
  · rintro ⟨infile, o, rfl, ⟨s1, s2, s3, s4, s5, s6, s7⟩, a1, a2⟩
    have e2 := gout.unique s2
    have e3 := groot.unique s3
    have e4 := glist.unique s4
    have e5 := frec.unique s5
    have e6 := fnor.unique s6
    have e7 := (over o.overwrite).mpr s7
    rcases s1 with ⟨h1, h2⟩ | ⟨h1, h2, h3⟩
    · simp only [e7, noold.mpr h1, h2]
      rw [if_neg]
      · rw [e2, e3, e4, e5, e6]
      · rintro (h | ⟨h, h'⟩)
        · rw [e5, e6] at h; exact a1 h
        · rw [ulist', e4] at h'; exact h (a2 h')
    · simp only [e7, (old infile).mpr h1, h2]
      rw [if_neg]
      · rw [e2, e3, e4, e5, e6, ← h3]
      · intro h; rw [e5, e6] at h; exact a1 h

theorem u8Value_iff {v : Bytes} {n : Nat} : u8Value v = some n ↔ IntText true v n ∧ n ≤ 255 := by
  unfold u8Value
  cases h : parseInt true (-(2 ^ 63)) (2 ^ 63 - 1) v with
  | none =>
    simp only [reduceCtorEq, false_iff]
    rintro ⟨h1, h2⟩
    rw [parseInt_iff.mpr ⟨h1, by omega, by omega⟩] at h
    cases h
  | some m =>
    simp only
    obtain ⟨h1, h2, h3⟩ := parseInt_iff.mp h
    constructor
    · intro h'
      split at h'
      · rename_i hr
        cases h'
        refine ⟨?_, by omega⟩
        rw [Int.toNat_of_nonneg hr.1]; exact h1
      · cases h'
    · rintro ⟨g1, g2⟩
      rw [parseInt_iff.mpr ⟨g1, by omega, by omega⟩] at h
      cases h
      rw [if_pos ⟨by omega, by omega⟩]
      simp

/-- `arx list`. -/
theorem listOf_iff {l : List Use} (ha : Allowed listDef l) {cli : Cli} :
    listOf l = some cli ↔ ∃ infile stable, cli = .list infile stable ∧ ListSaid l infile stable := by
  have gst := ha.gives (o := ⟨.stableOutput, none, some (ascii "stable-output"), .value, fun v => (u8Value v).isSome⟩) (by simp [listDef]) rfl
  simp only at gst
  have hone : ∀ a t, said l = a :: t → t = [] := by
    intro a t hs
    cases t with
    | nil => rfl
    | cons b t =>
      rcases ha.words 1 b (by rw [hs]; rfl) with ⟨f, h, _⟩ | ⟨_, f, h, _⟩
      · exact absurd h (by simp [listDef])
      · exact absurd h (by simp [listDef])
  have hst : ∀ n : Nat, (valueOf l .stableOutput).bind u8Value = some n ↔ ∃ v, .value .stableOutput v ∈ l ∧ IntText true v n := by
    intro n
    rw [Option.bind_eq_some_iff]
    constructor
    · rintro ⟨v, h1, h2⟩; exact ⟨v, (gst v).mp h1, (u8Value_iff.mp h2).1⟩
    · rintro ⟨v, h1, h2⟩
      refine ⟨v, (gst v).mpr h1, u8Value_iff.mpr ⟨h2, ?_⟩⟩
      obtain ⟨o, ho, e, hc⟩ := ha.values _ _ h1
      have : o = ⟨.stableOutput, none, some (ascii "stable-output"), .value, fun v => (u8Value v).isSome⟩ :=
        listDef_wf.args o ho _ (by simp [listDef]) e
      subst this
      obtain ⟨m, hm⟩ := Option.isSome_iff_exists.mp hc
      obtain ⟨g1, g2⟩ := u8Value_iff.mp hm
      have := (readInt_iff.mpr h2).symm.trans (readInt_iff.mpr g1)
      simp only [Option.some.injEq] at this
      omega
  unfold listOf
  rw [wordsOf_eq]
  constructor
  · intro h
    cases hs : said l with
    | nil => simp [hs] at h
    | cons infile t =>
      simp only [hs, Option.some.injEq] at h
      have := hone _ _ hs; subst this
      exact ⟨infile, _, h.symm, hs, hst⟩
  · rintro ⟨infile, stable, rfl, h1, h2⟩
    simp only [h1]
    have : (valueOf l .stableOutput).bind u8Value = stable := by
      cases hs : stable with
      | some n => exact (hst n).mpr ((h2 n).mp hs)
      | none =>
        cases hb : (valueOf l .stableOutput).bind u8Value with
        | none => rfl
        | some n => rw [(h2 n).mpr ((hst n).mp hb)] at hs; cases hs
    rw [this]

/-- `arx dump`. -/
theorem dumpOf_iff {l : List Use} (ha : Allowed dumpDef l) {cli : Cli} :
    dumpOf l = some cli ↔ ∃ infile path output, cli = .dump infile path output ∧ DumpSaid l infile path output := by
  have hthree : ∀ a b d t, said l = a :: b :: d :: t → t = [] := by
    intro a b d t hs
    cases t with
    | nil => rfl
    | cons b t =>
      rcases ha.words 3 b (by rw [hs]; rfl) with ⟨f, h, _⟩ | ⟨_, f, h, _⟩
      · exact absurd h (by simp [dumpDef])
      · exact absurd h (by simp [dumpDef])
  unfold dumpOf DumpSaid
  rw [wordsOf_eq]
  constructor
  · intro h
    match hs : said l with
    | [] => simp [hs] at h
    | [_] => simp [hs] at h
    | [a, b] =>
      simp only [hs, Option.some.injEq] at h
      exact ⟨a, b, none, h.symm, rfl⟩
    | a :: b :: d :: t =>
      simp only [hs, Option.some.injEq] at h
      have := hthree a b d t hs; subst this
      exact ⟨a, b, some d, h.symm, rfl⟩
  · rintro ⟨infile, path, output, rfl, h⟩
    rw [h]
    cases output <;> rfl

/-- `arx mount`. -/
theorem mountOf_iff {l : List Use} (ha : Allowed mountDef l) {cli : Cli} :
    mountOf l = some cli ↔ ∃ o, cli = .mount o ∧ MountSaid l o := by
  have groot := ha.gives (o := ⟨.rootDir, none, some (ascii "root-dir"), .value, pathValue⟩) (by simp [mountDef]) rfl
  have ffg := mountDef_wf.gives_flag ha (o := ⟨.foreground, some 102, some (ascii "foreground"), .flag, noValue⟩) (by simp [mountDef]) rfl
  simp only at groot ffg
  have htwo : ∀ a b t, said l = a :: b :: t → t = [] := by
    intro a b t hs
    cases t with
    | nil => rfl
    | cons b t =>
      rcases ha.words 2 b (by rw [hs]; rfl) with ⟨f, h, _⟩ | ⟨_, f, h, _⟩
      · exact absurd h (by simp [mountDef])
      · exact absurd h (by simp [mountDef])
  unfold mountOf
  rw [wordsOf_eq]
  constructor
  · intro h
    match hs : said l with
    | [] => simp [hs] at h
    | [a] =>
      simp only [hs, Option.some.injEq] at h
      exact ⟨_, h.symm, hs, groot, ffg⟩
    | a :: b :: t =>
      simp only [hs, Option.some.injEq] at h
      have := htwo a b t hs; subst this
      exact ⟨_, h.symm, hs, groot, ffg⟩
  · rintro ⟨o, rfl, h1, h2, h3⟩
    simp only [h1, groot.unique h2, ffg.unique h3]
    obtain ⟨i, m, r, f⟩ := o
    cases m <;> rfl

/-! ## The subcommands -/

theorem subRead_iff {ft : Features} {sub : Bytes} (hs : sub ∈ arxSubs) {argv : List Bytes} {cli : Cli} :
    (∃ l, (subDef ft sub).1.read [] none argv = .uses l ∧ (subDef ft sub).2 l = some cli) ↔ Means ft sub argv cli := by
  have n1 : ascii "list" ≠ ascii "create" := by decide
  have n2 : ascii "dump" ≠ ascii "create" := by decide
  have n3 : ascii "extract" ≠ ascii "create" := by decide
  have n4 : ascii "mount" ≠ ascii "create" := by decide
  have n5 : ascii "dump" ≠ ascii "list" := by decide
  have n6 : ascii "extract" ≠ ascii "list" := by decide
  have n7 : ascii "mount" ≠ ascii "list" := by decide
  have n8 : ascii "extract" ≠ ascii "dump" := by decide
  have n9 : ascii "mount" ≠ ascii "dump" := by decide
  have n10 : ascii "mount" ≠ ascii "extract" := by decide
  simp only [arxSubs, List.mem_cons, List.not_mem_nil, or_false] at hs
  rcases hs with rfl | rfl | rfl | rfl | rfl
  · rw [show subDef ft (ascii "create") = (createDef ft, createOf ft) by simp [subDef]]
    constructor
    · rintro ⟨l, h1, h2⟩
      obtain ⟨g1, g2⟩ := (createDef_wf ft).read_iff.mp h1
      obtain ⟨o, comp, concat, rfl, k1, k2, k3, k4⟩ := (createOf_iff g1 g2).mp h2
      exact ⟨rfl, l, g1, g2, k1, k2, k3, k4⟩
    · intro h
      cases cli with
      | create o comp concat =>
        obtain ⟨_, l, g1, g2, k1, k2, k3, k4⟩ := h
        exact ⟨l, (createDef_wf ft).read_iff.mpr ⟨g1, g2⟩, (createOf_iff g1 g2).mpr ⟨o, comp, concat, rfl, k1, k2, k3, k4⟩⟩
      | list _ _ => exact absurd h.1.symm n1
      | dump _ _ _ => exact absurd h.1.symm n2
      | extract _ _ => exact absurd h.1.symm n3
      | mount _ => exact absurd h.1.symm n4
  · rw [show subDef ft (ascii "list") = (listDef, listOf) by simp [subDef, n1]]
    constructor
    · rintro ⟨l, h1, h2⟩
      obtain ⟨g1, g2⟩ := listDef_wf.read_iff.mp h1
      obtain ⟨i, st, rfl, k⟩ := (listOf_iff g2).mp h2
      exact ⟨rfl, l, g1, g2, k⟩
    · intro h
      cases cli with
      | list i st =>
        obtain ⟨_, l, g1, g2, k⟩ := h
        exact ⟨l, listDef_wf.read_iff.mpr ⟨g1, g2⟩, (listOf_iff g2).mpr ⟨i, st, rfl, k⟩⟩
      | create _ _ _ => exact absurd h.1 n1
      | dump _ _ _ => exact absurd h.1.symm n5
      | extract _ _ => exact absurd h.1.symm n6
      | mount _ => exact absurd h.1.symm n7
  · rw [show subDef ft (ascii "dump") = (dumpDef, dumpOf) by simp [subDef, n2, n5]]
    constructor
    · rintro ⟨l, h1, h2⟩
      obtain ⟨g1, g2⟩ := dumpDef_wf.read_iff.mp h1
      obtain ⟨i, p, out, rfl, k⟩ := (dumpOf_iff g2).mp h2
      exact ⟨rfl, l, g1, g2, k⟩
    · intro h
      cases cli with
      | dump i p out =>
        obtain ⟨_, l, g1, g2, k⟩ := h
        exact ⟨l, dumpDef_wf.read_iff.mpr ⟨g1, g2⟩, (dumpOf_iff g2).mpr ⟨i, p, out, rfl, k⟩⟩
      | create _ _ _ => exact absurd h.1 n2
      | list _ _ => exact absurd h.1 n5
      | extract _ _ => exact absurd h.1.symm n8
      | mount _ => exact absurd h.1.symm n9
  · rw [show subDef ft (ascii "extract") = (extractDef, extractOf) by simp [subDef, n3, n6, n8]]
    constructor
    · rintro ⟨l, h1, h2⟩
      obtain ⟨g1, g2⟩ := extractDef_wf.read_iff.mp h1
      obtain ⟨i, o, rfl, k1, k2⟩ := (extractOf_iff g1 g2).mp h2
      exact ⟨rfl, l, g1, g2, k1, k2⟩
    · intro h
      cases cli with
      | extract i o =>
        obtain ⟨_, l, g1, g2, k1, k2⟩ := h
        exact ⟨l, extractDef_wf.read_iff.mpr ⟨g1, g2⟩, (extractOf_iff g1 g2).mpr ⟨i, o, rfl, k1, k2⟩⟩
      | create _ _ _ => exact absurd h.1 n3
      | list _ _ => exact absurd h.1 n6
      | dump _ _ _ => exact absurd h.1 n8
      | mount _ => exact absurd h.1.symm n10
  · rw [show subDef ft (ascii "mount") = (mountDef, mountOf) by simp [subDef, n4, n7, n9, n10]]
    constructor
    · rintro ⟨l, h1, h2⟩
      obtain ⟨g1, g2⟩ := mountDef_wf.read_iff.mp h1
      obtain ⟨o, rfl, k⟩ := (mountOf_iff g2).mp h2
      exact ⟨rfl, l, g1, g2, k⟩
    · intro h
      cases cli with
      | mount o =>
        obtain ⟨_, l, g1, g2, k⟩ := h
        exact ⟨l, mountDef_wf.read_iff.mpr ⟨g1, g2⟩, (mountOf_iff g2).mpr ⟨o, rfl, k⟩⟩
      | create _ _ _ => exact absurd h.1 n4
      | list _ _ => exact absurd h.1 n7
      | dump _ _ _ => exact absurd h.1 n9
      | extract _ _ => exact absurd h.1 n10

/-! ## The words before the subcommand -/

theorem shorts_prefix {c : CmdDef} {w : Bytes} {acc : List Use} : (∀ acc', c.shorts acc w = .done acc' → acc <+: acc') ∧
    (∀ acc' o, c.shorts acc w = .pending acc' o → acc <+: acc') := by
  induction w generalizing acc with
  | nil => constructor <;> intros <;> simp_all [CmdDef.shorts]
  | cons x t ih =>
    have attached : ∀ o : OptDef, (∀ acc', o.attached acc t = .done acc' → acc <+: acc') ∧
        (∀ acc' o', o.attached acc t = .pending acc' o' → acc <+: acc') := by
      intro o
      cases t with
      | nil => constructor <;> intros <;> simp_all [OptDef.attached]
      | cons y t =>
        by_cases hf : o.fits acc (if y = 61 then t else y :: t) = true
        · simp only [OptDef.attached, if_pos hf]
          exact ⟨fun acc' h => by cases h; exact List.prefix_append _ _, fun acc' o' h => by cases h⟩
        · simp only [OptDef.attached, if_neg hf]
          exact ⟨fun acc' h => (by cases h), fun acc' o' h => (by cases h)⟩
    have bare : ∀ o : OptDef, (∀ acc', (if o.again acc = true then c.shorts (acc ++ [.flag o.arg]) t else .usage) = .done acc' → acc <+: acc') ∧
        (∀ acc' o', (if o.again acc = true then c.shorts (acc ++ [.flag o.arg]) t else .usage) = .pending acc' o' → acc <+: acc') := by
      intro o
      constructor
      · intro acc' h
        split at h
        · exact (List.prefix_append _ _).trans (ih.1 acc' h)
        · cases h
      · intro acc' o' h
        split at h
        · exact (List.prefix_append _ _).trans (ih.2 acc' o' h)
        · cases h
    rw [CmdDef.shorts]
    cases hb : c.byShort x with
    | none => simp
    | some o =>
      cases ht : o.takes with
      | stop => simp [ht]
      | flag => simpa only [ht] using bare o
      | count => simpa only [ht] using bare o
      | value => simpa only [ht] using attached o
      | values => simpa only [ht] using attached o
      | maybe => simpa only [ht] using attached o

theorem trailing_no_sub {c : CmdDef} {acc : List Use} {ws : List Bytes} {l : List Use} {n : Bytes} {r : List Bytes} : c.trailing acc ws ≠ .sub l n r := by
  induction ws generalizing acc with
  | nil => simp [CmdDef.trailing]
  | cons w ws ih =>
    rw [CmdDef.trailing]
    split
    · exact ih
    · simp

/-- Uses already read are kept; an argument that awaits a value gets one. -/
theorem read_sub_keeps {c : CmdDef} {argv : List Bytes} {acc : List Use} {p : Option OptDef} {l : List Use} {n : Bytes} {r : List Bytes}
    (h : c.read acc p argv = .sub l n r) : acc <+: l ∧ ∀ o, p = some o → ∃ v, .value o.arg v ∈ l := by
  induction argv generalizing acc p with
  | nil =>
    rw [CmdDef.read] at h
    split at h <;> cases h
  | cons w ws ih =>
    unfold CmdDef.read at h
    split at h
    · rename_i o _
      split at h
      · have h1 := (ih h).1
        refine ⟨(List.prefix_append _ _).trans h1, ?_⟩
        intro o' e
        cases e
        exact ⟨w, h1.subset (by simp)⟩
      · cases h
    · rename_i p' _ _ hnp
      split at h
      · rename_i hp
        cases h
        refine ⟨List.prefix_rfl, ?_⟩
        intro o e
        rw [e] at hp
        exact absurd hp.1 (by simp)
      · split at h
        · split at h
          · cases h
          · split at h <;> cases h
          · cases h
        · split at h
          · cases h
          · rename_i acc' hfl
            have h1 : acc' <+: l := by
              split at h
              · exact absurd h trailing_no_sub
              · split at h
                · cases h
                · split at h
                  · cases h
                  · split at h
                    · exact (List.prefix_append _ _).trans (ih h).1
                    · cases h
                  · split at h
                    · exact (List.prefix_append _ _).trans (ih h).1
                    · cases h
                  · cases h
                  · cases h
                  · cases h
                  · split at h
                    · exact (List.prefix_append _ _).trans (ih h).1
                    · cases h
                  · exact (ih h).1
              · split at h
                · rename_i e; exact (shorts_prefix.1 _ e).trans (ih h).1
                · rename_i e; exact (shorts_prefix.2 _ _ e).trans (ih h).1
                · cases h
                · cases h
              · split at h
                · exact (List.prefix_append _ _).trans (ih h).1
                · cases h
            cases p' with
            | none =>
              simp only [OptDef.flush, Option.some.injEq] at hfl
              subst hfl
              exact ⟨h1, fun o e => by cases e⟩
            | some o =>
              simp only [OptDef.flush] at hfl
              split at hfl
              · simp only [Option.some.injEq] at hfl
                subst hfl
                refine ⟨(List.prefix_append _ _).trans h1, fun o' e => ?_⟩
                cases e
                exact ⟨[], h1.subset (by simp)⟩
              · cases hfl

theorem arx_byLong {n : Bytes} {o : OptDef} (h : arxDef.byLong n = some o) : o ∈ arxDef.opts ∧ o.long = some n :=
  ⟨List.mem_of_find?_eq_some h, by simpa using List.find?_some h⟩

theorem arx_byShort {x : UInt8} {o : OptDef} (h : arxDef.byShort x = some o) : o ∈ arxDef.opts ∧ o.short = some x :=
  ⟨List.mem_of_find?_eq_some h, by simpa using List.find?_some h⟩

theorem arx_opts {o : OptDef} (h : o ∈ arxDef.opts) : o = verboseOpt ∨
    o = ⟨.manPage, none, some (ascii "generate-man-page"), .maybe, fun v => v ∈ [] :: arxSubs⟩ ∨
    o = ⟨.complete, none, some (ascii "generate-complete"), .value, shellValue⟩ ∨ o = helpOpt ∨ o = versionOpt := by
  simpa [arxDef] using h

/-- Letters before the subcommand. -/
theorem arx_shorts {w : Bytes} {acc : List Use} : (∀ acc', arxDef.shorts acc w = .done acc' → ∀ b ∈ w, b = 118) ∧
    (∀ acc' o, arxDef.shorts acc w ≠ .pending acc' o) := by
  induction w generalizing acc with
  | nil => exact ⟨by simp, by simp [CmdDef.shorts]⟩
  | cons x t ih =>
    rw [CmdDef.shorts]
    cases hb : arxDef.byShort x with
    | none => simp
    | some o =>
      obtain ⟨h1, h2⟩ := arx_byShort hb
      rcases arx_opts h1 with rfl | rfl | rfl | rfl | rfl
      · have hx : x = 118 := by simpa [verboseOpt, eq_comm] using h2
        have ha : verboseOpt.again acc = true := by simp [OptDef.again, verboseOpt]
        have e : verboseOpt.takes = .count := rfl
        simp only [e, ha, if_true]
        refine ⟨fun acc' h b hm => ?_, ih.2⟩
        rcases List.mem_cons.mp hm with rfl | hm
        · exact hx
        · exact ih.1 acc' h b hm
      · simp at h2
      · simp at h2
      · simp [helpOpt]
      · simp [versionOpt]

theorem arx_sub_words {argv : List Bytes} {acc l : List Use} {n : Bytes} {rest : List Bytes} (h : arxDef.read acc none argv = .sub l n rest)
    (hm : ∀ v, .value .manPage v ∉ l) (hc : ∀ v, .value .complete v ∉ l) :
    ∃ vs, argv = vs ++ n :: rest ∧ OnlyVerbose vs ∧ n ∈ arxSubs := by
  induction argv generalizing acc with
  | nil => rw [CmdDef.read] at h; simp [OptDef.flush] at h
  | cons w ws ih =>
    have step : ∀ acc', (w = ascii "--verbose" ∨ ∃ k, w = 45 :: List.replicate (k + 1) 118) → arxDef.read acc' none ws = .sub l n rest →
        ∃ vs, w :: ws = vs ++ n :: rest ∧ OnlyVerbose vs ∧ n ∈ arxSubs := by
      intro acc' hw h'
      obtain ⟨vs, h1, h2, h3⟩ := ih h'
      refine ⟨w :: vs, by rw [h1]; rfl, fun v hv => ?_, h3⟩
      rcases List.mem_cons.mp hv with rfl | hv
      · exact hw
      · exact h2 v hv
    unfold CmdDef.read at h
    simp only [Option.isNone_none, true_and, OptDef.flush] at h
    split at h
    · rename_i hs
      cases h
      exact ⟨[], rfl, by simp [OnlyVerbose], hs⟩
    · rename_i hsub
      split at h
      · split at h
        · cases h
        · split at h <;> cases h
        · cases h
      · rename_i hhelp
        clear hsub hhelp
        split at h
        · exact absurd h trailing_no_sub
        · rename_i t _
          cases hb : arxDef.byLong (splitEq t).1 with
          | none => simp [hb] at h
          | some o =>
            obtain ⟨h1, h2⟩ := arx_byLong hb
            obtain ⟨_, hs⟩ := splitEq_spec t
            simp only [hb] at h
            rcases arx_opts h1 with rfl | rfl | rfl | rfl | rfl
            · have e : verboseOpt.takes = .count := rfl
              have ha : verboseOpt.again acc = true := by simp [OptDef.again, verboseOpt]
              rcases hs with ⟨g1, g2⟩ | ⟨v, g1, g2⟩
              · simp only [e, g1, ha, if_true] at h
                refine step _ (Or.inl ?_) h
                have : (splitEq t).1 = ascii "verbose" := by simpa [verboseOpt, eq_comm] using h2
                rw [g2, this]; rfl
              · simp [e, g1] at h
            · rcases hs with ⟨g1, g2⟩ | ⟨v, g1, g2⟩
              · simp only [g1] at h
                obtain ⟨v, hv⟩ := (read_sub_keeps h).2 _ rfl
                exact absurd hv (hm v)
              · simp only [g1] at h
                split at h
                · exact absurd ((read_sub_keeps h).1.subset (by simp)) (hm v)
                · cases h
            · rcases hs with ⟨g1, g2⟩ | ⟨v, g1, g2⟩
              · simp only [g1] at h
                obtain ⟨v, hv⟩ := (read_sub_keeps h).2 _ rfl
                exact absurd hv (hc v)
              · simp only [g1] at h
                split at h
                · exact absurd ((read_sub_keeps h).1.subset (by simp)) (hc v)
                · cases h
            · rcases hs with ⟨g1, g2⟩ | ⟨v, g1, g2⟩ <;> simp [helpOpt, g1] at h
            · rcases hs with ⟨g1, g2⟩ | ⟨v, g1, g2⟩ <;> simp [versionOpt, g1] at h
        · rename_i x t _ _
          cases hs : arxDef.shorts acc (x :: t) with
          | done acc' =>
            simp only [hs] at h
            refine step _ (Or.inr ⟨t.length, ?_⟩) h
            have := List.eq_replicate_of_mem (arx_shorts.1 acc' hs)
            rw [this]
            simp
          | pending acc' o => exact absurd hs (arx_shorts.2 acc' o)
          | help => simp [hs] at h
          | usage => simp [hs] at h
        · simp [CmdDef.wordFits, arxDef] at h

theorem arx_verbose_shorts (k : Nat) (acc : List Use) :
    arxDef.shorts acc (List.replicate k 118) = .done (acc ++ List.replicate k (.flag .verbose)) := by
  induction k generalizing acc with
  | zero => simp [CmdDef.shorts]
  | succ k ih =>
    have hb : arxDef.byShort 118 = some verboseOpt := rfl
    have ha : verboseOpt.again acc = true := by simp [OptDef.again, verboseOpt]
    have e : verboseOpt.takes = .count := rfl
    have e' : verboseOpt.arg = .verbose := rfl
    rw [List.replicate_succ, CmdDef.shorts, hb]
    simp only [e, ha, if_true, ih, e']
    rw [List.replicate_succ, List.append_assoc]; rfl

theorem arx_verbose_read {vs : List Bytes} (hv : OnlyVerbose vs) {n : Bytes} (hn : n ∈ arxSubs) (rest : List Bytes) (acc : List Use) :
    ∃ l, arxDef.read acc none (vs ++ n :: rest) = .sub l n rest ∧ ∀ a v, .value a v ∈ l → .value a v ∈ acc := by
  induction vs generalizing acc with
  | nil =>
    refine ⟨acc, ?_, fun _ _ h => h⟩
    rw [List.nil_append]
    unfold CmdDef.read
    simp only [Option.isNone_none, true_and]
    rw [if_pos (show n ∈ arxDef.subs from hn)]
  | cons w vs ih =>
    have hvs : OnlyVerbose vs := fun x hx => hv x (by simp [hx])
    have key : ∀ us : List Use, (∀ a v, .value a v ∉ us) → arxDef.read acc none (w :: (vs ++ n :: rest)) = arxDef.read (acc ++ us) none (vs ++ n :: rest) →
        ∃ l, arxDef.read acc none ((w :: vs) ++ n :: rest) = .sub l n rest ∧ ∀ a v, .value a v ∈ l → .value a v ∈ acc := by
      intro us hus e
      obtain ⟨l, h1, h2⟩ := ih hvs (acc ++ us)
      refine ⟨l, by rw [List.cons_append, e, h1], fun a v hm => ?_⟩
      rcases List.mem_append.mp (h2 a v hm) with h | h
      · exact h
      · exact absurd h (hus a v)
    rcases hv w (by simp) with rfl | ⟨k, rfl⟩
    · refine key [.flag .verbose] (by simp) ?_
      have ha : verboseOpt.again acc = true := by simp [OptDef.again, verboseOpt]
      have hb : arxDef.byLong (splitEq (ascii "verbose")).1 = some verboseOpt := by rfl
      have hs2 : (splitEq (ascii "verbose")).2 = none := by rfl
      have e : verboseOpt.takes = .count := rfl
      have e' : verboseOpt.arg = .verbose := rfl
      conv => lhs; unfold CmdDef.read
      simp only [Option.isNone_none, true_and, OptDef.flush]
      rw [if_neg (show ascii "--verbose" ∉ arxDef.subs by decide), if_neg (fun h => absurd h.2 (by decide))]
      show (match arxDef.byLong (splitEq (ascii "verbose")).1 with
          | none => Read.usage
          | some o => _) = _
      simp only [hb, hs2, e, ha, if_true, e']
    · refine key (List.replicate (k + 1) (.flag .verbose)) ?_ ?_
      · intro a v h
        exact absurd (List.eq_of_mem_replicate h) (by simp)
      · conv => lhs; unfold CmdDef.read
        simp only [Option.isNone_none, true_and, OptDef.flush]
        have hne : ∀ b ∈ arxSubs, b.head? ≠ some 45 := by decide
        rw [if_neg (show (45 :: List.replicate (k + 1) 118 : Bytes) ∉ arxDef.subs from fun h => hne _ h rfl),
          if_neg (show ¬ (arxDef.subs ≠ [] ∧ (45 :: List.replicate (k + 1) 118 : Bytes) = ascii "help") from fun h => by
            have := congrArg List.head? h.2
            exact absurd this (show some (45 : UInt8) ≠ some 104 by decide))]
        have hsh := arx_verbose_shorts (k + 1) acc
        change (match arxDef.shorts acc (List.replicate (k + 1) 118) with
          | .done acc' => arxDef.read acc' none (vs ++ n :: rest)
          | .pending acc' o => arxDef.read acc' (some o) (vs ++ n :: rest)
          | .help => Read.help
          | .usage => Read.usage) = _
        rw [hsh]

theorem arx_value_none {l : List Use} {a : Arg} (h : valueOf l a = none) : ∀ v, .value a v ∉ l := by
  intro v hm
  unfold valueOf at h
  rw [List.findSome?_eq_none_iff] at h
  exact absurd (h _ hm) (by simp [Use.valueFor])

theorem arx_none_value {l : List Use} {a : Arg} (h : ∀ v, .value a v ∉ l) : valueOf l a = none := by
  unfold valueOf
  rw [List.findSome?_eq_none_iff]
  intro u hu
  cases u with
  | value b v =>
    by_cases e : b = a
    · subst e; exact absurd hu (h v)
    · simp [Use.valueFor, e]
  | flag _ => rfl
  | word _ => rfl

/-- **C94: a command line of `arx` means what is written.** For every build and every command line: `arx` runs a subcommand (and does
nothing else) with some options exactly if the command line is the subcommand, possibly after `-v`s, followed by a line written
with its arguments in which each is given at most once, with a value of its kind, that gives these options (with the defaults of the
help for those that are not given) and meets the conditions stated in the help. -/
theorem C94_command (ft : Features) (argv : List Bytes) (cli : Cli) :
    arxCli ft argv = .args ⟨none, none, some cli⟩ ↔
      ∃ vs sub rest, argv = vs ++ sub :: rest ∧ OnlyVerbose vs ∧ Means ft sub rest cli := by
  have subs : ∀ sub rest, Means ft sub rest cli → sub ∈ arxSubs := by
    intro sub rest h
    cases cli <;> (rw [h.1]; decide)
  constructor
  · intro h
    unfold arxCli at h
    cases hr : arxDef.read [] none argv with
    | usage => simp [hr] at h
    | help => simp [hr] at h
    | uses l => simp [hr] at h
    | sub l name rest =>
      simp only [hr] at h
      cases hs : (subDef ft name).1.read [] none rest with
      | usage => simp [hs] at h
      | help => simp [hs] at h
      | sub _ _ _ => simp [hs] at h
      | uses l' =>
        simp only [hs] at h
        cases hq : (subDef ft name).2 l' with
        | none => simp [hq] at h
        | some cli' =>
          simp only [hq, CliOut.args.injEq, CliArgs.mk.injEq, Option.some.injEq] at h
          obtain ⟨e1, e2, rfl⟩ := h
          obtain ⟨vs, g1, g2, g3⟩ := arx_sub_words hr (arx_value_none e1) (arx_value_none e2)
          exact ⟨vs, name, rest, g1, g2, (subRead_iff g3).mp ⟨l', hs, hq⟩⟩
  · rintro ⟨vs, sub, rest, rfl, h2, h3⟩
    have hsub := subs sub rest h3
    obtain ⟨l, g1, g2⟩ := arx_verbose_read h2 hsub rest []
    obtain ⟨l', k1, k2⟩ := (subRead_iff hsub).mpr h3
    unfold arxCli
    simp only [g1, k1, k2]
    rw [arx_none_value (a := .manPage) (fun v hm => by have := g2 _ v hm; simp at this),
      arx_none_value (a := .complete) (fun v hm => by have := g2 _ v hm; simp at this)]

/-! ## Every option can be said -/

theorem Pieces.append {c : CmdDef} {ws ws' : List Bytes} {us us' : List Use} (h : Pieces c ws us) (h' : Pieces c ws' us') :
    Pieces c (ws ++ ws') (us ++ us') := by
  induction h with
  | nil => exact h'
  | cons hp _ ih => rw [List.append_assoc, List.append_assoc]; exact .cons hp ih

theorem Pieces.one {c : CmdDef} {ws : List Bytes} {us : List Use} (h : Piece c ws us) : Pieces c ws us := by
  have := Pieces.cons h .nil
  rwa [List.append_nil, List.append_nil] at this

/-- An argument with a value, if there is one; a flag, if it is set. -/
def optUse (a : Arg) (v : Option Bytes) : List Use := (v.map (Use.value a)).toList
def flagUse (a : Arg) (b : Bool) : List Use := if b then [.flag a] else []

theorem optUse_mem {a b : Arg} {v : Option Bytes} {w : Bytes} : Use.value b w ∈ optUse a v ↔ b = a ∧ v = some w := by
  cases v <;> simp [optUse, eq_comm, and_comm]

theorem optUse_flag {a b : Arg} {v : Option Bytes} : Use.flag b ∉ optUse a v := by cases v <;> simp [optUse]
theorem flagUse_value {a b : Arg} {x : Bool} {w : Bytes} : Use.value b w ∉ flagUse a x := by cases x <;> simp [flagUse]
theorem flagUse_mem {a b : Arg} {x : Bool} : Use.flag b ∈ flagUse a x ↔ b = a ∧ x = true := by cases x <;> simp [flagUse]
theorem optUse_said {a : Arg} {v : Option Bytes} : said (optUse a v) = [] := by cases v <;> simp [optUse, said, Use.text]
theorem flagUse_said {a : Arg} {x : Bool} : said (flagUse a x) = [] := by cases x <;> simp [flagUse, said, Use.text]
theorem words_said (ws : List Bytes) : said (ws.map .word) = ws := by
  induction ws with
  | nil => rfl
  | cons w ws ih => simp only [said, List.map_cons, List.filterMap_cons, Use.text] at ih ⊢; rw [ih]

theorem optUse_pieces {c : CmdDef} {o : OptDef} {v : Option Bytes} (ho : o ∈ c.opts) (hv : o.Valued)
    (hn : o.long ≠ none ∨ o.short ≠ none) : ∃ ws, Pieces c ws (optUse o.arg v) := by
  cases v with
  | none => exact ⟨[], .nil⟩
  | some v =>
    rcases hn with hn | hn
    · obtain ⟨n, hn⟩ := Option.ne_none_iff_exists'.mp hn
      exact ⟨_, .one (.longIs ho hn hv)⟩
    · obtain ⟨x, hx⟩ := Option.ne_none_iff_exists'.mp hn
      exact ⟨_, .one (.lettersIs .nil ho hx hv)⟩

theorem flagUse_pieces {c : CmdDef} {o : OptDef} {b : Bool} (ho : o ∈ c.opts) (hv : o.Bare) (hn : o.long ≠ none) :
    ∃ ws, Pieces c ws (flagUse o.arg b) := by
  cases b with
  | false => exact ⟨[], .nil⟩
  | true =>
    obtain ⟨n, hn⟩ := Option.ne_none_iff_exists'.mp hn
    exact ⟨_, .one (.long ho hn hv)⟩

/-- The argument a use is of. -/
def Use.key : Use → Option Arg
  | .flag a => some a
  | .value a _ => some a
  | .word _ => none

theorem once_of_keys {c : CmdDef} {l : List Use} (h : (l.filterMap Use.key).Nodup) :
    l.Pairwise (fun u u' => ∀ o ∈ c.opts, o.takes ≠ .count → o.takes ≠ .values → u.Of o.arg → ¬ u'.Of o.arg) := by
  induction l with
  | nil => exact .nil
  | cons u l ih =>
    have hkey : ∀ (u : Use) (a : Arg), u.Of a → u.key = some a := by
      intro u a h; cases u <;> simp_all [Use.Of, Use.key]
    refine List.pairwise_cons.mpr ⟨fun u' hu' o _ _ _ h1 h2 => ?_, ih ?_⟩
    · have k1 := hkey _ _ h1
      have k2 := hkey _ _ h2
      rw [List.filterMap_cons, k1] at h
      exact (List.nodup_cons.mp h).1 (List.mem_filterMap.mpr ⟨u', hu', k2⟩)
    · rw [List.filterMap_cons] at h
      split at h
      · exact h
      · exact (List.nodup_cons.mp h).2

theorem optUse_keys (a : Arg) (v : Option Bytes) : ((optUse a v).filterMap Use.key).Sublist [a] := by cases v <;> simp [optUse, Use.key]
theorem flagUse_keys (a : Arg) (b : Bool) : ((flagUse a b).filterMap Use.key).Sublist [a] := by cases b <;> simp [flagUse, Use.key]
theorem words_keys (ws : List Bytes) : (ws.map Use.word).filterMap Use.key = [] := by
  induction ws with
  | nil => rfl
  | cons w ws ih => simp [Use.key]

/-- The uses that say the options of `arx create`. -/
def createUses (o : CreateOpts) (comp : Bytes) (concat : ConcatMode) : List Use :=
  optUse .outfile o.outfile ++ (optUse .stripPrefix o.stripPrefix ++ (optUse .baseDir o.baseDir ++ (optUse .fileList o.fileList ++
  (flagUse .recurse o.recurse ++ (flagUse .noRecurse o.noRecurse ++ (flagUse .listCompressions o.listCompressions ++ (flagUse .force o.force ++
  (flagUse .followSymlink o.followSymlink ++ (optUse .compression (some comp) ++ (flagUse .twoFiles (concat = .twoFiles) ++
  (flagUse .multipleFiles (concat = .noConcat) ++ o.infiles.map .word)))))))))))

theorem createUses_line (ft : Features) (o : CreateOpts) (comp : Bytes) (concat : ConcatMode) :
    ∃ argv, Line (createDef ft) argv (createUses o comp concat) := by
  obtain ⟨w1, h1⟩ := optUse_pieces (c := createDef ft) (v := o.outfile)
    (o := ⟨.outfile, some 111, some (ascii "outfile"), .value, pathValue⟩) (by simp [createDef]) (Or.inl rfl) (Or.inl (by simp))
  obtain ⟨w2, h2⟩ := optUse_pieces (c := createDef ft) (v := o.stripPrefix)
    (o := ⟨.stripPrefix, none, some (ascii "strip-prefix"), .value, textValue⟩) (by simp [createDef]) (Or.inl rfl) (Or.inl (by simp))
  obtain ⟨w3, h3⟩ := optUse_pieces (c := createDef ft) (v := o.baseDir)
    (o := ⟨.baseDir, some 67, none, .value, pathValue⟩) (by simp [createDef]) (Or.inl rfl) (Or.inr (by simp))
  obtain ⟨w4, h4⟩ := optUse_pieces (c := createDef ft) (v := o.fileList)
    (o := ⟨.fileList, some 76, some (ascii "file-list"), .value, pathValue⟩) (by simp [createDef]) (Or.inl rfl) (Or.inl (by simp))
  obtain ⟨w5, h5⟩ := flagUse_pieces (c := createDef ft) (b := o.recurse)
    (o := ⟨.recurse, some 114, some (ascii "recurse"), .flag, noValue⟩) (by simp [createDef]) (Or.inl rfl) (by simp)
  obtain ⟨w6, h6⟩ := flagUse_pieces (c := createDef ft) (b := o.noRecurse)
    (o := ⟨.noRecurse, none, some (ascii "no-recurse"), .flag, noValue⟩) (by simp [createDef]) (Or.inl rfl) (by simp)
  obtain ⟨w7, h7⟩ := flagUse_pieces (c := createDef ft) (b := o.listCompressions)
    (o := ⟨.listCompressions, none, some (ascii "list-compressions"), .flag, noValue⟩) (by simp [createDef]) (Or.inl rfl) (by simp)
  obtain ⟨w8, h8⟩ := flagUse_pieces (c := createDef ft) (b := o.force)
    (o := ⟨.force, some 102, some (ascii "force"), .flag, noValue⟩) (by simp [createDef]) (Or.inl rfl) (by simp)
  obtain ⟨w9, h9⟩ := flagUse_pieces (c := createDef ft) (b := o.followSymlink)
    (o := ⟨.followSymlink, none, some (ascii "follow-symlink"), .flag, noValue⟩) (by simp [createDef]) (Or.inl rfl) (by simp)
  obtain ⟨w10, h10⟩ := optUse_pieces (c := createDef ft) (v := some comp)
    (o := ⟨.compression, some 99, some (ascii "compression"), .value, fun v => (compressionValue ft v).isSome⟩) (by simp [createDef]) (Or.inl rfl) (Or.inl (by simp))
  obtain ⟨w11, h11⟩ := flagUse_pieces (c := createDef ft) (b := decide (concat = .twoFiles))
    (o := ⟨.twoFiles, some 50, some (ascii "two-files"), .flag, noValue⟩) (by simp [createDef, concatOpts]) (Or.inl rfl) (by simp)
  obtain ⟨w12, h12⟩ := flagUse_pieces (c := createDef ft) (b := decide (concat = .noConcat))
    (o := ⟨.multipleFiles, some 78, some (ascii "multiple-files"), .flag, noValue⟩) (by simp [createDef, concatOpts]) (Or.inl rfl) (by simp)
  have h := h1.append (h2.append (h3.append (h4.append (h5.append (h6.append (h7.append (h8.append (h9.append (h10.append (h11.append h12))))))))))
  refine ⟨_, Or.inr ⟨_, _, o.infiles, h, rfl, ?_⟩⟩
  simp only [createUses, List.append_assoc]

theorem createUses_said (o : CreateOpts) (comp : Bytes) (concat : ConcatMode) : said (createUses o comp concat) = o.infiles := by
  simp only [createUses, said_append, optUse_said, flagUse_said, words_said, List.nil_append]

theorem createUses_allowed (ft : Features) {o : CreateOpts} (hs : o.Sayable) {v : Bytes} {comp : Compression} (hv : validUtf8 v = true)
    (hc : CompText ft v comp) (concat : ConcatMode) : Allowed (createDef ft) (createUses o v concat) where
  once := by
    apply once_of_keys
    have : ((createUses o v concat).filterMap Use.key).Sublist [.outfile, .stripPrefix, .baseDir, .fileList, .recurse, .noRecurse, .listCompressions,
        .force, .followSymlink, .compression, .twoFiles, .multipleFiles] := by
      simp only [createUses, List.filterMap_append, words_keys, List.append_nil]
      exact (optUse_keys _ _).append ((optUse_keys _ _).append ((optUse_keys _ _).append ((optUse_keys _ _).append ((flagUse_keys _ _).append
        ((flagUse_keys _ _).append ((flagUse_keys _ _).append ((flagUse_keys _ _).append ((flagUse_keys _ _).append ((optUse_keys _ _).append
        ((flagUse_keys _ _).append (flagUse_keys _ _)))))))))))
    exact List.Nodup.sublist this (by decide)
  values := by
    intro a w hm
    simp only [createUses, List.mem_append, optUse_mem, flagUse_value, List.mem_map, reduceCtorEq, and_false, exists_false, false_or, or_false] at hm
    rcases hm with ⟨rfl, h⟩ | ⟨rfl, h⟩ | ⟨rfl, h⟩ | ⟨rfl, h⟩ | ⟨rfl, h⟩
    · exact ⟨⟨.outfile, some 111, some (ascii "outfile"), .value, pathValue⟩, by simp [createDef], rfl, by simpa [pathValue] using hs.outfile w h⟩
    · exact ⟨⟨.stripPrefix, none, some (ascii "strip-prefix"), .value, textValue⟩, by simp [createDef], rfl, hs.stripPrefix w h⟩
    · exact ⟨⟨.baseDir, some 67, none, .value, pathValue⟩, by simp [createDef], rfl, by simpa [pathValue] using hs.baseDir w h⟩
    · exact ⟨⟨.fileList, some 76, some (ascii "file-list"), .value, pathValue⟩, by simp [createDef], rfl, by simpa [pathValue] using hs.fileList w h⟩
    · cases h
      exact ⟨⟨.compression, some 99, some (ascii "compression"), .value, fun v => (compressionValue ft v).isSome⟩, by simp [createDef], rfl,
        by simp [compressionValue_iff.mpr ⟨hv, hc⟩]⟩
  words := by
    intro i w hi
    rw [createUses_said] at hi
    exact Or.inr ⟨by simp [createDef], pathValue, rfl, by simpa [pathValue] using hs.infiles w (List.mem_of_getElem? hi)⟩

theorem createUses_means (ft : Features) {o : CreateOpts} {v : Bytes} {comp : Compression} (hv : validUtf8 v = true)
    (hc : CompText ft v comp) (concat : ConcatMode) : CreateSaid (createUses o v concat) o ∧ CompressionSaid ft (createUses o v concat) comp ∧
      ConcatSaid (createUses o v concat) concat := by
  have mv : ∀ a w, Use.value a w ∈ createUses o v concat ↔ (a = .outfile ∧ o.outfile = some w) ∨ (a = .stripPrefix ∧ o.stripPrefix = some w) ∨
      (a = .baseDir ∧ o.baseDir = some w) ∨ (a = .fileList ∧ o.fileList = some w) ∨ (a = .compression ∧ v = w) := by
    intro a w
    simp only [createUses, List.mem_append, optUse_mem, flagUse_value, List.mem_map, reduceCtorEq, and_false, exists_false, false_or, or_false,
      Option.some.injEq]
  have mf : ∀ a, Use.flag a ∈ createUses o v concat ↔ (a = .recurse ∧ o.recurse = true) ∨ (a = .noRecurse ∧ o.noRecurse = true) ∨
      (a = .listCompressions ∧ o.listCompressions = true) ∨ (a = .force ∧ o.force = true) ∨ (a = .followSymlink ∧ o.followSymlink = true) ∨
      (a = .twoFiles ∧ concat = .twoFiles) ∨ (a = .multipleFiles ∧ concat = .noConcat) := by
    intro a
    simp only [createUses, List.mem_append, optUse_flag, flagUse_mem, List.mem_map, reduceCtorEq, and_false, exists_false, false_or, or_false,
      decide_eq_true_eq]
  refine ⟨⟨?_, ?_, ?_, (createUses_said o v concat).symm, ?_, ?_, ?_, ?_, ?_, ?_⟩, Or.inl ⟨v, ?_, hv, hc⟩, ?_⟩
  all_goals first
    | (intro w; simp only [mv]; simp)
    | (unfold GivesFlag; simp only [mf]; simp)
    | (simp only [mv]; simp)
    | (unfold ConcatSaid; simp only [mf]; cases concat <;> simp)

/-- **C94: exactly the options that the rest of this development calls accepted can be given** to `arx create`, with values of their
kind, any compression of the build and any number of files. -/
theorem C94_create_options (ft : Features) (o : CreateOpts) (comp : Compression) (concat : ConcatMode) :
    (∃ argv, arxCli ft argv = .args ⟨none, none, some (.create o comp concat)⟩) ↔
      o.Accepted ∧ o.Sayable ∧ ∃ v, validUtf8 v = true ∧ CompText ft v comp := by
  constructor
  · rintro ⟨argv, h⟩
    obtain ⟨vs, sub, rest, _, _, _, l, hl, ha, hs, hacc, hcomp, _⟩ := (C94_command ft argv _).mp h
    have chk : ∀ (od : OptDef) v, od ∈ (createDef ft).opts → .value od.arg v ∈ l → od.check v = true := by
      intro od v hod hm
      obtain ⟨o', g1, g2, g3⟩ := ha.values _ _ hm
      rw [← (createDef_wf ft).args o' g1 od hod g2]; exact g3
    refine ⟨hacc, ⟨?_, ?_, ?_, ?_, ?_⟩, ?_⟩
    · intro v e
      have := chk ⟨.outfile, some 111, some (ascii "outfile"), .value, pathValue⟩ v (by simp [createDef]) ((hs.outfile v).mp e)
      simpa [pathValue] using this
    · intro v e
      exact chk ⟨.stripPrefix, none, some (ascii "strip-prefix"), .value, textValue⟩ v (by simp [createDef]) ((hs.stripPrefix v).mp e)
    · intro v e
      have := chk ⟨.baseDir, some 67, none, .value, pathValue⟩ v (by simp [createDef]) ((hs.baseDir v).mp e)
      simpa [pathValue] using this
    · intro v hm
      rw [hs.infiles] at hm
      obtain ⟨i, hi⟩ := List.mem_iff_getElem?.mp hm
      rcases ha.words i v hi with ⟨f, h, _⟩ | ⟨_, f, h, h'⟩
      · simp [createDef] at h
      · simp only [createDef, Option.some.injEq] at h
        subst h
        simpa [pathValue] using h'
    · intro v e
      have := chk ⟨.fileList, some 76, some (ascii "file-list"), .value, pathValue⟩ v (by simp [createDef]) ((hs.fileList v).mp e)
      simpa [pathValue] using this
    · rcases hcomp with ⟨v, _, h1, h2⟩ | ⟨_, h1, rfl⟩
      · exact ⟨v, h1, h2⟩
      · exact ⟨ascii "zstd", by decide, compText_iff.mp (by
          have := (compressionValue_zstd (ft := ft)).mpr ⟨h1, rfl⟩
          exact compText_iff.mpr (compressionValue_iff.mp this).2)⟩
  · rintro ⟨hacc, hs, v, hv, hc⟩
    obtain ⟨argv, hl⟩ := createUses_line ft o v concat
    obtain ⟨k1, k2, k3⟩ := createUses_means ft (o := o) hv hc concat
    exact ⟨ascii "create" :: argv, (C94_command ft _ _).mpr ⟨[], ascii "create", argv, rfl, by simp [OnlyVerbose], rfl, _, hl,
      createUses_allowed ft hs hv hc concat, k1, hacc, k2, k3⟩⟩

/-- The name of an overwrite mode. -/
def Overwrite.text : Overwrite → Bytes
  | .skip => ascii "skip"
  | .warn => ascii "warn"
  | .newer => ascii "newer"
  | .overwrite => ascii "overwrite"
  | .error => ascii "error"

/-- The uses that say the options of `arx extract`. -/
def extractUses (infile : Bytes) (o : ExtractOpts) : List Use :=
  optUse .outdir o.outdir ++ (optUse .rootDir o.rootDir ++ (optUse .fileList o.fileList ++ (flagUse .recurse o.recurse ++
  (flagUse .noRecurse o.noRecurse ++ (optUse .overwrite (some o.overwrite.text) ++ (infile :: o.files).map .word)))))

theorem extractUses_line (infile : Bytes) (o : ExtractOpts) : ∃ argv, Line extractDef argv (extractUses infile o) := by
  obtain ⟨w1, h1⟩ := optUse_pieces (c := extractDef) (v := o.outdir)
    (o := ⟨.outdir, some 67, none, .value, pathValue⟩) (by simp [extractDef]) (Or.inl rfl) (Or.inr (by simp))
  obtain ⟨w2, h2⟩ := optUse_pieces (c := extractDef) (v := o.rootDir)
    (o := ⟨.rootDir, none, some (ascii "root-dir"), .value, pathValue⟩) (by simp [extractDef]) (Or.inl rfl) (Or.inl (by simp))
  obtain ⟨w4, h4⟩ := optUse_pieces (c := extractDef) (v := o.fileList)
    (o := ⟨.fileList, some 76, some (ascii "file-list"), .value, pathValue⟩) (by simp [extractDef]) (Or.inl rfl) (Or.inl (by simp))
  obtain ⟨w5, h5⟩ := flagUse_pieces (c := extractDef) (b := o.recurse)
    (o := ⟨.recurse, some 114, some (ascii "recurse"), .flag, noValue⟩) (by simp [extractDef]) (Or.inl rfl) (by simp)
  obtain ⟨w6, h6⟩ := flagUse_pieces (c := extractDef) (b := o.noRecurse)
    (o := ⟨.noRecurse, none, some (ascii "no-recurse"), .flag, noValue⟩) (by simp [extractDef]) (Or.inl rfl) (by simp)
  obtain ⟨w7, h7⟩ := optUse_pieces (c := extractDef) (v := some o.overwrite.text)
    (o := ⟨.overwrite, none, some (ascii "overwrite"), .value, fun v => (overwriteValue v).isSome⟩) (by simp [extractDef]) (Or.inl rfl) (Or.inl (by simp))
  have h := h1.append (h2.append (h4.append (h5.append (h6.append h7))))
  refine ⟨_, Or.inr ⟨_, _, infile :: o.files, h, rfl, ?_⟩⟩
  simp only [extractUses, List.append_assoc]

theorem extractUses_said (infile : Bytes) (o : ExtractOpts) : said (extractUses infile o) = infile :: o.files := by
  simp only [extractUses, said_append, optUse_said, flagUse_said, words_said, List.nil_append]

theorem extractUses_allowed {infile : Bytes} (hi : infile ≠ []) {o : ExtractOpts} (hs : o.Sayable) : Allowed extractDef (extractUses infile o) where
  once := by
    apply once_of_keys
    have : ((extractUses infile o).filterMap Use.key).Sublist [.outdir, .rootDir, .fileList, .recurse, .noRecurse, .overwrite] := by
      simp only [extractUses, List.filterMap_append, words_keys, List.append_nil]
      exact (optUse_keys _ _).append ((optUse_keys _ _).append ((optUse_keys _ _).append ((flagUse_keys _ _).append
        ((flagUse_keys _ _).append (optUse_keys _ _)))))
    exact List.Nodup.sublist this (by decide)
  values := by
    intro a w hm
    simp only [extractUses, List.mem_append, optUse_mem, flagUse_value, List.mem_map, reduceCtorEq, and_false, exists_false, false_or, or_false] at hm
    rcases hm with ⟨rfl, h⟩ | ⟨rfl, h⟩ | ⟨rfl, h⟩ | ⟨rfl, h⟩
    · exact ⟨⟨.outdir, some 67, none, .value, pathValue⟩, by simp [extractDef], rfl, by simpa [pathValue] using hs.outdir w h⟩
    · exact ⟨⟨.rootDir, none, some (ascii "root-dir"), .value, pathValue⟩, by simp [extractDef], rfl, by simpa [pathValue] using hs.rootDir w h⟩
    · exact ⟨⟨.fileList, some 76, some (ascii "file-list"), .value, pathValue⟩, by simp [extractDef], rfl, by simpa [pathValue] using hs.fileList w h⟩
    · cases h
      exact ⟨⟨.overwrite, none, some (ascii "overwrite"), .value, fun v => (overwriteValue v).isSome⟩, by simp [extractDef], rfl,
        by cases o.overwrite <;> decide⟩
  words := by
    intro i w hw
    rw [extractUses_said] at hw
    cases i with
    | zero =>
      simp only [List.getElem?_cons_zero, Option.some.injEq] at hw
      subst hw
      exact Or.inl ⟨pathValue, rfl, by simpa [pathValue] using hi⟩
    | succ i =>
      rw [List.getElem?_cons_succ] at hw
      exact Or.inr ⟨by simp [extractDef], textValue, rfl, hs.files w (List.mem_of_getElem? hw)⟩

theorem extractUses_means (infile : Bytes) (o : ExtractOpts) : ExtractSaid (extractUses infile o) infile o := by
  have mv : ∀ a w, Use.value a w ∈ extractUses infile o ↔ (a = .outdir ∧ o.outdir = some w) ∨ (a = .rootDir ∧ o.rootDir = some w) ∨
      (a = .fileList ∧ o.fileList = some w) ∨ (a = .overwrite ∧ o.overwrite.text = w) := by
    intro a w
    simp only [extractUses, List.mem_append, optUse_mem, flagUse_value, List.mem_map, reduceCtorEq, and_false, exists_false, false_or, or_false,
      Option.some.injEq]
  have mf : ∀ a, Use.flag a ∈ extractUses infile o ↔ (a = .recurse ∧ o.recurse = true) ∨ (a = .noRecurse ∧ o.noRecurse = true) := by
    intro a
    simp only [extractUses, List.mem_append, optUse_flag, flagUse_mem, List.mem_map, reduceCtorEq, and_false, exists_false, false_or, or_false]
  refine ⟨Or.inl ⟨fun v => by simp only [mv]; simp, extractUses_said infile o⟩, ?_, ?_, ?_, ?_, ?_, ?_⟩
  · intro w; simp only [mv]; simp
  · intro w; simp only [mv]; simp
  · intro w; simp only [mv]; simp
  · unfold GivesFlag; simp only [mf]; simp
  · unfold GivesFlag; simp only [mf]; simp
  · unfold OverwriteSaid
    simp only [mv]
    cases o.overwrite <;> simp [Overwrite.text]

/-- **C94: exactly the accepted options of `arx extract` can be given.** -/
theorem C94_extract_options (ft : Features) (infile : Bytes) (o : ExtractOpts) :
    (∃ argv, arxCli ft argv = .args ⟨none, none, some (.extract infile o)⟩) ↔ o.Accepted ∧ o.Sayable ∧ infile ≠ [] := by
  constructor
  · rintro ⟨argv, h⟩
    obtain ⟨vs, sub, rest, _, _, _, l, hl, ha, hs, hacc⟩ := (C94_command ft argv _).mp h
    have chk : ∀ (od : OptDef) v, od ∈ extractDef.opts → .value od.arg v ∈ l → od.check v = true := by
      intro od v hod hm
      obtain ⟨o', g1, g2, g3⟩ := ha.values _ _ hm
      rw [← extractDef_wf.args o' g1 od hod g2]; exact g3
    refine ⟨hacc, ⟨?_, ?_, ?_, ?_⟩, ?_⟩
    · intro v e
      have := chk ⟨.outdir, some 67, none, .value, pathValue⟩ v (by simp [extractDef]) ((hs.outdir v).mp e)
      simpa [pathValue] using this
    · intro v hm
      rcases hs.archive with ⟨_, h2⟩ | ⟨_, _, h3⟩
      · obtain ⟨i, hi⟩ := List.mem_iff_getElem?.mp hm
        rcases ha.words (i + 1) v (by rw [h2, List.getElem?_cons_succ]; exact hi) with ⟨f, h, _⟩ | ⟨_, f, h, h'⟩
        · simp [extractDef] at h
        · simp only [extractDef, Option.some.injEq] at h
          subst h; exact h'
      · rw [h3] at hm; simp at hm
    · intro v e
      have := chk ⟨.rootDir, none, some (ascii "root-dir"), .value, pathValue⟩ v (by simp [extractDef]) ((hs.rootDir v).mp e)
      simpa [pathValue] using this
    · intro v e
      have := chk ⟨.fileList, some 76, some (ascii "file-list"), .value, pathValue⟩ v (by simp [extractDef]) ((hs.fileList v).mp e)
      simpa [pathValue] using this
    · rcases hs.archive with ⟨_, h2⟩ | ⟨h1, _⟩
      · rcases ha.words 0 infile (by rw [h2]; rfl) with ⟨f, h, h'⟩ | ⟨h, _⟩
        · simp only [extractDef, List.getElem?_cons_zero, Option.some.injEq] at h
          subst h
          simpa [pathValue] using h'
        · simp [extractDef] at h
      · have := chk ⟨.infileOld, some 102, some (ascii "file"), .value, pathValue⟩ infile (by simp [extractDef]) h1
        simpa [pathValue] using this
  · rintro ⟨hacc, hs, hi⟩
    obtain ⟨argv, hl⟩ := extractUses_line infile o
    exact ⟨ascii "extract" :: argv, (C94_command ft _ _).mpr ⟨[], ascii "extract", argv, rfl, by simp [OnlyVerbose], rfl, _, hl,
      extractUses_allowed hi hs, extractUses_means infile o, hacc⟩⟩

/-! ## The order of the arguments -/

theorem SameUses.symm {l l' : List Use} (h : SameUses l l') : SameUses l' l := ⟨h.1.symm, h.2.symm⟩

theorem SameUses.value {l l' : List Use} (h : SameUses l l') {a : Arg} {r : Option Bytes} (g : GivesValue l a r) : GivesValue l' a r :=
  fun v => (g v).trans h.1.mem_iff

theorem SameUses.flag {l l' : List Use} (h : SameUses l l') {a : Arg} {b : Bool} (g : GivesFlag l a b) : GivesFlag l' a b := g.trans h.1.mem_iff

theorem SameUses.allowed {c : CmdDef} {l l' : List Use} (h : SameUses l l') (ha : Allowed c l) : Allowed c l' where
  once := (List.Perm.pairwise_iff (fun hr o ho h1 h2 h3 h4 => hr o ho h1 h2 h4 h3) h.1).mp ha.once
  values := fun a v hm => ha.values a v (h.1.mem_iff.mpr hm)
  words := fun i w hi => ha.words i w (by rw [h.2]; exact hi)

theorem Means.reorder {ft : Features} {sub : Bytes} {argv argv' : List Bytes} {l l' : List Use} (hsub : sub ∈ arxSubs)
    (h : Line (subDef ft sub).1 argv l) (h' : Line (subDef ft sub).1 argv' l') (ha : Allowed (subDef ft sub).1 l) (hs : SameUses l l') {cli : Cli}
    (hm : Means ft sub argv cli) : Means ft sub argv' cli := by
  have uniq : ∀ {c : CmdDef}, c.WF → (subDef ft sub).1 = c → ∀ {l1}, Line c argv l1 → Allowed c l1 → l1 = l := by
    intro c W e l1 h1 h2
    have r1 := W.read_iff.mpr ⟨h1, h2⟩
    have r2 := W.read_iff.mpr ⟨e ▸ h, e ▸ ha⟩
    rw [r1] at r2
    exact Read.uses.inj r2
  cases cli with
  | create o comp concat =>
    obtain ⟨rfl, l1, g1, g2, k1, k2, k3, k4⟩ := hm
    have e : (subDef ft (ascii "create")).1 = createDef ft := by simp [subDef]
    have := uniq (createDef_wf ft) e g1 g2; subst this
    refine ⟨rfl, l', e ▸ h', hs.allowed g2, ⟨hs.value k1.outfile, hs.value k1.stripPrefix, hs.value k1.baseDir, by rw [k1.infiles, hs.2],
      hs.value k1.fileList, hs.flag k1.recurse, hs.flag k1.noRecurse, hs.flag k1.listCompressions, hs.flag k1.force, hs.flag k1.followSymlink⟩, k2, ?_, ?_⟩
    · simpa only [CompressionSaid, ← hs.1.mem_iff] using k3
    · simpa only [ConcatSaid, ← hs.1.mem_iff] using k4
  | list i st =>
    obtain ⟨rfl, l1, g1, g2, k1, k2⟩ := hm
    have e : (subDef ft (ascii "list")).1 = listDef := by simp [subDef, show ascii "list" ≠ ascii "create" by decide]
    have := uniq listDef_wf e g1 g2; subst this
    refine ⟨rfl, l', e ▸ h', hs.allowed g2, by rw [← hs.2]; exact k1, ?_⟩
    simpa only [← hs.1.mem_iff] using k2
  | dump i p out =>
    obtain ⟨rfl, l1, g1, g2, k⟩ := hm
    have e : (subDef ft (ascii "dump")).1 = dumpDef := by
      simp [subDef, show ascii "dump" ≠ ascii "create" by decide, show ascii "dump" ≠ ascii "list" by decide]
    have := uniq dumpDef_wf e g1 g2; subst this
    refine ⟨rfl, l', e ▸ h', hs.allowed g2, ?_⟩
    unfold DumpSaid at k ⊢; rw [← hs.2]; exact k
  | extract i o =>
    obtain ⟨rfl, l1, g1, g2, k1, k2⟩ := hm
    have e : (subDef ft (ascii "extract")).1 = extractDef := by
      simp [subDef, show ascii "extract" ≠ ascii "create" by decide, show ascii "extract" ≠ ascii "list" by decide,
        show ascii "extract" ≠ ascii "dump" by decide]
    have := uniq extractDef_wf e g1 g2; subst this
    refine ⟨rfl, l', e ▸ h', hs.allowed g2, ⟨?_, hs.value k1.outdir, hs.value k1.rootDir, hs.value k1.fileList, hs.flag k1.recurse,
      hs.flag k1.noRecurse, ?_⟩, k2⟩
    · simpa only [← hs.1.mem_iff, ← hs.2] using k1.archive
    · simpa only [OverwriteSaid, ← hs.1.mem_iff] using k1.overwrite
  | mount o =>
    obtain ⟨rfl, l1, g1, g2, k⟩ := hm
    have e : (subDef ft (ascii "mount")).1 = mountDef := by
      simp [subDef, show ascii "mount" ≠ ascii "create" by decide, show ascii "mount" ≠ ascii "list" by decide,
        show ascii "mount" ≠ ascii "dump" by decide, show ascii "mount" ≠ ascii "extract" by decide]
    have := uniq mountDef_wf e g1 g2; subst this
    exact ⟨rfl, l', e ▸ h', hs.allowed g2, by rw [← hs.2]; exact k.words, hs.value k.rootDir, hs.flag k.foreground⟩

theorem arxCli_sub {ft : Features} {sub : Bytes} (hsub : sub ∈ arxSubs) {argv : List Bytes} {cli : Cli} :
    arxCli ft (sub :: argv) = .args ⟨none, none, some cli⟩ ↔ Means ft sub argv cli := by
  rw [C94_command]
  constructor
  · rintro ⟨vs, sub', rest, e, h1, h2⟩
    cases vs with
    | nil => simp only [List.nil_append, List.cons.injEq] at e; obtain ⟨rfl, rfl⟩ := e; exact h2
    | cons v vs =>
      simp only [List.cons_append, List.cons.injEq] at e
      obtain ⟨rfl, _⟩ := e
      exfalso
      have hne : ∀ b ∈ arxSubs, b.head? ≠ some 45 := by decide
      rcases h1 sub (by simp) with e | ⟨k, e⟩
      · exact hne sub hsub (by rw [e]; rfl)
      · exact hne sub hsub (by rw [e]; rfl)
  · intro h; exact ⟨[], sub, argv, rfl, by simp [OnlyVerbose], h⟩

/-- **C94: the order of the arguments does not matter** (that of the words does). -/
theorem C94_order (ft : Features) {sub : Bytes} {argv argv' : List Bytes} {l l' : List Use} (hsub : sub ∈ arxSubs)
    (h : Line (subDef ft sub).1 argv l) (h' : Line (subDef ft sub).1 argv' l') (ha : Allowed (subDef ft sub).1 l) (hs : SameUses l l') (cli : Cli) :
    arxCli ft (sub :: argv) = .args ⟨none, none, some cli⟩ ↔ arxCli ft (sub :: argv') = .args ⟨none, none, some cli⟩ := by
  rw [arxCli_sub hsub, arxCli_sub hsub]
  exact ⟨Means.reorder hsub h h' ha hs, Means.reorder hsub h' h (hs.allowed ha) hs.symm⟩

/-- the hypotheses are met by `list a --verbose` and `list --verbose a` -/
example : ascii "list" ∈ arxSubs ∧ Line (subDef allFeatures (ascii "list")).1 [ascii "a", ascii "--verbose"] [.word (ascii "a"), .flag .verbose] ∧
    Line (subDef allFeatures (ascii "list")).1 [ascii "--verbose", ascii "a"] [.flag .verbose, .word (ascii "a")] ∧
    Allowed (subDef allFeatures (ascii "list")).1 [.word (ascii "a"), .flag .verbose] ∧
    SameUses [.word (ascii "a"), .flag .verbose] [.flag .verbose, .word (ascii "a")] := by
  have e : (subDef allFeatures (ascii "list")).1 = listDef := by rfl
  have hw : Piece listDef [ascii "a"] [.word (ascii "a")] := .word (Or.inl (by decide))
  have hf : Piece listDef [ascii "--verbose"] [.flag .verbose] :=
    .long (o := verboseOpt) (n := ascii "verbose") (by simp [listDef]) rfl (Or.inr rfl)
  rw [e]
  refine ⟨by decide, Or.inl (.cons hw (.cons hf .nil)), Or.inl (.cons hf (.cons hw .nil)), ⟨?_, ?_, ?_⟩, ?_, rfl⟩
  · simp [Use.Of]
  · intro a v h; simp at h
  · intro i w h
    cases i with
    | zero => simp [said, Use.text] at h; subst h; exact Or.inl ⟨pathValue, rfl, by decide⟩
    | succ i => simp [said, Use.text, List.filterMap_cons] at h
  · exact List.Perm.swap _ _ _

/-! ## Help -/

theorem subDef_wf (ft : Features) (sub : Bytes) : (subDef ft sub).1.WF := by
  unfold subDef
  split
  · exact createDef_wf ft
  · split
    · exact listDef_wf
    · split
      · exact dumpDef_wf
      · split
        · exact extractDef_wf
        · exact mountDef_wf

/-- **C94: help is printed exactly if it is asked for**, before anything that is wrong. -/
theorem C94_help (ft : Features) {sub : Bytes} (hsub : sub ∈ arxSubs) (argv : List Bytes) :
    arxCli ft (sub :: argv) = .help ↔ ∃ ws us w rest, argv = ws ++ w :: rest ∧ Pieces (subDef ft sub).1 ws us ∧ Allowed (subDef ft sub).1 us ∧
      AsksHelp (subDef ft sub).1 us w := by
  obtain ⟨l, g1, _⟩ := arx_verbose_read (vs := []) (by simp [OnlyVerbose]) hsub argv []
  rw [List.nil_append] at g1
  rw [← (subDef_wf ft sub).help_iff]
  unfold arxCli
  simp only [g1]
  cases hs : (subDef ft sub).1.read [] none argv with
  | usage => simp
  | help => simp
  | sub _ _ _ => simp
  | uses l' =>
    simp only [reduceCtorEq, iff_false]
    cases (subDef ft sub).2 l' <;> simp

/-! ## The other programs -/

theorem toolOf_iff {ft : Features} {c : CmdDef} (W : c.WF) (ho : ∀ o ∈ toolOpts ft, o ∈ c.opts) (hw : c.words.length = 1) (hr : c.rest = none)
    {argv : List Bytes} {l : List Use} (hl : Line c argv l) (ha : Allowed c l)
    {input out : Option Bytes} {comp : Compression} {concat : ConcatMode} :
    (concatOf l = some concat ∧ compressionOf ft l = some comp ∧ (wordsOf l).head? = input ∧ valueOf l .outfile = out ↔ ToolSaid ft l input out comp concat) ∧
      (printAsked l = true ↔ OtherSaid l) := by
  have gout := ha.gives (o := ⟨.outfile, some 111, some (ascii "outfile"), .value, pathValue⟩) (ho _ (by simp [toolOpts])) rfl
  have gcomp := ha.gives (o := ⟨.compression, some 99, some (ascii "compression"), .value, fun v => (compressionValue ft v).isSome⟩)
    (ho _ (by simp [toolOpts])) rfl
  have f1 := W.gives_flag ha (o := ⟨.oneFile, some 49, some (ascii "one-file"), .flag, noValue⟩) (ho _ (by simp [toolOpts, concatOpts])) rfl
  have f2 := W.gives_flag ha (o := ⟨.twoFiles, some 50, some (ascii "two-files"), .flag, noValue⟩) (ho _ (by simp [toolOpts, concatOpts])) rfl
  have f3 := W.gives_flag ha (o := ⟨.multipleFiles, some 78, some (ascii "multiple-files"), .flag, noValue⟩) (ho _ (by simp [toolOpts, concatOpts])) rfl
  have flc := W.gives_flag ha (o := ⟨.listCompressions, none, some (ascii "list-compressions"), .flag, noValue⟩) (ho _ (by simp [toolOpts])) rfl
  have fman := W.gives_flag ha (o := ⟨.manPage, none, some (ascii "generate-man-page"), .flag, noValue⟩) (ho _ (by simp [toolOpts])) rfl
  have ucomp := W.used_value hl.known (o := ⟨.complete, none, some (ascii "generate-complete"), .value, shellValue⟩) (ho _ (by simp [toolOpts])) rfl
  have hone : ∀ a b t, said l ≠ a :: b :: t := by
    intro a b t e
    rcases ha.words 1 b (by rw [e]; rfl) with ⟨f, h, _⟩ | ⟨_, f, h, _⟩
    · rw [List.getElem?_eq_none (by omega)] at h; cases h
    · rw [hr] at h; cases h
  refine ⟨⟨?_, ?_⟩, ?_⟩
  · rintro ⟨h1, h2, h3, h4⟩
    refine ⟨?_, by rw [← h4]; exact gout, (compressionOf_iff gcomp).mp h2, (concatOf_iff f1 f2 f3).mp h1⟩
    rw [wordsOf_eq] at h3
    match hs : said l with
    | [] => rw [hs] at h3; simp at h3; rw [← h3]; rfl
    | [a] => rw [hs] at h3; simp at h3; rw [← h3]; rfl
    | a :: b :: t => exact absurd hs (hone a b t)
  · rintro ⟨h1, h2, h3, h4⟩
    refine ⟨(concatOf_iff f1 f2 f3).mpr h4, (compressionOf_iff gcomp).mpr h3, ?_, gout.unique h2⟩
    rw [wordsOf_eq, h1]
    cases input <;> rfl
  · unfold printAsked OtherSaid
    unfold GivesFlag at flc fman
    rw [Bool.or_eq_true, Bool.or_eq_true, flc, fman, ucomp, or_assoc]

/-- **C94: `tar2arx`** converts exactly if its line is allowed and asks for nothing else. -/
theorem C94_tar2arx (ft : Features) (argv : List Bytes) (input out : Option Bytes) (comp : Compression) (concat : ConcatMode) :
    tarCli ft argv = .convert input out comp concat ↔
      ∃ l, Line (tarDef ft) argv l ∧ Allowed (tarDef ft) l ∧ ToolSaid ft l input out comp concat ∧ ¬ OtherSaid l := by
  have W := tarDef_wf ft
  unfold tarCli
  constructor
  · intro h
    cases hr : (tarDef ft).read [] none argv with
    | usage => simp [hr] at h
    | help => simp [hr] at h
    | sub _ _ _ => simp [hr] at h
    | uses l =>
      obtain ⟨g1, g2⟩ := W.read_iff.mp hr
      obtain ⟨k1, k2⟩ := toolOf_iff (ft := ft) W (fun _ ho => ho) rfl rfl g1 g2 (input := input) (out := out) (comp := comp) (concat := concat)
      simp only [hr] at h
      cases hc : concatOf l with
      | none => simp [hc] at h
      | some cc =>
        cases hp : compressionOf ft l with
        | none => simp [hc, hp] at h
        | some pp =>
          simp only [hc, hp] at h
          split at h
          · cases h
          · rename_i hpr
            simp only [ToolOut.convert.injEq] at h
            obtain ⟨e1, e2, e3, e4⟩ := h
            subst e3 e4
            exact ⟨l, g1, g2, k1.mp ⟨hc, hp, e1, e2⟩, fun ho => hpr (k2.mpr ho)⟩
  · rintro ⟨l, g1, g2, g3, g4⟩
    obtain ⟨k1, k2⟩ := toolOf_iff (ft := ft) W (fun _ ho => ho) rfl rfl g1 g2 (input := input) (out := out) (comp := comp) (concat := concat)
    obtain ⟨e1, e2, e3, e4⟩ := k1.mpr g3
    simp only [W.read_iff.mpr ⟨g1, g2⟩, e1, e2]
    rw [if_neg (fun h => g4 (k2.mp h)), e3, e4]

/-- **C94: `zip2arx`** also needs both files. -/
theorem C94_zip2arx (ft : Features) (argv : List Bytes) (input out : Option Bytes) (comp : Compression) (concat : ConcatMode) :
    zipCli ft argv = .convert input out comp concat ↔
      input ≠ none ∧ out ≠ none ∧ ∃ l, Line (zipDef ft) argv l ∧ Allowed (zipDef ft) l ∧ ToolSaid ft l input out comp concat ∧ ¬ OtherSaid l := by
  have W := zipDef_wf ft
  unfold zipCli
  constructor
  · intro h
    cases hr : (zipDef ft).read [] none argv with
    | usage => simp [hr] at h
    | help => simp [hr] at h
    | sub _ _ _ => simp [hr] at h
    | uses l =>
      obtain ⟨g1, g2⟩ := W.read_iff.mp hr
      obtain ⟨k1, k2⟩ := toolOf_iff (ft := ft) W (fun _ ho => ho) rfl rfl g1 g2 (input := input) (out := out) (comp := comp) (concat := concat)
      simp only [hr] at h
      cases hc : concatOf l with
      | none => simp [hc] at h
      | some cc =>
        cases hp : compressionOf ft l with
        | none => simp [hc, hp] at h
        | some pp =>
          simp only [hc, hp] at h
          split at h
          · cases h
          · rename_i hpr
            split at h
            · cases h
            · rename_i hno
              simp only [not_or] at hno
              simp only [ToolOut.convert.injEq] at h
              obtain ⟨e1, e2, e3, e4⟩ := h
              subst e3 e4
              exact ⟨by rw [← e1]; exact hno.1, by rw [← e2]; exact hno.2, l, g1, g2, k1.mp ⟨hc, hp, e1, e2⟩, fun ho => hpr (k2.mpr ho)⟩
  · rintro ⟨n1, n2, l, g1, g2, g3, g4⟩
    obtain ⟨k1, k2⟩ := toolOf_iff (ft := ft) W (fun _ ho => ho) rfl rfl g1 g2 (input := input) (out := out) (comp := comp) (concat := concat)
    obtain ⟨e1, e2, e3, e4⟩ := k1.mpr g3
    simp only [W.read_iff.mpr ⟨g1, g2⟩, e1, e2]
    rw [if_neg (fun h => g4 (k2.mp h)), e3, e4, if_neg (by rintro (h | h); exact n1 h; exact n2 h)]

/-- **C94: `mount.fuse.arx`** takes the archive, the mount point and any number of `-o`. -/
theorem C94_mount_fuse (argv : List Bytes) (infile dir : Bytes) (opts : List Bytes) :
    fuseCli argv = some (infile, dir, opts) ↔
      ∃ l, Line fuseDef argv l ∧ Allowed fuseDef l ∧ said l = [infile, dir] ∧ opts = givenTexts l .option := by
  have W := fuseDef_wf
  have gt : ∀ l, optValues l .option = givenTexts l .option := by
    intro l
    unfold optValues givenTexts
    congr 1
  unfold fuseCli
  constructor
  · intro h
    cases hr : fuseDef.read [] none argv with
    | usage => simp [hr] at h
    | help => simp [hr] at h
    | sub _ _ _ => simp [hr] at h
    | uses l =>
      obtain ⟨g1, g2⟩ := W.read_iff.mp hr
      simp only [hr, wordsOf_eq] at h
      split at h
      · rename_i a b e
        simp only [Option.some.injEq, Prod.mk.injEq] at h
        obtain ⟨rfl, rfl, rfl⟩ := h
        exact ⟨l, g1, g2, e, gt l⟩
      · cases h
  · rintro ⟨l, g1, g2, g3, rfl⟩
    simp only [W.read_iff.mpr ⟨g1, g2⟩, wordsOf_eq, g3, gt]

/-- **C94: the self mounting executable** takes the mount point. -/
theorem C94_auto_mount (argv : List Bytes) (dir : Bytes) :
    autoCli argv = some dir ↔ ∃ l, Line autoDef argv l ∧ Allowed autoDef l ∧ said l = [dir] := by
  have W := autoDef_wf
  unfold autoCli
  constructor
  · intro h
    cases hr : autoDef.read [] none argv with
    | usage => simp [hr] at h
    | help => simp [hr] at h
    | sub _ _ _ => simp [hr] at h
    | uses l =>
      obtain ⟨g1, g2⟩ := W.read_iff.mp hr
      simp only [hr, wordsOf_eq] at h
      split at h
      · rename_i a e
        simp only [Option.some.injEq] at h
        subst h
        exact ⟨l, g1, g2, e⟩
      · cases h
  · rintro ⟨l, g1, g2, g3⟩
    simp only [W.read_iff.mpr ⟨g1, g2⟩, wordsOf_eq, g3]

/-! ## The options of the other commands -/

/-- **C94: the options are those of the help**, of every program. -/
theorem C94_tables (ft : Features) : arxDef.HasHelp arxHelp ∧ (createDef ft).HasHelp createHelp ∧ listDef.HasHelp listHelp ∧ dumpDef.HasHelp dumpHelp ∧
    extractDef.HasHelp extractHelp ∧ mountDef.HasHelp mountHelp ∧ (tarDef ft).HasHelp toolHelp ∧ (zipDef ft).HasHelp toolHelp ∧
    fuseDef.HasHelp fuseHelp ∧ autoDef.HasHelp [(ascii "-v, --verbose...", .verbose), (ascii "-h, --help", .help), (ascii "-V, --version", .version)] ∧
    arxDef.subs = [ascii "create", ascii "list", ascii "dump", ascii "extract", ascii "mount"] := by
  refine ⟨rfl, rfl, rfl, rfl, rfl, rfl, rfl, rfl, rfl, rfl, rfl⟩

/-- A text of a number below 1000. -/
def threeDigits (n : Nat) : Bytes := [UInt8.ofNat (48 + n / 100), UInt8.ofNat (48 + n / 10 % 10), UInt8.ofNat (48 + n % 10)]

theorem threeDigits_u8 : ∀ n < 256, u8Value (threeDigits n) = some n := by decide +kernel

theorem wordAt_two {c : CmdDef} {l : List Use} (ha : Allowed c l) {i : Nat} {w : Bytes} (hw : (said l)[i]? = some w) {f : Bytes → Bool}
    (hf : c.words[i]? = some f) : f w = true := by
  rcases ha.words i w hw with ⟨g, h, h'⟩ | ⟨h, _⟩
  · rw [hf] at h; cases h; exact h'
  · have := (List.getElem?_eq_some_iff.mp hf).1
    omega

/-- **C94: the options of `arx list` that can be given**: a number below 256. -/
theorem C94_list_options (ft : Features) (infile : Bytes) (st : Option Nat) :
    (∃ argv, arxCli ft argv = .args ⟨none, none, some (.list infile st)⟩) ↔ infile ≠ [] ∧ ∀ n, st = some n → n ≤ 255 := by
  constructor
  · rintro ⟨argv, h⟩
    obtain ⟨vs, sub, rest, _, _, _, l, hl, ha, hs, hn⟩ := (C94_command ft argv _).mp h
    refine ⟨?_, fun n e => ?_⟩
    · have := wordAt_two ha (i := 0) (w := infile) (by rw [hs]; rfl) (f := pathValue) rfl
      simpa [pathValue] using this
    · obtain ⟨v, h1, h2⟩ := (hn n).mp e
      obtain ⟨o, g1, g2, g3⟩ := ha.values _ _ h1
      have e : o = ⟨.stableOutput, none, some (ascii "stable-output"), .value, fun v => (u8Value v).isSome⟩ :=
        listDef_wf.args o g1 _ (by simp [listDef]) g2
      subst e
      obtain ⟨k, hk⟩ := Option.isSome_iff_exists.mp g3
      obtain ⟨k1, k2⟩ := u8Value_iff.mp hk
      have : (k : Int) = n := by
        have a1 := readInt_iff.mpr k1
        have a2 := readInt_iff.mpr h2
        rw [a1] at a2; exact Option.some.inj a2
      omega
  · rintro ⟨hi, hn⟩
    obtain ⟨w1, h1⟩ := optUse_pieces (c := listDef) (v := st.map threeDigits)
      (o := ⟨.stableOutput, none, some (ascii "stable-output"), .value, fun v => (u8Value v).isSome⟩) (by simp [listDef]) (Or.inl rfl) (Or.inl (by simp))
    refine ⟨ascii "list" :: (w1 ++ ascii "--" :: [infile]), (C94_command ft _ _).mpr ⟨[], ascii "list", _, rfl, by simp [OnlyVerbose], rfl, _,
      Or.inr ⟨_, _, [infile], h1, rfl, rfl⟩, ⟨?_, ?_, ?_⟩, ?_, ?_⟩⟩
    · apply once_of_keys
      rw [List.filterMap_append, words_keys, List.append_nil]
      exact List.Nodup.sublist (optUse_keys _ _) (by simp)
    · intro a v hm
      simp only [List.mem_append, optUse_mem, List.map_cons, List.map_nil, List.mem_singleton, reduceCtorEq, or_false, Option.map_eq_some_iff] at hm
      obtain ⟨rfl, n, h1, rfl⟩ := hm
      exact ⟨⟨.stableOutput, none, some (ascii "stable-output"), .value, fun v => (u8Value v).isSome⟩, by simp [listDef], rfl,
        by simp only [threeDigits_u8 n (by have := hn n h1; omega)]; rfl⟩
    · intro i w hw
      rw [said_append, optUse_said, words_said, List.nil_append] at hw
      cases i with
      | zero =>
        simp only [List.getElem?_cons_zero, Option.some.injEq] at hw
        subst hw
        exact Or.inl ⟨pathValue, rfl, by simpa [pathValue] using hi⟩
      | succ i => simp at hw
    · rw [said_append, optUse_said, words_said]; rfl
    · intro n
      constructor
      · intro e
        have hlt := hn n e
        refine ⟨threeDigits n, ?_, (u8Value_iff.mp (threeDigits_u8 n (by omega))).1⟩
        simp [optUse_mem, e]
      · rintro ⟨v, hm, hv⟩
        simp only [List.mem_append, optUse_mem, List.map_cons, List.map_nil, List.mem_singleton, reduceCtorEq, or_false, Option.map_eq_some_iff, true_and] at hm
        obtain ⟨k, h1, rfl⟩ := hm
        have hlt := hn k h1
        have a1 := readInt_iff.mpr (u8Value_iff.mp (threeDigits_u8 k (by omega))).1
        have a2 := readInt_iff.mpr hv
        rw [a1] at a2
        have := Option.some.inj a2
        rw [h1]; congr; omega

/-- **C94: the arguments of `arx dump` that can be given.** -/
theorem C94_dump_options (ft : Features) (infile path : Bytes) (out : Option Bytes) :
    (∃ argv, arxCli ft argv = .args ⟨none, none, some (.dump infile path out)⟩) ↔
      infile ≠ [] ∧ validUtf8 path = true ∧ ∀ v, out = some v → validUtf8 v = true := by
  constructor
  · rintro ⟨argv, h⟩
    obtain ⟨vs, sub, rest, _, _, _, l, hl, ha, hs⟩ := (C94_command ft argv _).mp h
    have hs' : said l = infile :: path :: out.toList := hs
    refine ⟨?_, ?_, ?_⟩
    · have := wordAt_two ha (i := 0) (w := infile) (by rw [hs']; rfl) (f := pathValue) rfl
      simpa [pathValue] using this
    · exact wordAt_two ha (i := 1) (w := path) (by rw [hs']; rfl) (f := textValue) rfl
    · rintro v rfl
      exact wordAt_two ha (i := 2) (w := v) (by rw [hs']; rfl) (f := textValue) rfl
  · rintro ⟨h1, h2, h3⟩
    refine ⟨ascii "dump" :: ([] ++ ascii "--" :: (infile :: path :: out.toList)), (C94_command ft _ _).mpr ⟨[], ascii "dump", _, rfl, by simp [OnlyVerbose], rfl, _,
      Or.inr ⟨_, _, _, .nil, rfl, rfl⟩, ⟨?_, ?_, ?_⟩, ?_⟩⟩
    · apply once_of_keys
      rw [List.nil_append, words_keys]; exact .nil
    · intro a v hm
      simp at hm
    · intro i w hw
      rw [List.nil_append, words_said] at hw
      match i, hw with
      | 0, hw =>
        simp only [List.getElem?_cons_zero, Option.some.injEq] at hw
        subst hw
        exact Or.inl ⟨pathValue, rfl, by simpa [pathValue] using h1⟩
      | 1, hw =>
        simp only [List.getElem?_cons_succ, List.getElem?_cons_zero, Option.some.injEq] at hw
        subst hw
        exact Or.inl ⟨textValue, rfl, h2⟩
      | i + 2, hw =>
        cases out with
        | none => simp at hw
        | some v =>
          cases i with
          | zero =>
            simp only [Option.toList, List.getElem?_cons_succ, List.getElem?_cons_zero, Option.some.injEq] at hw
            subst hw
            exact Or.inl ⟨textValue, rfl, h3 v rfl⟩
          | succ i => simp at hw
    · show said _ = _
      rw [List.nil_append, words_said]

/-- **C94: the options of `arx mount` that can be given.** -/
theorem C94_mount_options (ft : Features) (o : MountOpts) :
    (∃ argv, arxCli ft argv = .args ⟨none, none, some (.mount o)⟩) ↔
      o.infile ≠ [] ∧ (∀ v, o.mountdir = some v → v ≠ []) ∧ ∀ v, o.rootDir = some v → v ≠ [] := by
  constructor
  · rintro ⟨argv, h⟩
    obtain ⟨vs, sub, rest, _, _, _, l, hl, ha, hs⟩ := (C94_command ft argv _).mp h
    refine ⟨?_, ?_, ?_⟩
    · have := wordAt_two ha (i := 0) (w := o.infile) (by rw [hs.words]; rfl) (f := pathValue) rfl
      simpa [pathValue] using this
    · intro v e
      have := wordAt_two ha (i := 1) (w := v) (by rw [hs.words, e]; rfl) (f := pathValue) rfl
      simpa [pathValue] using this
    · intro v e
      obtain ⟨od, g1, g2, g3⟩ := ha.values _ _ ((hs.rootDir v).mp e)
      have e : od = ⟨.rootDir, none, some (ascii "root-dir"), .value, pathValue⟩ := mountDef_wf.args od g1 _ (by simp [mountDef]) g2
      subst e
      simpa [pathValue] using g3
  · rintro ⟨h1, h2, h3⟩
    obtain ⟨w1, p1⟩ := optUse_pieces (c := mountDef) (v := o.rootDir)
      (o := ⟨.rootDir, none, some (ascii "root-dir"), .value, pathValue⟩) (by simp [mountDef]) (Or.inl rfl) (Or.inl (by simp))
    obtain ⟨w2, p2⟩ := flagUse_pieces (c := mountDef) (b := o.foreground)
      (o := ⟨.foreground, some 102, some (ascii "foreground"), .flag, noValue⟩) (by simp [mountDef]) (Or.inl rfl) (by simp)
    have hsaid : said ((optUse .rootDir o.rootDir ++ flagUse .foreground o.foreground) ++ (o.infile :: o.mountdir.toList).map .word) =
        o.infile :: o.mountdir.toList := by
      rw [said_append, said_append, optUse_said, flagUse_said, words_said]; rfl
    refine ⟨ascii "mount" :: ((w1 ++ w2) ++ ascii "--" :: (o.infile :: o.mountdir.toList)), (C94_command ft _ _).mpr ⟨[], ascii "mount", _, rfl,
      by simp [OnlyVerbose], rfl, _, Or.inr ⟨_, _, _, p1.append p2, rfl, rfl⟩, ⟨?_, ?_, ?_⟩, ⟨hsaid, ?_, ?_⟩⟩⟩
    · apply once_of_keys
      rw [List.filterMap_append, List.filterMap_append, words_keys, List.append_nil]
      exact List.Nodup.sublist ((optUse_keys _ _).append (flagUse_keys _ _)) (by decide)
    · intro a v hm
      simp only [List.mem_append, optUse_mem, flagUse_value, List.mem_map, reduceCtorEq, and_false, exists_false, or_false] at hm
      obtain ⟨rfl, e⟩ := hm
      exact ⟨⟨.rootDir, none, some (ascii "root-dir"), .value, pathValue⟩, by simp [mountDef], rfl, by simpa [pathValue] using h3 v e⟩
    · intro i w hw
      rw [hsaid] at hw
      match i, hw with
      | 0, hw =>
        simp only [List.getElem?_cons_zero, Option.some.injEq] at hw
        subst hw
        exact Or.inl ⟨pathValue, rfl, by simpa [pathValue] using h1⟩
      | 1, hw =>
        cases hd : o.mountdir with
        | none => rw [hd] at hw; simp at hw
        | some d =>
          rw [hd] at hw
          simp only [Option.toList, List.getElem?_cons_succ, List.getElem?_cons_zero, Option.some.injEq] at hw
          subst hw
          exact Or.inl ⟨pathValue, rfl, by simpa [pathValue] using h2 d hd⟩
      | i + 2, hw => cases hd : o.mountdir <;> rw [hd] at hw <;> simp at hw
    · intro v
      simp [optUse_mem, flagUse_value]
    · unfold GivesFlag
      simp [optUse_flag, flagUse_mem]

/-- the lines of the converters -/
theorem tool_options {ft : Features} (hz : ft.zstd = true) (ck : Bytes → Bool) (input out : Option Bytes) :
    (∃ argv l, Line ⟨toolOpts ft, [ck], none, []⟩ argv l ∧ Allowed ⟨toolOpts ft, [ck], none, []⟩ l ∧
      ToolSaid ft l input out (.zstd .default) .oneFile ∧ ¬ OtherSaid l) ↔
      (∀ v, input = some v → ck v = true) ∧ ∀ v, out = some v → v ≠ [] := by
  constructor
  · rintro ⟨argv, l, hl, ha, hs, _⟩
    refine ⟨?_, ?_⟩
    · rintro v rfl
      exact wordAt_two ha (i := 0) (w := v) (by rw [hs.input]; rfl) (f := ck) rfl
    · intro v e
      obtain ⟨od, g1, g2, g3⟩ := ha.values _ _ ((hs.outfile v).mp e)
      have e : od = ⟨.outfile, some 111, some (ascii "outfile"), .value, pathValue⟩ :=
        (tarDef_wf ft).args od g1 _ (by simp [tarDef, toolOpts]) g2
      subst e
      simpa [pathValue] using g3
  · rintro ⟨h1, h2⟩
    obtain ⟨w1, p1⟩ := optUse_pieces (c := ⟨toolOpts ft, [ck], none, []⟩) (v := out)
      (o := ⟨.outfile, some 111, some (ascii "outfile"), .value, pathValue⟩) (by simp [toolOpts]) (Or.inl rfl) (Or.inl (by simp))
    have hsaid : said (optUse .outfile out ++ input.toList.map .word) = input.toList := by
      rw [said_append, optUse_said, words_said]; rfl
    refine ⟨w1 ++ ascii "--" :: input.toList, _, Or.inr ⟨_, _, _, p1, rfl, rfl⟩, ⟨?_, ?_, ?_⟩, ⟨hsaid, ?_, Or.inr ⟨?_, hz, rfl⟩,
      Or.inr (Or.inr (Or.inr ⟨?_, ?_, ?_, rfl⟩))⟩, ?_⟩
    · apply once_of_keys
      rw [List.filterMap_append, words_keys, List.append_nil]
      exact List.Nodup.sublist (optUse_keys _ _) (by simp)
    · intro a v hm
      simp only [List.mem_append, optUse_mem, List.mem_map, reduceCtorEq, and_false, exists_false, or_false] at hm
      obtain ⟨rfl, e⟩ := hm
      exact ⟨⟨.outfile, some 111, some (ascii "outfile"), .value, pathValue⟩, by simp [toolOpts], rfl, by simpa [pathValue] using h2 v e⟩
    · intro i w hw
      rw [hsaid] at hw
      cases input with
      | none => simp at hw
      | some t =>
        cases i with
        | zero =>
          simp only [Option.toList, List.getElem?_cons_zero, Option.some.injEq] at hw
          subst hw
          exact Or.inl ⟨ck, rfl, h1 t rfl⟩
        | succ i => simp at hw
    · intro v; simp [optUse_mem]
    · intro v; simp [optUse_mem]
    · simp [optUse_flag]
    · simp [optUse_flag]
    · simp [optUse_flag]
    · simp [OtherSaid, optUse_flag, optUse_mem]

/-- **C94: the files that can be given to the converters**, of builds with zstd: for `tar2arx` both can be missing. -/
theorem C94_tool_options {ft : Features} (hz : ft.zstd = true) (input out : Option Bytes) :
    ((∃ argv, tarCli ft argv = .convert input out (.zstd .default) .oneFile) ↔
      (∀ v, input = some v → validUtf8 v = true) ∧ ∀ v, out = some v → v ≠ []) ∧
    ((∃ argv, zipCli ft argv = .convert input out (.zstd .default) .oneFile) ↔
      (∃ v, input = some v ∧ v ≠ []) ∧ ∃ v, out = some v ∧ v ≠ []) := by
  constructor
  · refine Iff.trans ?_ (tool_options hz textValue input out)
    exact ⟨fun ⟨argv, h⟩ => ⟨argv, (C94_tar2arx ft argv _ _ _ _).mp h⟩, fun ⟨argv, h⟩ => ⟨argv, (C94_tar2arx ft argv _ _ _ _).mpr h⟩⟩
  · have := tool_options hz pathValue input out
    constructor
    · rintro ⟨argv, h⟩
      obtain ⟨h1, h2, h3⟩ := (C94_zip2arx ft argv _ _ _ _).mp h
      obtain ⟨g1, g2⟩ := this.mp ⟨argv, h3⟩
      cases input with
      | none => exact absurd rfl h1
      | some i =>
        cases out with
        | none => exact absurd rfl h2
        | some o => exact ⟨⟨i, rfl, by simpa [pathValue] using g1 i rfl⟩, o, rfl, g2 o rfl⟩
    · rintro ⟨⟨i, rfl, hi⟩, o, rfl, ho⟩
      obtain ⟨argv, h⟩ := this.mpr ⟨by rintro v h; cases h; simpa [pathValue] using hi, by rintro v h; cases h; exact ho⟩
      exact ⟨argv, (C94_zip2arx ft argv _ _ _ _).mpr ⟨by simp, by simp, h⟩⟩

/-- **C94: what can be given to `mount.fuse.arx`**: any number of UTF-8 options; and to the self mounting executable. -/
theorem C94_fuse_options (infile dir : Bytes) (opts : List Bytes) :
    ((∃ argv, fuseCli argv = some (infile, dir, opts)) ↔ infile ≠ [] ∧ dir ≠ [] ∧ ∀ v ∈ opts, validUtf8 v = true) ∧
    ((∃ argv, autoCli argv = some dir) ↔ dir ≠ []) := by
  constructor
  · constructor
    · rintro ⟨argv, h⟩
      obtain ⟨l, hl, ha, hs, ho⟩ := (C94_mount_fuse argv _ _ _).mp h
      refine ⟨?_, ?_, ?_⟩
      · have := wordAt_two ha (i := 0) (w := infile) (by rw [hs]; rfl) (f := pathValue) rfl
        simpa [pathValue] using this
      · have := wordAt_two ha (i := 1) (w := dir) (by rw [hs]; rfl) (f := pathValue) rfl
        simpa [pathValue] using this
      · intro v hv
        rw [ho, givenTexts, List.mem_filterMap] at hv
        obtain ⟨u, hu, e⟩ := hv
        cases u with
        | flag a => cases e
        | word w => cases e
        | value a w =>
          simp only at e
          split at e
          · cases e
            rename_i e; subst e
            obtain ⟨od, g1, g2, g3⟩ := ha.values _ _ hu
            have e : od = ⟨.option, some 111, none, .values, textValue⟩ := fuseDef_wf.args od g1 _ (by simp [fuseDef]) g2
            subst e
            exact g3
          · cases e
    · rintro ⟨h1, h2, h3⟩
      have hp : ∀ opts : List Bytes, ∃ ws, Pieces fuseDef ws (opts.map (Use.value .option)) := by
        intro opts
        induction opts with
        | nil => exact ⟨[], .nil⟩
        | cons v opts ih =>
          obtain ⟨ws, hw⟩ := ih
          have : Piece fuseDef [ascii "-" ++ [] ++ [111] ++ ascii "=" ++ v] ([] ++ [.value .option v]) :=
            .lettersIs (o := ⟨.option, some 111, none, .values, textValue⟩) .nil (by simp [fuseDef]) rfl (Or.inr rfl)
          exact ⟨_, .cons this hw⟩
      obtain ⟨ws, hw⟩ := hp opts
      have hsaid : said (opts.map (Use.value .option) ++ [infile, dir].map .word) = [infile, dir] := by
        rw [said_append, words_said]
        have : said (opts.map (Use.value .option)) = [] := by
          clear h3 hw
          induction opts with
          | nil => rfl
          | cons v opts ih => simpa [said, Use.text] using ih
        rw [this]; rfl
      refine ⟨ws ++ ascii "--" :: [infile, dir], (C94_mount_fuse _ _ _ _).mpr ⟨_, Or.inr ⟨_, _, _, hw, rfl, rfl⟩, ⟨?_, ?_, ?_⟩, hsaid, ?_⟩⟩
      · rw [List.pairwise_append]
        refine ⟨?_, ?_, ?_⟩
        · rw [List.pairwise_map]
          refine List.pairwise_of_forall (fun a b => ?_)
          intro o ho _ hv hof
          have e : o = ⟨.option, some 111, none, .values, textValue⟩ := fuseDef_wf.args o ho _ (by simp [fuseDef]) (show o.arg = .option from hof.symm)
          subst e
          exact absurd rfl hv
        · rw [List.pairwise_map]
          exact List.pairwise_of_forall (fun a b o _ _ _ h => h.elim)
        · intro u _ u' hu' o _ _ _ _ h
          obtain ⟨w, _, rfl⟩ := List.mem_map.mp hu'
          exact h
      · intro a v hm
        simp only [List.mem_append, List.mem_map, Use.value.injEq, reduceCtorEq, and_false, exists_false, or_false] at hm
        obtain ⟨x, hx, rfl, rfl⟩ := hm
        exact ⟨⟨.option, some 111, none, .values, textValue⟩, by simp [fuseDef], rfl, h3 x hx⟩
      · intro i w hi
        rw [hsaid] at hi
        match i, hi with
        | 0, hi =>
          simp only [List.getElem?_cons_zero, Option.some.injEq] at hi
          subst hi
          exact Or.inl ⟨pathValue, rfl, by simpa [pathValue] using h1⟩
        | 1, hi =>
          simp only [List.getElem?_cons_succ, List.getElem?_cons_zero, Option.some.injEq] at hi
          subst hi
          exact Or.inl ⟨pathValue, rfl, by simpa [pathValue] using h2⟩
        | i + 2, hi => simp at hi
      · clear hsaid hw h3
        induction opts with
        | nil => rfl
        | cons v opts ih => simpa [givenTexts] using ih
  · constructor
    · rintro ⟨argv, h⟩
      obtain ⟨l, hl, ha, hs⟩ := (C94_auto_mount argv _).mp h
      have := wordAt_two ha (i := 0) (w := dir) (by rw [hs]; rfl) (f := pathValue) rfl
      simpa [pathValue] using this
    · intro h
      refine ⟨[] ++ ascii "--" :: [dir], (C94_auto_mount _ _).mpr ⟨_, Or.inr ⟨_, _, _, .nil, rfl, rfl⟩, ⟨?_, ?_, ?_⟩, rfl⟩⟩
      · exact once_of_keys (by rw [List.nil_append, words_keys]; exact .nil)
      · intro a v hm; simp at hm
      · intro i w hi
        rw [List.nil_append, words_said] at hi
        cases i with
        | zero =>
          simp only [List.getElem?_cons_zero, Option.some.injEq] at hi
          subst hi
          exact Or.inl ⟨pathValue, rfl, by simpa [pathValue] using h⟩
        | succ i => simp at hi

/-- **C94: a line that is not allowed does nothing**: status 2. And a command of an allowed line is run. -/
theorem C94_program (ft : Features) (argv : List Bytes) (p : ProgSys) :
    (arxCli ft argv = .usage → arxProgram ft argv p = (.none, .code 2)) ∧
    (arxCli ft argv = .help → arxProgram ft argv p = (.help, .code 0)) ∧
    (∀ o comp concat, arxCli ft argv = .args ⟨none, none, some (.create o comp concat)⟩ →
      arxProgram ft argv p = (.create (o.run p.main.create).1, (o.run p.main.create).2.exit)) ∧
    (∀ infile o, arxCli ft argv = .args ⟨none, none, some (.extract infile o)⟩ →
      arxProgram ft argv p = arxMain (command (.extract o)) (p.at infile)) ∧
    (∀ infile st, arxCli ft argv = .args ⟨none, none, some (.list infile st)⟩ →
      arxProgram ft argv p = arxMain (command (.list st)) (p.at infile)) ∧
    (∀ infile f out, arxCli ft argv = .args ⟨none, none, some (.dump infile f out)⟩ → out = none ∨ out = some (ascii "-") →
      arxProgram ft argv p = arxMain (command (.dump f)) (p.at infile)) ∧
    (∀ man compl, arxCli ft argv = .args ⟨man, compl, none⟩ → arxProgram ft argv p = arxMain (.args ⟨man, compl.isSome, none⟩) p.main) ∧
    (∀ o, arxCli ft argv = .args ⟨none, none, some (.mount o)⟩ →
      arxProgram ft argv p = arxMain (command (.mount o)) (p.at o.infile)) := by
  refine ⟨fun h => ?_, fun h => ?_, fun o c d h => ?_, fun i o h => ?_, fun i st h => ?_, fun i f out h hout => ?_, fun mn cp h => ?_, fun o h => ?_⟩
  case refine_6 =>
    rw [arxProgram, h]
    have : out = none ∨ out = some [45] := hout
    simp only [Cli.exec]
    rw [if_pos (this.imp_right .inl)]
    rfl
  all_goals (rw [arxProgram, h]; try rfl)

/-- The values of the list are of the kinds of their arguments. -/
def Checked (c : CmdDef) (l : List Use) : Prop := ∀ a v, .value a v ∈ l → ∃ o ∈ c.opts, o.arg = a ∧ o.check v = true

theorem Checked.value {c : CmdDef} {l : List Use} (h : Checked c l) {o : OptDef} (ho : o ∈ c.opts) {v : Bytes} (hv : o.fits l v = true) :
    Checked c (l ++ [.value o.arg v]) := by
  intro a w hm
  rcases List.mem_append.mp hm with hm | hm
  · exact h a w hm
  · simp only [List.mem_singleton, Use.value.injEq] at hm
    obtain ⟨rfl, rfl⟩ := hm
    simp only [OptDef.fits, Bool.and_eq_true] at hv
    exact ⟨o, ho, rfl, hv.1⟩

theorem Checked.flag {c : CmdDef} {l : List Use} (h : Checked c l) (b : Arg) : Checked c (l ++ [.flag b]) := by
  intro a w hm
  exact h a w (by simpa using hm)

theorem Checked.word {c : CmdDef} {l : List Use} (h : Checked c l) (b : Bytes) : Checked c (l ++ [.word b]) := by
  intro a w hm
  exact h a w (by simpa using hm)

theorem Checked.trailing {c : CmdDef} {ws : List Bytes} {acc l : List Use} (h : Checked c acc) (e : c.trailing acc ws = .uses l) : Checked c l := by
  induction ws generalizing acc with
  | nil => rw [CmdDef.trailing] at e; cases e; exact h
  | cons w ws ih =>
    rw [CmdDef.trailing] at e
    split at e
    · exact ih (h.word w) e
    · cases e

theorem Checked.shorts {c : CmdDef} {t : Bytes} {acc : List Use} (h : Checked c acc) :
    (∀ l, c.shorts acc t = .done l → Checked c l) ∧ ∀ l o, c.shorts acc t = .pending l o → Checked c l ∧ o ∈ c.opts := by
  induction t generalizing acc with
  | nil =>
    rw [CmdDef.shorts]
    refine ⟨fun l e => ?_, fun l o e => ?_⟩
    · cases e; exact h
    · cases e
  | cons x t ih =>
    rw [CmdDef.shorts]
    cases hb : c.byShort x with
    | none => simp
    | some o =>
      have ho : o ∈ c.opts := List.mem_of_find?_eq_some hb
      have att : (∀ l, o.attached acc t = .done l → Checked c l) ∧ ∀ l o', o.attached acc t = .pending l o' → Checked c l ∧ o' ∈ c.opts := by
        cases t with
        | nil =>
          rw [OptDef.attached]
          refine ⟨fun l e => ?_, fun l o e => ?_⟩
          · cases e
          · cases e; exact ⟨h, ho⟩
        | cons y t =>
          rw [OptDef.attached]
          generalize (if y = 61 then t else y :: t) = v
          by_cases hf : o.fits acc v = true
          · rw [if_pos hf]
            refine ⟨fun l e => ?_, fun l o e => ?_⟩
            · cases e; exact h.value ho hf
            · cases e
          · rw [if_neg hf]; simp
      cases ht : o.takes <;> simp only [ht]
      case stop => simp
      case flag =>
        split
        · exact ih (h.flag _)
        · simp
      case count =>
        split
        · exact ih (h.flag _)
        · simp
      all_goals exact att

theorem Checked.read {c : CmdDef} {ws : List Bytes} {acc l : List Use} {p : Option OptDef} (h : Checked c acc) (hp : ∀ o, p = some o → o ∈ c.opts)
    (e : c.read acc p ws = .uses l) : Checked c l := by
  have hfl : ∀ (p : Option OptDef) acc acc', (∀ o, p = some o → o ∈ c.opts) → Checked c acc → OptDef.flush p acc = some acc' → Checked c acc' := by
    intro p acc acc' hp h e
    cases p with
    | none => simp only [OptDef.flush, Option.some.injEq] at e; subst e; exact h
    | some o =>
      simp only [OptDef.flush] at e
      split at e
      · rename_i hc
        cases e
        exact h.value (hp o rfl) hc.2
      · cases e
  induction ws generalizing acc p with
  | nil =>
    unfold CmdDef.read at e
    split at e
    · rename_i hf; cases e; exact hfl p acc _ hp h hf
    · cases e
  | cons w ws ih =>
    have none_ : ∀ o, (none : Option OptDef) = some o → o ∈ c.opts := by simp
    unfold CmdDef.read at e
    generalize hpw : isPlain w = pw at e
    split at e
    · split at e
      · rename_i hf'
        exact ih (h.value (hp _ rfl) hf') none_ e
      · cases e
    · split at e
      · cases e
      · split at e
        · split at e
          · cases e
          · split at e <;> cases e
          · cases e
        · split at e
          · cases e
          · rename_i acc' hf
            have h := hfl p acc acc' hp h hf
            split at e
            · exact h.trailing e
            · split at e
              · cases e
              · rename_i o hb
                have ho : o ∈ c.opts := List.mem_of_find?_eq_some hb
                split at e
                · cases e
                · split at e
                  · exact ih (h.flag _) none_ e
                  · cases e
                · split at e
                  · exact ih (h.flag _) none_ e
                  · cases e
                · cases e
                · cases e
                · cases e
                · split at e
                  · rename_i hf; exact ih (h.value ho hf) none_ e
                  · cases e
                · exact ih h (fun o' h' => by cases h'; exact ho) e
            · split at e
              · rename_i hd; exact ih (h.shorts.1 _ hd) none_ e
              · rename_i hd
                obtain ⟨g1, g2⟩ := h.shorts.2 _ _ hd
                exact ih g1 (fun o' h' => by cases h'; exact g2) e
              · cases e
              · cases e
            · split at e
              · exact ih (h.word _) none_ e
              · cases e

/-- The shells of `--generate-complete`. -/
def shellNames : List Bytes := [ascii "bash", ascii "elvish", ascii "fish", ascii "powershell", ascii "zsh"]

/-- **C94: what `arx` can be asked to print.** Without a subcommand: a man page for nothing or a subcommand, completions for one of the shells; all of these
can be asked for, and nothing else, and a man page not twice, whatever follows. The converters know the same shells. -/
theorem C94_print (ft : Features) :
    (∀ man compl : Option Bytes, (∃ argv, arxCli ft argv = .args ⟨man, compl, none⟩) ↔
      (∀ v, man = some v → v = [] ∨ v ∈ [ascii "create", ascii "list", ascii "dump", ascii "extract", ascii "mount"]) ∧ ∀ v, compl = some v → v ∈ shellNames) ∧
    (ft.zstd = true → ∀ v, v ∈ shellNames → tarCli ft [ascii "--generate-complete", v] = .print ∧ zipCli ft [ascii "--generate-complete", v] = .print) ∧
    (∀ argv, arxCli ft (ascii "--generate-man-page" :: ascii "--generate-man-page" :: argv) = .usage) := by
  refine ⟨fun man compl => ⟨?_, ?_⟩, ?_, ?_⟩
  · rintro ⟨argv, h⟩
    unfold arxCli at h
    cases hr : arxDef.read [] none argv with
    | usage => simp [hr] at h
    | help => simp [hr] at h
    | sub l name rest =>
      simp only [hr] at h
      split at h
      · split at h <;> simp at h
      · cases h
      · cases h
    | uses l =>
      simp only [hr, CliOut.args.injEq, CliArgs.mk.injEq, and_true] at h
      have g2 : Checked arxDef l := Checked.read (acc := []) (p := none) (by intro a v h; cases h) (by simp) hr
      obtain ⟨rfl, rfl⟩ := h
      have mem : ∀ a v, valueOf l a = some v → .value a v ∈ l := by
        intro a v h
        obtain ⟨u, h1, h2⟩ := List.exists_of_findSome?_eq_some h
        cases u <;> simp [Use.valueFor] at h2
        obtain ⟨rfl, rfl⟩ := h2
        exact h1
      constructor
      · intro v hv
        obtain ⟨o, k1, k2, k3⟩ := g2 _ _ (mem _ _ hv)
        rcases arx_opts k1 with rfl | rfl | rfl | rfl | rfl
        case inr.inl => simpa [arxSubs] using k3
        all_goals exact absurd k2 (by simp [verboseOpt, helpOpt, versionOpt])
      · intro v hv
        obtain ⟨o, k1, k2, k3⟩ := g2 _ _ (mem _ _ hv)
        rcases arx_opts k1 with rfl | rfl | rfl | rfl | rfl
        case inr.inr.inl => simpa [shellValue, shellNames] using k3
        all_goals exact absurd k2 (by simp [verboseOpt, helpOpt, versionOpt])
  · rintro ⟨h1, h2⟩
    have : ∀ m ∈ none :: ([] :: [ascii "create", ascii "list", ascii "dump", ascii "extract", ascii "mount"]).map some,
        ∀ c ∈ none :: shellNames.map some, arxCli ft ((m.map (ascii "--generate-man-page=" ++ ·)).toList ++ (c.map (ascii "--generate-complete=" ++ ·)).toList) =
          .args ⟨m, c, none⟩ := by
      obtain ⟨a, b, c⟩ := ft
      cases a <;> cases b <;> cases c <;> decide +kernel
    refine ⟨_, this man ?_ compl ?_⟩
    · cases man with
      | none => simp
      | some v => rcases h1 v rfl with rfl | h <;> simp_all
    · cases compl with
      | none => simp
      | some v => simpa using h2 v rfl
  · obtain ⟨a, b, c⟩ := ft
    rintro rfl
    cases a <;> cases b <;> decide +kernel
  · intro argv
    obtain ⟨o, ho⟩ : ∃ o : OptDef, o = ⟨.manPage, none, some (ascii "generate-man-page"), .maybe, fun v => v ∈ [] :: arxSubs⟩ := ⟨_, rfl⟩
    have e : arxDef.read [] none (ascii "--generate-man-page" :: ascii "--generate-man-page" :: argv) = arxDef.read [.value .manPage []] (some o) argv := by
      subst ho; rfl
    have hf : ∀ v, o.fits [.value .manPage []] v = false := by
      intro v; subst ho; simp [OptDef.fits, OptDef.again, usedIn]
    have hfl : OptDef.flush (some o) [.value .manPage []] = none := by simp [OptDef.flush, hf]
    have hu : arxDef.read [.value .manPage []] (some o) argv = .usage := by
      cases argv with
      | nil => simp [CmdDef.read, hfl]
      | cons w ws =>
        unfold CmdDef.read
        cases isPlain w with
        | true => simp [hf]
        | false => simp [hfl]
    simp [arxCli, e, hu]

/-! ## Examples -/

def exWords : List Bytes := [ascii "-v", ascii "create", ascii "-fo=a.arx", ascii "--strip-prefix", ascii "d", ascii "-2r", ascii "-c", ascii "LZ4=3",
  ascii "d/f", ascii "--", ascii "-x"]

/-- a command line with most of the ways to write arguments -/
example : arxCli allFeatures exWords = .args ⟨none, none, some (.create ⟨some (ascii "a.arx"), some (ascii "d"), none, [ascii "d/f", ascii "-x"], none,
    true, false, false, true, false⟩ (.lz4 (.given 3)) .twoFiles)⟩ := by decide +kernel

example : arxCli allFeatures [ascii "extract", ascii "a.arx", ascii "-C", ascii "out", ascii "--overwrite=newer", ascii "x/y"] =
    .args ⟨none, none, some (.extract (ascii "a.arx") ⟨some (ascii "out"), [ascii "x/y"], none, none, false, false, .newer⟩)⟩ := by decide +kernel

/-- refused: an argument twice; a value that is no number; two flags of a group; `-f` and a word; no output -/
example : arxCli allFeatures [ascii "create", ascii "-o", ascii "a", ascii "-o", ascii "b"] = .usage ∧
    arxCli allFeatures [ascii "list", ascii "--stable-output", ascii "my_archive.arx"] = .usage ∧
    arxCli allFeatures [ascii "create", ascii "-12o", ascii "a"] = .usage ∧
    arxCli allFeatures [ascii "extract", ascii "-f", ascii "a", ascii "b"] = .usage ∧
    arxCli allFeatures [ascii "create", ascii "a"] = .usage := by
  refine ⟨?_, ?_, ?_, ?_, ?_⟩ <;> decide +kernel

example : arxCli allFeatures [ascii "dump", ascii "a", ascii "-vh", ascii "--nothing"] = .help := by decide +kernel
example : tarCli allFeatures [ascii "-o", ascii "a.arx", ascii "t.tar"] = .convert (some (ascii "t.tar")) (some (ascii "a.arx")) (.zstd .default) .oneFile := by
  decide +kernel
example : zipCli allFeatures [ascii "t.zip"] = .usage := by decide +kernel
example : fuseCli [ascii "a.arx", ascii "m", ascii "-o", ascii "ro,nosuid", ascii "-ofoo"] = some (ascii "a.arx", ascii "m", [ascii "ro,nosuid", ascii "foo"]) := by
  decide +kernel

end Arx
