import Verif.Spec.Readme
import Verif.Props.CmdLine
import Verif.Props.Main
import Verif.Props.Trip
import Verif.Props.TripMount
import Verif.Props.CreateOk
import Verif.Props.Cmd
import Verif.Props.TripConv
/-!
# The command lines of the README
-/
namespace Arx

theorem WordName.plain {w : Bytes} (h : WordName w) : Plain w := Or.inl h.2

theorem readme_create_line {ft : Features} (hz : ft.zstd = true) {A D : Bytes} (hA : WordName A) (hD : WordName D) :
    arxCli ft (readmeCreate A D) = .args ⟨none, none, some (.create (readmeCreateOpts A D true) (.zstd .default) .oneFile)⟩ := by
  refine (arxCli_sub (by decide)).mpr ⟨rfl, [.value .outfile A, .flag .recurse, .word D], Or.inl ?_, ?_, ?_, ?_, Or.inr ⟨by simp, hz, rfl⟩, ?_⟩
  · have h1 : Piece (createDef ft) [ascii "-o", A] [.value .outfile A] :=
      .lettersNext (o := ⟨.outfile, some 111, some (ascii "outfile"), .value, pathValue⟩) (x := 111) .nil (by simp [createDef]) rfl (Or.inl rfl) hA.plain
    have h2 : Piece (createDef ft) [ascii "-r"] [.flag .recurse] :=
      .letters (xs := [114]) (by simp) (.cons (o := ⟨.recurse, some 114, some (ascii "recurse"), .flag, noValue⟩) (by simp [createDef]) rfl (Or.inl rfl) .nil)
    exact .cons h1 (.cons h2 (.cons (.word hD.plain) .nil))
  · refine ⟨once_of_keys (by simp [List.filterMap_cons, Use.key]), ?_, ?_⟩
    · intro a v hm
      simp only [List.mem_cons, Use.value.injEq, reduceCtorEq, List.not_mem_nil, or_false] at hm
      obtain ⟨rfl, rfl⟩ := hm
      exact ⟨⟨.outfile, some 111, some (ascii "outfile"), .value, pathValue⟩, by simp [createDef], rfl, by simpa [pathValue] using hA.1⟩
    · intro i w hi
      cases i with
      | zero =>
        simp only [said, List.filterMap_cons, Use.text, List.filterMap_nil, List.getElem?_cons_zero, Option.some.injEq] at hi
        subst hi
        exact Or.inr ⟨by simp [createDef], pathValue, rfl, by simpa [pathValue] using hD.1⟩
      | succ i => simp [said, List.filterMap_cons, Use.text] at hi
  · refine ⟨?_, ?_, ?_, rfl, ?_, ?_, ?_, ?_, ?_, ?_⟩ <;> first | (intro v; simp [readmeCreateOpts, eq_comm]) | simp [GivesFlag, readmeCreateOpts]
  · exact ⟨by simp [readmeCreateOpts], by simp [readmeCreateOpts], by simp [readmeCreateOpts]⟩
  · exact Or.inr (Or.inr (Or.inr ⟨by simp, by simp, by simp, rfl⟩))

theorem readme_flat_line {ft : Features} (hz : ft.zstd = true) {A D : Bytes} (hA : WordName A) (hD : WordName D) :
    arxCli ft (readmeFlat A D) = .args ⟨none, none, some (.create (readmeCreateOpts A D false) (.zstd .default) .oneFile)⟩ := by
  refine (arxCli_sub (by decide)).mpr ⟨rfl, [.value .outfile A, .word D], Or.inl ?_, ?_, ?_, ?_, Or.inr ⟨by simp, hz, rfl⟩, ?_⟩
  · have h1 : Piece (createDef ft) [ascii "-o", A] [.value .outfile A] :=
      .lettersNext (o := ⟨.outfile, some 111, some (ascii "outfile"), .value, pathValue⟩) (x := 111) .nil (by simp [createDef]) rfl (Or.inl rfl) hA.plain
    exact .cons h1 (.cons (.word hD.plain) .nil)
  · refine ⟨once_of_keys (by simp [List.filterMap_cons, Use.key]), ?_, ?_⟩
    · intro a v hm
      simp only [List.mem_cons, Use.value.injEq, reduceCtorEq, List.not_mem_nil, or_false] at hm
      obtain ⟨rfl, rfl⟩ := hm
      exact ⟨⟨.outfile, some 111, some (ascii "outfile"), .value, pathValue⟩, by simp [createDef], rfl, by simpa [pathValue] using hA.1⟩
    · intro i w hi
      cases i with
      | zero =>
        simp only [said, List.filterMap_cons, Use.text, List.filterMap_nil, List.getElem?_cons_zero, Option.some.injEq] at hi
        subst hi
        exact Or.inr ⟨by simp [createDef], pathValue, rfl, by simpa [pathValue] using hD.1⟩
      | succ i => simp [said, List.filterMap_cons, Use.text] at hi
  · refine ⟨?_, ?_, ?_, rfl, ?_, ?_, ?_, ?_, ?_, ?_⟩ <;> first | (intro v; simp [readmeCreateOpts, eq_comm]) | simp [GivesFlag, readmeCreateOpts]
  · exact ⟨by simp [readmeCreateOpts], by simp [readmeCreateOpts], by simp [readmeCreateOpts]⟩
  · exact Or.inr (Or.inr (Or.inr ⟨by simp, by simp, by simp, rfl⟩))

theorem arxCli_cons {ft : Features} {sub : Bytes} (hsub : sub ∈ arxSubs) (rest : List Bytes) :
    arxCli ft (sub :: rest) = match (subDef ft sub).1.read [] none rest with
      | .uses l' => match (subDef ft sub).2 l' with
        | some c => .args ⟨none, none, some c⟩
        | none => .usage
      | .help => .help
      | _ => .usage := by
  have : arxDef.read [] none (sub :: rest) = .sub [] sub rest := by
    conv => lhs; unfold CmdDef.read
    have h2 : sub ∈ arxDef.subs := hsub
    simp [h2]
  rw [arxCli, this]; rfl

theorem readme_strip_line {ft : Features} {A P D : Bytes} (hA : WordName A) (hP : WordName P) (hD : WordName D) :
    arxCli ft (readmeStrip A P D) = .usage ∨
    ∃ comp concat, arxCli ft (readmeStrip A P D) =
      .args ⟨none, none, some (.create ⟨some A, some P, none, [D], none, true, false, false, false, false⟩ comp concat)⟩ := by
  have hl : Line (createDef ft) [ascii "-o", A, ascii "-r", ascii "--strip-prefix", P, D]
      [.value .outfile A, .flag .recurse, .value .stripPrefix P, .word D] := by
    have h1 : Piece (createDef ft) [ascii "-o", A] [.value .outfile A] :=
      .lettersNext (o := ⟨.outfile, some 111, some (ascii "outfile"), .value, pathValue⟩) (x := 111) .nil (by simp [createDef]) rfl (Or.inl rfl) hA.plain
    have h2 : Piece (createDef ft) [ascii "-r"] [.flag .recurse] :=
      .letters (xs := [114]) (by simp) (.cons (o := ⟨.recurse, some 114, some (ascii "recurse"), .flag, noValue⟩) (by simp [createDef]) rfl (Or.inl rfl) .nil)
    have h3 : Piece (createDef ft) [ascii "--strip-prefix", P] [.value .stripPrefix P] :=
      .longNext (o := ⟨.stripPrefix, none, some (ascii "strip-prefix"), .value, textValue⟩) (n := ascii "strip-prefix") (by simp [createDef]) rfl (Or.inl rfl) hP.plain
    exact Or.inl (.cons h1 (.cons h2 (.cons h3 (.cons (.word hD.plain) .nil))))
  have W := createDef_wf ft
  have hc := arxCli_cons (ft := ft) (sub := ascii "create") (by decide) [ascii "-o", A, ascii "-r", ascii "--strip-prefix", P, D]
  rw [show subDef ft (ascii "create") = (createDef ft, createOf ft) by simp [subDef]] at hc
  have hk : (createDef ft).okFrom [] [.value .outfile A, .flag .recurse, .value .stripPrefix P, .word D] ∨
      (createDef ft).read [] none [ascii "-o", A, ascii "-r", ascii "--strip-prefix", P, D] = .usage := by
    by_cases hu : (createDef ft).okFrom [] [.value .outfile A, .flag .recurse, .value .stripPrefix P, .word D]
    · exact Or.inl hu
    · refine Or.inr (Classical.byContradiction fun hn => ?_)
      rcases hx : validUtf8 P with _ | _
      · -- the prefix is not UTF-8: refused
        apply hn
        have e1 : ascii "-o" = [45, 111] := rfl
        have e2 : ascii "-r" = [45, 114] := rfl
        have o1 : (createDef ft).byShort 111 = some ⟨.outfile, some 111, some (ascii "outfile"), .value, pathValue⟩ := rfl
        have o2 : (createDef ft).byShort 114 = some ⟨.recurse, some 114, some (ascii "recurse"), .flag, noValue⟩ := rfl
        have o3 : (createDef ft).byLong (splitEq (ascii "strip-prefix")).1 = some ⟨.stripPrefix, none, some (ascii "strip-prefix"), .value, textValue⟩ := rfl
        have e3 : ascii "--strip-prefix" = 45 :: 45 :: ascii "strip-prefix" := rfl
        have e4 : (splitEq (ascii "strip-prefix")).2 = none := rfl
        rw [e1, W.read_short (by decide)]
        simp only [CmdDef.shorts, o1, OptDef.attached]
        rw [CmdDef.read_pend hA.plain]
        split
        · rw [e2, W.read_short (by decide)]
          simp only [CmdDef.shorts, o2]
          split
          · rename_i hs
            split at hs
            · cases hs
              rw [e3, W.read_long (by decide)]
              simp only [o3, e4]
              rw [CmdDef.read_pend hP.plain, if_neg (by simp [OptDef.fits, textValue, hx])]
            · cases hs
          · rename_i hs; split at hs <;> cases hs
          · rename_i hs; split at hs <;> cases hs
          · rfl
        · rfl
      · exact hu (by
          refine ⟨⟨⟨.outfile, some 111, some (ascii "outfile"), .value, pathValue⟩, by simp [createDef], rfl, ?_⟩,
            ⟨⟨.recurse, some 114, some (ascii "recurse"), .flag, noValue⟩, by simp [createDef], rfl, ?_⟩,
            ⟨⟨.stripPrefix, none, some (ascii "strip-prefix"), .value, textValue⟩, by simp [createDef], rfl, ?_⟩, ?_, trivial⟩
          · simp [OptDef.fits, OptDef.again, usedIn, pathValue, hA.1]
          · simp [OptDef.again, usedIn]
          · simp [OptDef.fits, OptDef.again, usedIn, textValue, hx]
          · exact show pathValue D = true by simpa [pathValue] using hD.1)
  rcases hk with hk | hk
  · have hr := W.read_line hl hk
    simp only [hr, List.nil_append] at hc
    have ha := (W.ok_iff hl.known).mp hk
    cases hcr : createOf ft [.value .outfile A, .flag .recurse, .value .stripPrefix P, .word D] with
    | none => rw [hcr] at hc; exact Or.inl hc
    | some cli =>
    rw [hcr] at hc
    refine Or.inr ?_
    obtain ⟨o, comp, concat, rfl, hs, _, _, _⟩ := (createOf_iff hl ha).mp hcr
    refine ⟨comp, concat, ?_⟩
    obtain ⟨s1, s2, s3, s4, s5, s6, s7, s8, s9, s10⟩ := hs
    obtain ⟨of, sp, bd, inf, fl, re, nr, lc, fo, fs⟩ := o
    have t1 := (s1 A).mpr (by simp)
    have t2 := (s2 P).mpr (by simp)
    have t3 : bd = none := by cases hb : bd with
      | none => rfl
      | some v => have := (s3 v).mp hb; simp at this
    have t5 : fl = none := by cases hb : fl with
      | none => rfl
      | some v => have := (s5 v).mp hb; simp at this
    have t6 := s6.mpr (by simp)
    have f7 : nr = false := by cases hb : nr with
      | false => rfl
      | true => have := s7.mp hb; simp at this
    have f8 : lc = false := by cases hb : lc with
      | false => rfl
      | true => have := s8.mp hb; simp at this
    have f9 : fo = false := by cases hb : fo with
      | false => rfl
      | true => have := s9.mp hb; simp at this
    have f10 : fs = false := by cases hb : fs with
      | false => rfl
      | true => have := s10.mp hb; simp at this
    simp only at t1 t2 t6 s4
    subst t1 t2 t3 t5 t6 f7 f8 f9 f10
    rw [s4] at hc
    exact hc
  · simp only [hk] at hc
    exact Or.inl hc

theorem readme_extract_line {ft : Features} {A O : Bytes} (hA : WordName A) (hO : WordName O) :
    arxCli ft (readmeExtract A O) = .args ⟨none, none, some (.extract A (readmeExtractOpts O))⟩ := by
  refine (arxCli_sub (by decide)).mpr ⟨rfl, [.word A, .value .outdir O], Or.inl ?_, ?_, ?_, ?_⟩
  · have h1 : Piece extractDef [ascii "-C", O] [.value .outdir O] :=
      .lettersNext (o := ⟨.outdir, some 67, none, .value, pathValue⟩) (x := 67) .nil (by simp [extractDef]) rfl (Or.inl rfl) hO.plain
    exact .cons (.word hA.plain) (.cons h1 .nil)
  · refine ⟨once_of_keys (by simp [List.filterMap_cons, Use.key]), ?_, ?_⟩
    · intro a v hm
      simp only [List.mem_cons, Use.value.injEq, reduceCtorEq, List.not_mem_nil, or_false, false_or] at hm
      obtain ⟨rfl, rfl⟩ := hm
      exact ⟨⟨.outdir, some 67, none, .value, pathValue⟩, by simp [extractDef], rfl, by simpa [pathValue] using hO.1⟩
    · intro i w hi
      cases i with
      | zero =>
        simp only [said, List.filterMap_cons, Use.text, List.filterMap_nil, List.getElem?_cons_zero, Option.some.injEq] at hi
        subst hi
        exact Or.inl ⟨pathValue, rfl, by simpa [pathValue] using hA.1⟩
      | succ i => simp [said, List.filterMap_cons, Use.text] at hi
  · refine ⟨Or.inl ⟨by simp, rfl⟩, ?_, ?_, ?_, ?_, ?_, ?_⟩
    · intro v; simp [readmeExtractOpts, eq_comm]
    · intro v; simp [readmeExtractOpts]
    · intro v; simp [readmeExtractOpts]
    · simp [GivesFlag, readmeExtractOpts]
    · simp [GivesFlag, readmeExtractOpts]
    · exact Or.inr (Or.inr (Or.inr (Or.inr (Or.inr ⟨by simp, rfl⟩))))
  · exact ⟨by simp [readmeExtractOpts], fun _ => rfl⟩

theorem words_allowed {c : CmdDef} {ws : List Bytes} (h : ∀ i w, ws[i]? = some w → c.WordAt i w) : Allowed c (ws.map .word) where
  once := once_of_keys (by rw [words_keys]; exact .nil)
  values := by simp
  words := by rw [words_said]; exact h

theorem words_line {c : CmdDef} {ws : List Bytes} (h : ∀ w ∈ ws, Plain w) : Line c ws (ws.map .word) := by
  refine Or.inl ?_
  induction ws with
  | nil => exact .nil
  | cons w ws ih => exact .cons (.word (h w (by simp))) (ih (fun v hv => h v (by simp [hv])))

theorem readme_list_line {ft : Features} {A : Bytes} (hA : WordName A) :
    arxCli ft (readmeList A) = .args ⟨none, none, some (.list A none)⟩ := by
  refine (arxCli_sub (by decide)).mpr ⟨rfl, [A].map .word, words_line (by simpa using hA.plain), words_allowed ?_, rfl, by simp⟩
  intro i w hi
  cases i with
  | zero =>
    simp only [List.getElem?_cons_zero, Option.some.injEq] at hi
    subst hi
    exact Or.inl ⟨pathValue, rfl, by simpa [pathValue] using hA.1⟩
  | succ i => simp at hi

theorem readme_dump_line {ft : Features} {A f : Bytes} {out : Option Bytes} (hA : WordName A) (hf : Plain f) (hu : validUtf8 f = true)
    (ho : ∀ O, out = some O → Plain O ∧ validUtf8 O = true) :
    arxCli ft (ascii "dump" :: A :: f :: out.toList) = .args ⟨none, none, some (.dump A f out)⟩ := by
  refine (arxCli_sub (by decide)).mpr ⟨rfl, (A :: f :: out.toList).map .word, words_line ?_, words_allowed ?_, words_said _⟩
  · intro w hw
    simp only [List.mem_cons, Option.mem_toList, Option.mem_def] at hw
    rcases hw with rfl | rfl | hw
    · exact hA.plain
    · exact hf
    · exact (ho w hw).1
  · intro i w hi
    match i, hi with
    | 0, hi =>
      simp only [List.getElem?_cons_zero, Option.some.injEq] at hi
      subst hi
      exact Or.inl ⟨pathValue, rfl, by simpa [pathValue] using hA.1⟩
    | 1, hi =>
      simp only [List.getElem?_cons_succ, List.getElem?_cons_zero, Option.some.injEq] at hi
      subst hi
      exact Or.inl ⟨textValue, rfl, hu⟩
    | 2, hi =>
      cases out with
      | none => simp at hi
      | some O =>
        simp only [Option.toList, List.getElem?_cons_succ, List.getElem?_cons_zero, Option.some.injEq] at hi
        subst hi
        exact Or.inl ⟨textValue, rfl, (ho O rfl).2⟩
    | i + 3, hi => cases out <;> simp at hi

theorem readme_mount_line {ft : Features} {A M : Bytes} (hA : WordName A) (hM : WordName M) :
    arxCli ft (readmeMount A M) = .args ⟨none, none, some (.mount ⟨A, some M, none, false⟩)⟩ := by
  refine (arxCli_sub (by decide)).mpr ⟨rfl, [A, M].map .word, words_line ?_, words_allowed ?_, rfl, ?_, ?_⟩
  · intro w hw
    simp only [List.mem_cons, List.not_mem_nil, or_false] at hw
    rcases hw with rfl | rfl
    · exact hA.plain
    · exact hM.plain
  · intro i w hi
    match i, hi with
    | 0, hi =>
      simp only [List.getElem?_cons_zero, Option.some.injEq] at hi
      subst hi
      exact Or.inl ⟨pathValue, rfl, by simpa [pathValue] using hA.1⟩
    | 1, hi =>
      simp only [List.getElem?_cons_succ, List.getElem?_cons_zero, Option.some.injEq] at hi
      subst hi
      exact Or.inl ⟨pathValue, rfl, by simpa [pathValue] using hM.1⟩
    | i + 2, hi => simp at hi
  · intro v; simp
  · simp [GivesFlag]

theorem readme_create_run {ft : Features} (hz : ft.zstd = true) {A D : Bytes} (hA : WordName A) (hD : WordName D) (p : ProgSys) :
    arxProgram ft (readmeCreate A D) p =
      (.create ((readmeCreateOpts A D true).run p.main.create).1, ((readmeCreateOpts A D true).run p.main.create).2.exit) := by
  rw [arxProgram, readme_create_line hz hA hD]; rfl

theorem readmeCreateOpts_accepted (A D : Bytes) (r : Bool) : (readmeCreateOpts A D r).Accepted :=
  ⟨by simp [readmeCreateOpts], by simp [readmeCreateOpts], by simp [readmeCreateOpts]⟩

theorem cmdExit_ok {r : CmdRes} : r.exit = .code 0 ↔ r = .ok := by cases r <;> simp [CmdRes.exit]

/-- **C95, `arx create -o A -r D`.** In a build with zstd, with a source that does not change meanwhile, it succeeds exactly if nothing
is at `A`, in an existing directory, it can be written, and `D` is a relative UTF-8 path to something, not ending in `..`, with all
names below in UTF-8. -/
theorem C95_create {ft : Features} (hz : ft.zstd = true) {A D : Bytes} (hA : WordName A) (hD : WordName D) (p : ProgSys) {s : Src}
    (Q : ∀ cwd, Quiet (p.main.create.cenv cwd) s) (W : s.WF) (hcheck : p.main.create.atCheck = s)
    (hw : ∀ i, (p.main.create.walks i).src = s ∧ FullListing s (p.main.create.walks i).ls ∧
      ∀ q, s.fs.nodes q ≠ none → q.length ≤ (p.main.create.walks i).depth)
    (hret : Returns (readmeCreateOpts A D true) p.main.create s p.main.create.cwd) :
    (arxProgram ft (readmeCreate A D) p).2 = .code 0 ↔
      (absNames p.main.create.cwd A ≠ [] ∧ DirAt p.main.create.atParent (absNames p.main.create.cwd A).dropLast ∧
        ¬ Present p.main.create.atOut (namesOf p.main.create.cwd A)) ∧
      p.main.create.openOk = true ∧ p.main.create.writeOk = true ∧ ArchivableTree s p.main.create.cwd [] true D := by
  rw [readme_create_run hz hA hD, cmdExit_ok, C77_inputs rfl rfl Q W hcheck hw (by rintro cwd rfl; exact hret)]
  constructor
  · rintro ⟨⟨out, h1, h2, h3, h4⟩, h5, h6, cwd, h7, h8, _⟩
    cases h1
    cases (show cwd = p.main.create.cwd from h7)
    exact ⟨⟨h2, h3, fun hp => by have := h4 hp; simp [readmeCreateOpts] at this⟩, h5, h6, h8 D (by simp [readmeCreateOpts])⟩
  · rintro ⟨⟨h2, h3, h4⟩, h5, h6, h8⟩
    refine ⟨⟨A, rfl, h2, h3, fun hp => absurd hp h4⟩, h5, h6, _, rfl, ?_, ?_⟩
    · intro f hf
      cases List.mem_singleton.mp hf
      exact h8
    · exact List.pairwise_singleton _ _

theorem readme_same_run (A D : Bytes) (sys : CreateSys) : (readmeCreateOpts A D false).run sys = (readmeCreateOpts A D true).run sys := rfl

/-- **The README says that `-r` can be omitted "for non-recursive creation": it makes no difference.** -/
theorem C95_recursion_counterexample {ft : Features} (hz : ft.zstd = true) {A D : Bytes} (hA : WordName A) (hD : WordName D) (p : ProgSys) :
    arxProgram ft (readmeFlat A D) p = arxProgram ft (readmeCreate A D) p := by
  rw [readme_create_run hz hA hD, arxProgram, readme_flat_line hz hA hD]
  have : (readmeCreateOpts A D false).run p.main.create = (readmeCreateOpts A D true).run p.main.create := rfl
  show (Effect.create ((readmeCreateOpts A D false).run p.main.create).1, ((readmeCreateOpts A D false).run p.main.create).2.exit) = _
  rw [this]

/-- **The README's example of `--strip-prefix` fails**: with an absolute directory, whatever the rest, `arx create` reports an error and
reads no input. -/
theorem C95_strip_counterexample (ft : Features) {A P D : Bytes} (hA : WordName A) (hP : WordName P) (hD : WordName D) (hd : D.head? = some SEP) (p : ProgSys) :
    (arxProgram ft (readmeStrip A P D) p).2 ≠ .code 0 ∧
    ∀ evs, (arxProgram ft (readmeStrip A P D) p).1 = .create evs → ∀ e ∈ evs, ∀ q, e ≠ .input q := by
  rcases readme_strip_line (ft := ft) hA hP hD with h | ⟨comp, concat, h⟩
  · rw [arxProgram, h]
    exact ⟨by simp [arxMain], by intro evs h; simp [arxMain] at h⟩
  · have := C77_absolute (o := ⟨some A, some P, none, [D], none, true, false, false, false, false⟩) (sys := p.main.create) rfl rfl
      (f := D) (by simp) hd
    rw [arxProgram, h]
    refine ⟨fun e => this.1 (cmdExit_ok.mp e), fun evs e => ?_⟩
    cases e
    exact this.2

/-- **The README's "stable" list is refused**: `--stable-output` takes the next word as its value, and no archive is left (or the word is
no number). Whatever the archive, the command line is wrong, nothing is listed. -/
theorem C95_stable_counterexample (ft : Features) {A : Bytes} (hA : WordName A) (p : ProgSys) :
    arxProgram ft (readmeStable A) p = (.none, .code 2) := by
  have W := listDef_wf
  have o3 : listDef.byLong (splitEq (ascii "stable-output")).1 =
      some ⟨.stableOutput, none, some (ascii "stable-output"), .value, fun v => (u8Value v).isSome⟩ := rfl
  have e3 : ascii "--stable-output" = 45 :: 45 :: ascii "stable-output" := rfl
  have e4 : (splitEq (ascii "stable-output")).2 = none := rfl
  have hc := arxCli_cons (ft := ft) (sub := ascii "list") (by decide) [ascii "--stable-output", A]
  rw [show subDef ft (ascii "list") = (listDef, listOf) by simp [subDef, show ascii "list" ≠ ascii "create" by decide]] at hc
  have hu : arxCli ft (readmeStable A) = .usage := by
    rw [readmeStable, hc, e3, W.read_long (by decide)]
    simp only [o3, e4]
    rw [CmdDef.read_pend hA.plain]
    by_cases hf : OptDef.fits ⟨.stableOutput, none, some (ascii "stable-output"), .value, fun v => (u8Value v).isSome⟩ [] A = true
    · rw [if_pos hf, CmdDef.read]
      simp [OptDef.flush, listOf, wordsOf]
    · rw [if_neg hf]
  rw [arxProgram, hu]
  rfl

section
variable {ft : Features} {A D : Bytes} {p : ProgSys} {s : Src} {a : Adder} {order : List Nat}

theorem ReadmeRun.written (h : ReadmeRun ft A D p s a order) :
    ∃ N, CreateEv.written N a ∈ ((readmeCreateOpts A D true).run p.main.create).1 := by
  obtain ⟨evs, e, N, h1, h2⟩ := h.wrote
  rw [readme_create_run h.zstd h.archiveName h.dirName] at h1
  cases h1
  exact ⟨N, h2⟩

theorem readmeRecurses (A D : Bytes) : (readmeCreateOpts A D true).Recurses := by
  unfold CreateOpts.Recurses
  simp [readmeCreateOpts]

/-- **C95, `arx extract A -C O`** of an archive made by `arx create -o A -r D`, to an empty or missing directory, no call failing:
succeeds and brings back `D`, all that is below, and nothing else. -/
theorem C95_extract (h : ReadmeRun ft A D p s a order) (hargs : ∀ c ∈ comps D, c ≠ PARENT ∧ (0 : UInt8) ∉ c)
    (htargets : ∀ q t u, s.fs.nodes q = some (.link t u) → validUtf8 t = true) (ft' : Features)
    {p' : ProgSys} (hf : FoundAs A a order p') {O : Bytes} (hO : WordName O) {w : World} {e : Exit}
    (hd : a.creator.store.length < p'.main.depth)
    (hrun : arxProgram ft' (readmeExtract A O) p' = (.extract (some w), e)) (hfin : w.finished)
    (hfault : ∀ n, p'.main.cmd.env.fault n = false) (hns : ∀ n, NoErr (p'.main.cmd.env.sched n)) (hnl : NoErr p'.main.last)
    (hT : EmptyTarget p'.main.fs (baseNames p'.main.cmd.cwd O)) :
    e = .code 0 ∧
      BroughtBack s p.main.create.cwd [] [D] True [] (fun _ _ => True) w.fs (baseNames p'.main.cmd.cwd O) := by
  obtain ⟨N, hN⟩ := h.written
  rw [arxProgram, readme_extract_line h.archiveName hO] at hrun
  have hrun' : ((readmeExtractOpts O).run (p'.at A).cmd p'.main.depth p'.main.fs p'.main.last).map (·.1) = some w ∧
      (readmeExtractOpts O).exit (p'.at A).cmd ((readmeExtractOpts O).run (p'.at A).cmd p'.main.depth p'.main.fs p'.main.last) = e := by
    have h1 := congrArg Prod.fst hrun
    have h2 := congrArg Prod.snd hrun
    exact ⟨Effect.extract.inj h1, h2⟩
  obtain ⟨h1, h2⟩ := hrun'
  cases hr : (readmeExtractOpts O).run (p'.at A).cmd p'.main.depth p'.main.fs p'.main.last with
  | none => rw [hr] at h1; cases h1
  | some r =>
    obtain ⟨w', res⟩ := r
    rw [hr] at h1 h2
    cases h1
    have := C71_create_extract (o := readmeCreateOpts A D true) (readmeCreateOpts_accepted A D true) rfl rfl h.quiet h.tree h.check h.walks hN
      (by intro f hf c hc; cases List.mem_singleton.mp hf; exact hargs c hc) htargets h.layout (by have := h.size; omega)
      (x := readmeExtractOpts O) (xs := (p'.at A).cmd) (lines := []) ⟨by simp [readmeExtractOpts], by simp [readmeExtractOpts]⟩
      (by intro l hl; cases hl) (by intro hl; exact absurd rfl hl) hf hd hr hfin hfault hns hnl hT
    obtain ⟨rfl, hb⟩ := this
    refine ⟨h2.symm, ?_⟩
    constructor
    · intro root hroot
      obtain ⟨k, q, j1, j2⟩ := hb.all root hroot
      exact ⟨k, q, j1, fun p hp _ z b e hz hb' _ => j2 p hp (Or.inr (readmeRecurses A D)) z b e hz hb' (Or.inl rfl)⟩
    · intro z x hz hx
      obtain ⟨root, hr, k, q, p, i1, i2, i3, i4, i5, b, i6, _⟩ := hb.only z x hz hx
      exact ⟨root, hr, k, q, p, i1, i2, Or.inr trivial, i4, i5, b, i6, trivial⟩

/-- what the archive of the README holds -/
theorem ReadmeRun.map (h : ReadmeRun ft A D p s a order) :
    ∃ rs m, Written rs (writeArchive a.creator order) ∧ SpecRun PathMap.empty rs m ∧ m.WF ∧
      HoldsInputs s p.main.create.cwd [] (packBytes a.contents) [D] True m := by
  obtain ⟨N, hN⟩ := h.written
  obtain ⟨rs, m, g1, g2, g3⟩ := CreateOpts.inputs_spec (readmeCreateOpts_accepted A D true) rfl rfl h.quiet h.tree h.check h.walks hN
  refine ⟨rs, m, ⟨_, order, g1, h.layout, rfl, by have := h.size; omega⟩, g2, SpecRun.wf g1 g2, ?_, ?_⟩
  · intro root hr
    obtain ⟨k, q, j1, j2⟩ := g3.all root hr
    exact ⟨k, q, j1, fun p hp _ => j2 p hp (Or.inr (readmeRecurses A D))⟩
  · intro z n hz
    obtain ⟨root, hr, k, q, p, i1, i2, i3, i4⟩ := g3.only z n hz
    exact ⟨root, hr, k, q, p, i1, i2, Or.inr trivial, i4⟩

theorem InputAt.unique {s : Src} {cwd : List Bytes} {pre : RPath} {root : Bytes} {k k' q q' : List Bytes} (h : InputAt s cwd pre root k q)
    (h' : InputAt s cwd pre root k' q') : k = k' ∧ q = q' := by
  refine ⟨h.1.unique h'.1, ?_⟩
  have := h.2.1
  rw [h'.2.1] at this
  cases this
  rfl

/-- the entries of the README's archive -/
theorem ReadmeRun.entries (h : ReadmeRun ft A D p s a order) {m : PathMap} (hwf : m.WF)
    (hm : HoldsInputs s p.main.create.cwd [] (packBytes a.contents) [D] True m)
    (hdir : ∀ k q, InputAt s p.main.create.cwd [] D k q → s.DirAt q) (z : List Bytes) :
    (∃ n, m z = some n) ↔ InTree s p.main.create.cwd D z := by
  constructor
  · rintro ⟨n, hz⟩
    obtain ⟨root, hr, k, q, u, i1, i2, _, i4, i5, i6⟩ := hm.only z n hz
    cases List.mem_singleton.mp hr
    by_cases hsp : s.Special (q ++ u)
    · -- a proper prefix of a special file
      have hne : z ≠ k ++ u := fun e => i6 e hsp
      by_cases hk : k <+: z
      · obtain ⟨v, rfl⟩ := hk
        have hv : v <+: u := (List.prefix_append_right_inj k).mp i5
        obtain ⟨u', rfl⟩ := hv
        have hu' : u' ≠ [] := by rintro rfl; simp at hne
        obtain ⟨y, hy⟩ := Option.ne_none_iff_exists'.mp i2
        obtain ⟨t, ht⟩ := h.tree.dirsTo hy (q ++ v) ⟨u', by simp⟩ (by simpa using hu')
        refine ⟨k, q, v, i1, by simp [Src.Has, ht], ?_, i4, List.prefix_refl _⟩
        rintro ⟨i, hi, _⟩
        rw [ht] at hi; cases hi
      · -- above the input, which then is a directory or the special file itself
        have hzk : z <+: k := by
          rcases List.prefix_or_prefix_of_prefix i5 (List.prefix_append k u) with e | e
          · exact e
          · exact absurd e hk
        obtain ⟨t, ht⟩ := hdir k q i1
        refine ⟨k, q, [], i1, by simp [Src.Has, ht], ?_, i4, by simpa using hzk⟩
        rintro ⟨i, hi, _⟩
        rw [List.append_nil, ht] at hi; cases hi
    · exact ⟨k, q, u, i1, i2, hsp, i4, i5⟩
  · rintro ⟨k, q, u, i1, i2, i3, i4, i5⟩
    obtain ⟨k', q', j1, j2⟩ := hm.all D (by simp)
    obtain ⟨rfl, rfl⟩ := i1.unique j1
    have hne : k ++ u ≠ [] := by
      intro e; rw [e] at i5; exact i4 (List.prefix_nil.mp i5)
    have hh := j2 u i2 (Or.inr trivial) hne i3
    have hs : ∃ n, m (k ++ u) = some n := by
      rcases hh with hh | ⟨t, n, _, h2, _⟩
      · unfold Archived at hh
        split at hh
        · exact hh.elim
        · exact ⟨_, hh⟩
        · exact ⟨_, hh⟩
        · rename_i i hi
          split at hh
          · rename_i hsp; exact absurd ⟨i, hi, hsp⟩ i3
          · obtain ⟨c, hc, _⟩ := hh; exact ⟨_, hc⟩
      · exact ⟨n, h2⟩
    obtain ⟨n, hn⟩ := hs
    by_cases e : z = k ++ u
    · subst e; exact ⟨n, hn⟩
    · obtain ⟨d, hd, _⟩ := hwf.ancestors _ n z hn ⟨i4, e, i5⟩
      exact ⟨d, hd⟩

/-- **C95, `arx list A`** of an archive made by `arx create -o A -r D` from a directory: one line for each entry of `D`, `D` itself and the
directories above, each once, in the order of the walk, and status 0 (or the reader of the output has gone: it got the beginning, and
the process ends by SIGPIPE). -/
theorem C95_list (h : ReadmeRun ft A D p s a order) (hdir : ∀ k q, InputAt s p.main.create.cwd [] D k q → s.DirAt q) (ft' : Features)
    {p' : ProgSys} (hf : FoundAs A a order p') (hd : (writeArchive a.creator order).entries.length < p'.main.depth) :
    ∃ (V : List (List Bytes)) (b : Bytes) (e : Exit), V.Pairwise lexLt ∧ (∀ z, z ∈ V ↔ InTree s p.main.create.cwd D z) ∧ arxProgram ft' (readmeList A) p' = (.stdout b, e) ∧
      ((e = .code 0 ∧ b = V.flatMap (fun z => joinPath z ++ [10])) ∨
       (e = .signal SIGPIPE ∧ b <+: V.flatMap (fun z => joinPath z ++ [10]) ∧ p'.main.out.Leaves 9216)) := by
  obtain ⟨rs, m, g1, g2, g3, g4⟩ := h.map
  obtain ⟨V, b, e, k1, k2, k3⟩ := C74_list g1 g2 (sys := p'.at A) (bytes := packBytes a.contents) hf hd
  refine ⟨V, b, e, k1.1, fun z => ?_, ?_, k3⟩
  · rw [k1.2 z, ← h.entries g3 g4 hdir z]
    refine ⟨fun x => x.1, fun x => ⟨x, List.nil_prefix, ?_⟩⟩
    rintro rfl
    obtain ⟨n, hn⟩ := x
    rw [g3.root] at hn; cases hn
  · rw [arxProgram, readme_list_line h.archiveName]
    exact k2

/-- **C95, `arx dump A f`** of an archive made by `arx create -o A -r D` from a directory: of a file below `D`, the reader gets the content of the
source file and the status is 0 (or the reader has gone); of anything else, it gets nothing and the status is 1. -/
theorem C95_dump (h : ReadmeRun ft A D p s a order) (hdir : ∀ k q, InputAt s p.main.create.cwd [] D k q → s.DirAt q) (ft' : Features)
    {p' : ProgSys} (hf : FoundAs A a order p') {f : Bytes} (hp : Plain f)
    (hu : validUtf8 f = true) (hc : comps f ≠ []) :
    (∀ k q u i, InputAt s p.main.create.cwd [] D k q → s.fs.nodes (q ++ u) = some (.file i) → s.special i = false → comps f = k ++ u →
      ∃ b e, arxProgram ft' (readmeDump A f) p' = (.stdout b, e) ∧
        ((e = .code 0 ∧ b = (s.fs.data i).bytes) ∨ (e = .signal SIGPIPE ∧ b <+: (s.fs.data i).bytes ∧ p'.main.out.Leaves 1024))) ∧
    ((∀ k q u i, InputAt s p.main.create.cwd [] D k q → s.fs.nodes (q ++ u) = some (.file i) → s.special i = false → comps f ≠ k ++ u) →
      arxProgram ft' (readmeDump A f) p' = (.stdout [], .code 1)) := by
  obtain ⟨rs, m, g1, g2, g3, g4⟩ := h.map
  have hline : arxProgram ft' (readmeDump A f) p' = arxMain (command (.dump f)) (p'.at A) := by
    rw [arxProgram, readmeDump, show [ascii "dump", A, f] = ascii "dump" :: A :: f :: (none : Option Bytes).toList from rfl,
      readme_dump_line h.archiveName hp hu (by intro O hO; cases hO)]
    rfl
  obtain ⟨d1, d2⟩ := C74_dump g1 g2 (sys := p'.at A) (bytes := packBytes a.contents) hf f hc
  constructor
  · intro k q u i i1 i2 i3 i4
    obtain ⟨k', q', j1, j2⟩ := g4.all D (by simp)
    obtain ⟨rfl, rfl⟩ := i1.unique j1
    have hh := j2 u (by simp [Src.Has, i2]) (Or.inr trivial) (by rw [← i4]; exact hc) (by
      rintro ⟨i', e, hs⟩
      rw [i2] at e; cases e
      rw [i3] at hs; cases hs)
    rcases hh with hh | ⟨t, n, e, _⟩
    · unfold Archived at hh
      simp only [i2, i3, Bool.false_eq_true, if_false] at hh
      obtain ⟨c, h1, h2⟩ := hh
      rw [← i4] at h1
      rw [hline]
      exact (d2 _ _ _ h1 rfl).2.2 _ h2
    · rw [i2] at e; cases e
  · intro hno
    rw [hline]
    refine d1 ?_
    intro n sz c hn hk
    obtain ⟨root, hr, k, q, u, i1, i2, _, i4, i5, i6⟩ := g4.only _ n hn
    cases List.mem_singleton.mp hr
    obtain ⟨k', q', j1, j2⟩ := g4.all D (by simp)
    obtain ⟨rfl, rfl⟩ := i1.unique j1
    obtain ⟨y, hy⟩ := Option.ne_none_iff_exists'.mp i2
    by_cases e : comps f = k ++ u
    · have hh := j2 u i2 (Or.inr trivial) (by rw [← e]; exact hc) (i6 e)
      rw [← e, hn] at hh
      rcases hh with hh | ⟨t, n', _, e1, e2⟩
      · unfold Archived at hh
        cases y with
        | dir t => simp only [hy, Option.some.injEq] at hh; rw [hh] at hk; cases hk
        | link tg t => simp only [hy, Option.some.injEq] at hh; rw [hh] at hk; cases hk
        | file i =>
          refine hno k q u i i1 hy ?_ e
          cases hs : s.special i with
          | false => rfl
          | true => exact absurd ⟨i, hy, hs⟩ (i6 e)
      · cases e1
        simp [Node.isDir, hk, Kind.isDir] at e2
    · -- a directory above
      by_cases hkz : k <+: comps f
      · obtain ⟨v, hv⟩ := hkz
        rw [← hv] at i5 e
        obtain ⟨u', rfl⟩ := (List.prefix_append_right_inj k).mp i5
        obtain ⟨t, ht⟩ := h.tree.dirsTo hy (q ++ v) ⟨u', by simp⟩ (by
          intro e'; apply e; simp at e'; simp [e'])
        have hh := j2 v (by simp [Src.Has, ht]) (Or.inr trivial) (by rw [hv]; exact hc) (by rintro ⟨i, e, _⟩; rw [ht] at e; cases e)
        rw [hv, hn] at hh
        rcases hh with hh | ⟨t, n', _, e1, e2⟩
        · unfold Archived at hh
          simp only [ht, Option.some.injEq] at hh
          rw [hh] at hk; cases hk
        · cases e1
          simp [Node.isDir, hk, Kind.isDir] at e2
      · have hfk : comps f <+: k := by
          rcases List.prefix_or_prefix_of_prefix i5 (List.prefix_append k u) with e | e
          · exact e
          · exact absurd e hkz
        obtain ⟨t, ht⟩ := hdir k q i1
        have hkne : k ≠ [] := by rintro rfl; exact hc (List.prefix_nil.mp hfk)
        have hh := j2 [] (by simp [Src.Has, ht]) (Or.inr trivial) (by simpa using hkne) (by
          rintro ⟨i, e, _⟩; rw [List.append_nil, ht] at e; cases e)
        have hs : ∃ n', m k = some n' := by
          simp only [List.append_nil] at hh
          rcases hh with hh | ⟨_, n', _, e1, _⟩
          · unfold Archived at hh
            simp only [ht] at hh
            exact ⟨_, hh⟩
          · exact ⟨n', e1⟩
        obtain ⟨n', hn'⟩ := hs
        obtain ⟨d, e1, e2⟩ := g3.ancestors _ _ (comps f) hn' ⟨hc, fun e => hkz (by rw [e]; exact List.prefix_refl _), hfk⟩
        rw [hn] at e1; cases e1
        simp [Node.isDir, hk, Kind.isDir] at e2

/-- **The README's dump to a file writes nothing**: whatever the archive, the file and the output, nothing is written to standard output,
no file is changed or created, and the status is 0 only if the output file was there already and what was asked for is empty (or its
pack is missing). -/
theorem C95_dump_file_counterexample (ft : Features) {A f O : Bytes} (hA : WordName A) (hf : Plain f) (hu : validUtf8 f = true) (hO : WordName O)
    (hv : validUtf8 O = true) (p : ProgSys) :
    ∃ e, arxProgram ft (readmeDumpTo A f O) p = (.dumped ⟨[], p.files⟩, e) ∧
      (e = .code 0 → p.files O ≠ none ∧ ∃ ar bytes c, p.archives A = some (ar, bytes) ∧ ar.getEntry dumpBuilder f = .ok (.file c) ∧
        (bytes c = .missing ∨ bytes c = .found [])) := by
  have hne : O ≠ [45] := by rintro rfl; exact hO.2 rfl
  have hline : arxCli ft (readmeDumpTo A f O) = .args ⟨none, none, some (.dump A f (some O))⟩ := by
    rw [readmeDumpTo, show [ascii "dump", A, f, O] = ascii "dump" :: A :: f :: (some O : Option Bytes).toList from rfl]
    exact readme_dump_line hA hf hu (by intro O' h'; cases h'; exact ⟨hO.plain, hv⟩)
  rw [arxProgram, hline]
  simp only [Cli.exec]
  rw [if_neg (by simp [hne])]
  cases har : p.archives A with
  | none => exact ⟨_, rfl, by simp⟩
  | some x =>
    obtain ⟨ar, bytes⟩ := x
    obtain ⟨k1, k2⟩ := C45_file_counterexample ar bytes f O hne p.main.out p.main.sizes ⟨[], p.files⟩
    simp only [k1]
    refine ⟨_, rfl, fun e => ?_⟩
    obtain ⟨⟨old, h1⟩, c, h2, h3⟩ := k2 (cmdExit_ok.mp e)
    exact ⟨by rw [show p.files O = some old from h1]; simp, ar, bytes, c, rfl, h2, h3⟩

/-- **C95, `arx mount A M`** of an archive made by `arx create -o A -r D`: the command returns with status 0, and the archive is served
at `M`; any program that copies the mount gets `D` and all that is below (and the directories above), with their contents, link
targets and attributes, and nothing else; the other readers show the same. -/
theorem C95_mount (h : ReadmeRun ft A D p s a order) (F : s.Fits) (hargs : ∀ c ∈ comps D, c ≠ PARENT ∧ c.length ≤ 255) (ft' : Features)
    {p' : ProgSys} (hf : FoundAs A a order p') {M : Bytes} (hM : WordName M) (hdet : p'.main.mount.detachOk = true)
    (hu : validUtf8 (joinPaths p'.main.mount.cwd A) = true) :
    ∃ rg opts, arxProgram ft' (readmeMount A M) p' = (.mount [.detach, .serve (joinPaths p'.main.mount.cwd M) rg opts], .code 0) ∧
    ∃ B, ∀ (cl : Client) (before : List FReq), cl.Served before → ∀ n ≥ B,
      ∃ l c, cl.copy ⟨writeArchive a.creator order, rg, packBytes a.contents⟩ n
          ((FsState.init.run ⟨writeArchive a.creator order, rg, packBytes a.contents⟩ before).2, 0) [] 1 = (some l, c) ∧
        ShowsSource s (OffersTree s p.main.create.cwd [] true D) [] l ∧
        OtherReaders (writeArchive a.creator order) (packBytes a.contents) l := by
  obtain ⟨N, hN⟩ := h.written
  have hcmd : mountCmd ⟨A, some M, none, false⟩ (p'.at A).mount = ([.detach, .serve (joinPaths p'.main.mount.cwd M)
      (writeArchive a.creator order).root (mountOptions (joinPaths p'.main.mount.cwd A))], .ok) := by
    have har : (p'.at A).mount.archive = some (writeArchive a.creator order) := by
      show (p'.archives A).map (·.1) = _
      rw [hf]; rfl
    have h1 : (p'.at A).mount.detachOk = true := hdet
    have h2 : (p'.at A).mount.cwd = p'.main.mount.cwd := rfl
    simp only [mountCmd, har, mountRootCmd, h1, h2, hu]
    simp
  refine ⟨(writeArchive a.creator order).root, mountOptions (joinPaths p'.main.mount.cwd A), ?_, ?_⟩
  · rw [arxProgram, readme_mount_line h.archiveName hM]
    show (Effect.mount (mountCmd ⟨A, some M, none, false⟩ (p'.at A).mount).1, (mountCmd ⟨A, some M, none, false⟩ (p'.at A).mount).2.exit) = _
    rw [hcmd]
    rfl
  · obtain ⟨_, B, hB⟩ := C79_inputs (readmeCreateOpts_accepted A D true) rfl rfl h.quiet h.tree F h.check h.walks hN
      (by intro f hf c hc; cases List.mem_singleton.mp hf; exact hargs c hc) h.layout h.size (mo := ⟨A, some M, none, false⟩)
      (ms := (p'.at A).mount) (dir := joinPaths p'.main.mount.cwd M) (rg := (writeArchive a.creator order).root)
      (opts := mountOptions (joinPaths p'.main.mount.cwd A))
      (by show (p'.archives A).map (·.1) = _; rw [hf]; rfl) (by rw [hcmd]; simp)
    refine ⟨B, fun cl before hs n hn => ?_⟩
    obtain ⟨l, c, e1, e2, e3⟩ := hB cl before hs n hn
    refine ⟨l, c, e1, ⟨e2.once, ?_, ?_⟩, e3 rfl⟩
    · intro u hu
      exact e2.all u ⟨D, by simp [readmeCreateOpts], hu⟩
    · intro x hx
      obtain ⟨x1, u, ⟨f, hf, hu⟩, x2⟩ := e2.only x hx
      cases List.mem_singleton.mp hf
      exact ⟨x1, u, hu, x2⟩

end

theorem readme_tool_line {ft : Features} (hz : ft.zstd = true) {A T : Bytes} (hA : WordName A) (hT : WordName T) {ck : Bytes → Bool} (hck : ck T = true) :
    ∃ l, Line ⟨toolOpts ft, [ck], none, []⟩ (readmeConvert A T) l ∧ Allowed ⟨toolOpts ft, [ck], none, []⟩ l ∧
      ToolSaid ft l (some T) (some A) (.zstd .default) .oneFile ∧ ¬ OtherSaid l := by
  refine ⟨[.value .outfile A, .word T], Or.inl ?_, ?_, ?_, ?_⟩
  · have h1 : Piece ⟨toolOpts ft, [ck], none, []⟩ [ascii "-o", A] [.value .outfile A] :=
      .lettersNext (o := ⟨.outfile, some 111, some (ascii "outfile"), .value, pathValue⟩) (x := 111) .nil (by simp [toolOpts]) rfl (Or.inl rfl) hA.plain
    exact .cons h1 (.cons (.word hT.plain) .nil)
  · refine ⟨once_of_keys (by simp [List.filterMap_cons, Use.key]), ?_, ?_⟩
    · intro a v hm
      simp only [List.mem_cons, Use.value.injEq, reduceCtorEq, List.not_mem_nil, or_false] at hm
      obtain ⟨rfl, rfl⟩ := hm
      exact ⟨⟨.outfile, some 111, some (ascii "outfile"), .value, pathValue⟩, by simp [toolOpts], rfl, by simpa [pathValue] using hA.1⟩
    · intro i w hi
      cases i with
      | zero =>
        simp only [said, List.filterMap_cons, Use.text, List.filterMap_nil, List.getElem?_cons_zero, Option.some.injEq] at hi
        subst hi
        exact Or.inl ⟨ck, rfl, hck⟩
      | succ i => simp [said, List.filterMap_cons, Use.text] at hi
  · refine ⟨rfl, ?_, Or.inr ⟨by simp, hz, rfl⟩, Or.inr (Or.inr (Or.inr ⟨by simp, by simp, by simp, rfl⟩))⟩
    intro v; simp [eq_comm]
  · simp [OtherSaid]

/-- **C95, `tar2arx -o A T`, `zip2arx -o A T`**: they convert `T` to `A`, with the default compression, in one file. (For `tar2arx` the name
has to be UTF-8.) -/
theorem C95_convert {ft : Features} (hz : ft.zstd = true) {A T : Bytes} (hA : WordName A) (hT : WordName T) :
    (validUtf8 T = true → tarCli ft (readmeConvert A T) = .convert (some T) (some A) (.zstd .default) .oneFile) ∧
    zipCli ft (readmeConvert A T) = .convert (some T) (some A) (.zstd .default) .oneFile :=
  ⟨fun hu => (C94_tar2arx ft _ _ _ _ _).mpr (readme_tool_line hz hA hT hu),
    (C94_zip2arx ft _ _ _ _ _).mpr ⟨by simp, by simp, readme_tool_line hz hA hT (by simpa [pathValue] using hT.1)⟩⟩

/-! ## Examples -/

def readmeProg (out : OutEnv) : ProgSys where
  main := { mainSys out with create := exSys }
  archives n := if n = ascii "x.arx" then some (writeArchive tripAdder.creator tripOrder, packBytes tripAdder.contents) else none
  files _ := none

/-- the README's commands can be run: `arx create -o x.arx -r d` on the example source writes an archive -/
theorem exReadmeRun (out : OutEnv) : ReadmeRun allFeatures (ascii "x.arx") (ascii "d") (readmeProg out) exSrc tripAdder tripOrder where
  zstd := rfl
  archiveName := by unfold WordName; decide
  dirName := by unfold WordName; decide
  quiet := exEnv_quiet
  tree := exSrc_wf
  check := rfl
  walks := exSys_walks
  wrote := by
    obtain ⟨N, hN⟩ := tripAdder_written
    rw [show exCreate = readmeCreateOpts (ascii "x.arx") (ascii "d") false from rfl, readme_same_run] at hN
    refine ⟨_, _, N, readme_create_run rfl (by unfold WordName; decide) (by unfold WordName; decide) _, ?_⟩
    have : (readmeProg out).main.create = exSys := by simp only [readmeProg]
    rw [this]
    exact hN
  layout := ⟨by decide +kernel, by decide +kernel⟩
  size := by decide +kernel

example (out : OutEnv) : FoundAs (ascii "x.arx") tripAdder tripOrder (readmeProg out) := rfl

theorem exReadme_dir (k q : List Bytes) (h : InputAt exSrc [] [] (ascii "d") k q) : exSrc.DirAt q := by
  have e : exSrc.fs.resolve true (namesOf [] (ascii "d")) = .ok (.found [ascii "d"]) := by decide +kernel
  have h2 := h.2.1
  rw [e] at h2
  cases h2
  exact ⟨1000000000, by decide +kernel⟩

example : ∃ (V : List (List Bytes)) (b : Bytes) (e : Exit), V.Pairwise lexLt ∧ (∀ z, z ∈ V ↔ InTree exSrc [] (ascii "d") z) ∧
    arxProgram allFeatures (readmeList (ascii "x.arx")) (readmeProg fineOut) = (.stdout b, e) := by
  obtain ⟨V, b, e, h1, h2, h3, _⟩ := C95_list (exReadmeRun fineOut) exReadme_dir allFeatures (p' := readmeProg fineOut) rfl (by decide +kernel)
  exact ⟨V, b, e, h1, h2, h3⟩

example : ∃ b e, arxProgram allFeatures (readmeDump (ascii "x.arx") (ascii "d/f")) (readmeProg fineOut) = (.stdout b, e) ∧ (e = .code 0 → b = ascii "hi") := by
  obtain ⟨b, e, h1, h2⟩ := (C95_dump (exReadmeRun fineOut) exReadme_dir allFeatures (p' := readmeProg fineOut) rfl (f := ascii "d/f") (Or.inl (by decide))
    (by decide) (by decide)).1 [ascii "d"] [ascii "d"] [ascii "f"] 0 ⟨by unfold StoredAs; decide +kernel, by decide +kernel, by unfold Src.Has; decide +kernel⟩
    (by decide +kernel) rfl (by decide +kernel)
  exact ⟨b, e, h1, fun he => by
    rcases h2 with ⟨_, h⟩ | ⟨h, _⟩
    · exact h
    · rw [he] at h; cases h⟩

end Arx
