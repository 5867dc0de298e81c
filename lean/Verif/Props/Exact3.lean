import Verif.Props.Extract2
import Verif.Props.Cmd2
import Verif.Props.Python2
/-!
# What exactly happens where a property is violated: extraction, commands, Python
-/
namespace Arx

/-- **C20, in full.** If an extraction reports success, every selected entry is as `Extracted` says. In particular
every content could be looked up; a file whose pack is missing is as it was before. -/
theorem C20_exact {rs : List AddReq} {m : PathMap} {cfg : XCfg} {rg : Range} {d0 : List Bytes} {before after : FS}
    (h : Source rs m cfg.a rg d0) (T : PlainTarget before cfg.base (m.sub d0))
    (hx : Extraction cfg rg before after .ok) {p : List Bytes} {n : Node} (hp : m.sub d0 p = some n)
    (hs : Selected cfg.files cfg.recurse p n.isDir) : Extracted cfg.mode cfg.bytes before after (cfg.base ++ p) n :=
  ((hx.main h T).2.2 rfl).2 p n hp hs

/-- **C47, in full.** For entries with names that a file can have (and UTF-8): extracting a created archive to an
empty place, without failing system calls, succeeds exactly if every link has a target that a link can have
(`LinkText`) and no content is unreadable. -/
theorem C47_exact {rs : List AddReq} {m : PathMap} {cfg : XCfg} {rg : Range} {d0 : List Bytes} {before after : FS} {res : XResult}
    (h : Source rs m cfg.a rg d0) (hall : cfg.files = [])
    (hnames : ∀ p n, m.sub d0 p = some n → ∀ c ∈ p, PlainName c ∧ validUtf8 c = true)
    (hT : EmptyTarget before cfg.base) (hx : CleanExtraction cfg rg before after res) :
    res = .ok ↔ (∀ p n t, m.sub d0 p = some n → n.kind = .link t → LinkText t) ∧
      (∀ p n s c, m.sub d0 p = some n → n.kind = .file s c → cfg.bytes c ≠ .err) := by
  have T : PlainTarget before cfg.base (m.sub d0) := hT.plain (bytes := cfg.bytes) (fun p n hp c hc => (hnames p n hp c hc).1)
  have hnone : ∀ p, p ≠ [] → before.nodes (cfg.base ++ p) = none := fun p hp =>
    hT.below _ (List.prefix_append _ _) (by simpa using hp)
  constructor
  · rintro rfl
    obtain ⟨_, _, depth, last, w, hd, hrun, hfin, haft, _⟩ := hx
    have hX : Extraction cfg rg before after .ok := ⟨depth, last, w, hd, hrun, hfin, haft⟩
    have key := fun {p : List Bytes} {n : Node} (hp : m.sub d0 p = some n) => C20_exact h T hX hp (Or.inl hall)
    refine ⟨fun p n t hp hk => ?_, fun p n s c hp hk e => ?_⟩
    · have := key hp
      simp only [Extracted, hk] at this
      exact this.1
    · have := key hp
      simp only [Extracted, hk, e] at this
  · rintro ⟨h1, h2⟩
    refine hx.ok h T (NoObstacle.of hx.1 ?_ ?_ ?_ (fun p n hp c hc => (hnames p n hp c hc).2) (fun p n t a b => (h1 p n t a b).1)
      (fun p n t a _ b => (h1 p n t a b).2))
    · intro q i hq e
      obtain ⟨u, hu⟩ := hT.way q _ hq e
      cases hu
    · intro p n x hp _ e
      rw [hnone p (PathMap.sub_some hp).1] at e; cases e
    · intro p n s c hp _ hk e
      exact h2 p n s c hp hk e

example : LinkText (ascii "../b") ∧ ¬ LinkText [] ∧ ¬ LinkText [0xff] ∧ ¬ LinkText [97, 0] := by
  simp only [LinkText]; decide

/-- **C45, in full.** `arx dump`, for every path and output: crashes exactly for paths without names; otherwise it
reports an error, changing nothing, if there is no file at the path; and nothing is written if the
content is in a missing pack (success) or unreadable (error), or if an output file is given (success exactly if that file exists
and the content is empty or its pack missing). The remaining case is `C45_dump_partial`. -/
theorem C45_exact {rs : List AddReq} {a : Archive} {m : PathMap} (h : Written rs a)
    (hm : SpecRun PathMap.empty rs m) (bytes : ContentAddr → GetBytes) (path : RPath) (out : Option Bytes) (o : OutEnv)
    (ns : List Nat) (d : DumpSys) :
    ((dump o ns a bytes path out d).2 = .panic ↔ comps path = []) ∧
    (comps path ≠ [] → (∀ n s c, m (comps path) = some n → n.kind ≠ .file s c) → dump o ns a bytes path out d = (d, .err)) ∧
    (∀ n s c, m (comps path) = some n → n.kind = .file s c →
      (bytes c = .err → dump o ns a bytes path out d = (d, .err)) ∧
      (out = none ∨ out = some (ascii "-") →
        (bytes c = .missing → dump o ns a bytes path out d = (d, .ok)) ∧
        ((dump o ns a bytes path out d).1.files = d.files)) ∧
      (∀ f, out = some f → f ≠ ascii "-" →
        dump o ns a bytes path out d = (d, if d.files f ≠ none ∧ (bytes c = .missing ∨ bytes c = .found []) then .ok else .err))) := by
  have hpan : comps path = [] → a.getEntry dumpBuilder path = .error .panic := by
    intro hp; unfold Archive.getEntry; rw [hp]; rfl
  have hstd : ∀ b, (d.toStdout o ns b).2 ≠ .panic ∧ (d.toStdout o ns b).1.files = d.files := by
    intro b
    simp only [DumpSys.toStdout]
    cases Sink.new.writes dumpCap o (chop ns b) with
    | mk s ok => cases ok <;> simp
  have hent : ∀ e, (∀ b, (d.toStdout o ns b).2 ≠ .panic) → (dumpEntry bytes e (d.toStdout o ns) d).2 ≠ .panic ∧
      (dumpEntry bytes e d.toReadOnly d).2 ≠ .panic := by
    intro e he
    cases e with
    | dir r u => simp [dumpEntry]
    | link u => simp [dumpEntry]
    | file c =>
      simp only [dumpEntry]
      cases bytes c with
      | err => simp
      | missing => simp
      | found b => exact ⟨he b, by simp only [DumpSys.toReadOnly]; split <;> simp⟩
  refine ⟨⟨fun hd => ?_, fun hp => ?_⟩, fun hp hno => ?_, fun n s c hn hk => ?_⟩
  · refine Classical.byContradiction fun hp => ?_
    have hg := dump_getEntry h hm path hp
    cases hk : m (comps path) with
    | none => rw [hk] at hg; simp only at hg; rw [dump, hg] at hd; cases hd
    | some n =>
      rw [hk] at hg
      simp only at hg
      obtain ⟨e, he, _⟩ := hg
      have := hent e (fun b => (hstd b).1)
      rw [dump, he] at hd
      cases out with
      | none => exact this.1 hd
      | some f =>
        simp only at hd
        split at hd
        · exact this.1 hd
        · split at hd
          · cases hd
          · exact this.2 hd
  · rw [dump, hpan hp]
  · have hg := dump_getEntry h hm path hp
    cases hk : m (comps path) with
    | none => rw [hk] at hg; simp only at hg; rw [dump, hg]
    | some n =>
      rw [hk] at hg
      simp only at hg
      obtain ⟨e, he, hke⟩ := hg
      have hev : ∀ copy, dumpEntry bytes e copy d = (d, .err) := by
        intro copy
        cases hnk : n.kind with
        | dir => rw [hnk] at hke; obtain ⟨r, rfl⟩ := hke; rfl
        | link t => rw [hnk] at hke; cases hke; rfl
        | file s c => exact absurd hnk (hno n s c hk)
      rw [dump, he]
      cases out with
      | none => exact hev _
      | some f =>
        simp only
        split
        · exact hev _
        · split
          · rfl
          · exact hev _
  · have hp : comps path ≠ [] := by
      intro e
      obtain ⟨P, G⟩ := h.good' hm
      rw [e, G.wf.root] at hn; cases hn
    have hg := dump_getEntry h hm path hp
    rw [hn] at hg
    simp only [hk] at hg
    obtain ⟨e, he, rfl⟩ := hg
    refine ⟨fun hb => ?_, fun hout => ?_, fun f hf hne => ?_⟩
    · rw [dump, he]
      cases out with
      | none => simp [dumpEntry, hb]
      | some f =>
        simp only [dumpEntry, hb]
        split
        · rfl
        · split <;> rfl
    · have hred : dump o ns a bytes path out d = dumpEntry bytes (.file c) (d.toStdout o ns) d := by
        rw [dump, he]
        rcases hout with rfl | rfl <;> rfl
      rw [hred]
      simp only [dumpEntry]
      refine ⟨fun hb => by rw [hb], ?_⟩
      cases bytes c with
      | err => rfl
      | missing => rfl
      | found b => exact (hstd b).2
    · subst hf
      have hne' : f ≠ [45] := fun e => hne (by rw [e]; rfl)
      rw [dump, he]
      simp only [if_neg hne']
      cases hf : d.files f with
      | none => simp
      | some old =>
        simp only [dumpEntry]
        cases hb : bytes c with
        | err => simp
        | missing => simp
        | found b =>
          simp only [DumpSys.toReadOnly]
          by_cases hbe : b = []
          · subst hbe; simp
          · simp [hbe]

/-- **C53, in full.** `get_entry` of the Python module crashes exactly for the relative UTF-8 paths that name nothing. -/
theorem C53_panics_iff {rs : List AddReq} {a : Archive} {m : PathMap} (h : Written rs a)
    (hm : SpecRun PathMap.empty rs m) (text : Bytes) :
    pyGetEntry a text = .error .panic ↔
      text.head? ≠ some SEP ∧ (∀ c ∈ comps text, validUtf8 c = true) ∧ ∀ c ∈ comps text, c = CUR := by
  obtain ⟨k1, k2, k3⟩ := C53_get_entry_partial h hm text
  constructor
  · intro he
    have h1 : text.head? ≠ some SEP := by intro e; rw [k1 e] at he; cases he
    have h2 : ∀ c ∈ comps text, validUtf8 c = true := by
      intro c hc
      cases hv : validUtf8 c with
      | true => rfl
      | false => rw [k2 h1 ⟨c, hc, hv⟩] at he; cases he
    refine ⟨h1, h2, ?_⟩
    have h3 : pyPathOf text = [] := by
      refine Classical.byContradiction fun hn => ?_
      have := k3 h1 h2 hn
      cases hk : m (pyPathOf text) with
      | none => rw [hk] at this; simp only at this; rw [this] at he; cases he
      | some n =>
        rw [hk] at this
        obtain ⟨e, h4, _⟩ := this
        rw [h4] at he; cases he
    intro c hc
    refine Classical.byContradiction fun hn => ?_
    have : c ∈ pyPathOf text := List.mem_filter.mpr ⟨hc, by simpa using hn⟩
    rw [h3] at this; cases this
  · rintro ⟨h1, h2, h3⟩
    have he : pyPathOf text = [] := List.filter_eq_nil_iff.mpr (fun c hc => by simpa using h3 c hc)
    have hpy : pyGetEntry a text = (match a.getEntry fullBuilder (joinPath (pyPathOf text)) with
      | .ok e => .ok e
      | .error .panic => .error .panic
      | .error _ => .error .value) := by
      rw [pyGetEntry, fromPathBuf_eq, if_neg h1, if_pos h2]; rfl
    rw [hpy, he]
    rfl

example : (ascii "./.").head? ≠ some SEP ∧ ∀ c ∈ comps (ascii "./."), c = CUR := by decide

/-- **C52, in full.** As `C52_extract_partial` for every list of paths: where an empty list asks for everything. -/
theorem C52_exact {rs : List AddReq} {m : PathMap} {a : Archive} {bytes : ContentAddr → GetBytes}
    {o : ExtractOpts} {sys : CmdSys} {lines : List Bytes} (h : Written rs a) (hm : SpecRun PathMap.empty rs m)
    (hacc : o.Accepted) (harch : sys.archive = some (a, bytes)) (hl : o.Lines sys lines)
    {depth : Nat} {before after : FS} {last : List (Nat × WriteRes)} {w : World} {res : XResult}
    (hd : a.entries.length < depth) (hrun : o.run sys depth before last = some (w, res)) (hfin : w.finished)
    (haft : w.fs = after) (T : PlainTarget before (o.target sys.cwd) (m.sub o.rootOf)) :
    (∀ q, ¬ q <+: o.target sys.cwd →
      (¬ ∃ p n, q = o.target sys.cwd ++ p ∧ m.sub o.rootOf p = some n ∧
        (Wanted o lines p n.isDir ∨ (o.fileList ≠ none ∧ lines = []))) →
      after.nodes q = before.nodes q) ∧
    (res = .ok → (∀ p n, m.sub o.rootOf p = some n → before.nodes (o.target sys.cwd ++ p) = none) →
      (∀ p n s c, m.sub o.rootOf p = some n → n.kind = .file s c → ∃ b, bytes c = .found b) →
      ∀ p n, m.sub o.rootOf p = some n →
        (after.nodes (o.target sys.cwd ++ p) ≠ none ↔ (Wanted o lines p n.isDir ∨ (o.fileList ≠ none ∧ lines = [])))) := by
  by_cases hne : o.fileList ≠ none → lines ≠ []
  · have hno : ¬ (o.fileList ≠ none ∧ lines = []) := fun ⟨a, b⟩ => hne a b
    simpa [hno] using C52_extract_partial h hm hacc harch hl hne hd hrun hfin haft T
  · have he : o.fileList ≠ none ∧ lines = [] := by
      refine Classical.byContradiction fun hc => hne fun h1 h2 => hc ⟨h1, h2⟩
    have hw : ∀ p d, (Wanted o lines p d ∨ (o.fileList ≠ none ∧ lines = [])) ↔ True := fun _ _ => ⟨fun _ => trivial, fun _ => .inr he⟩
    simp only [hw, and_true]
    cases hfl : o.fileList with
    | none => exact absurd hfl he.1
    | some l =>
      have hl' := hl
      obtain ⟨text, ht, hlines⟩ := hl l hfl
      have htext : linesFrom [] text = [] := by rw [hlines.lines, he.2]
      obtain ⟨files, rg, hf, hs, hx⟩ := ExtractOpts.run_source h hm harch hrun
      have hfiles : files = [] := by
        simp only [ExtractOpts.toExtract, hfl, readLines, ht, htext] at hf
        simpa using hf.symm
      subst hfiles
      have hX : Extraction (o.cfg sys a bytes []) rg before after res := ⟨depth, last, w, hd, hx, hfin, haft⟩
      have hsel : ∀ p d, Selected ([] : List RPath) o.recursion p d := fun _ _ => Or.inl rfl
      constructor
      · intro q hq hno
        refine (C16_nothing_else (cfg := o.cfg sys a bytes []) hs T hX).nodes q hq ?_
        rintro ⟨p, n, h1, h2, _⟩
        exact hno ⟨p, n, h1, h2⟩
      · rintro rfl hnew hcont p n hp
        have := C13_selection (cfg := o.cfg sys a bytes []) hs T hX hnew hcont p n hp
        exact ⟨fun _ => trivial, fun _ => this.mpr (hsel _ _)⟩

end Arx
