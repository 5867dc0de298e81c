import Verif.Spec.ListFile
import Verif.Props.Trip
import Verif.Props.TripConv
import Verif.Props.Reproduce
import Verif.Props.RoundTrip
import Verif.Props.Walk
import Verif.Props.Steps
import Verif.Props.Views

/-! C96: the output of `arx list` is a file list. -/
namespace Arx

theorem joinPath_no_newline {p : List Bytes} (h : ∀ c ∈ p, (10 : UInt8) ∉ c) : (10 : UInt8) ∉ joinPath p := by
  induction p with
  | nil => simp [joinPath]
  | cons c t ih =>
    have h1 := h c (by simp)
    have h2 := ih fun x hx => h x (by simp [hx])
    cases t with
    | nil => simpa [joinPath] using h1
    | cons d t =>
      simp only [joinPath, List.mem_append, List.mem_cons, not_or]
      exact ⟨h1, by decide, h2⟩

theorem joinPath_last {p : List Bytes} (hne : p ≠ []) (hv : ∀ c ∈ p, ValidName c) : ∃ c, p.getLast? = some c ∧ (joinPath p).getLast? = c.getLast? := by
  induction p with
  | nil => exact absurd rfl hne
  | cons c t ih =>
    cases t with
    | nil => exact ⟨c, rfl, rfl⟩
    | cons d t =>
      obtain ⟨e, h1, h2⟩ := ih (by simp) fun x hx => hv x (by simp [hx])
      refine ⟨e, by simpa [List.getLast?_cons_cons] using h1, ?_⟩
      simp only [joinPath]
      rw [List.getLast?_append, List.getLast?_cons]
      have : joinPath (d :: t) ≠ [] := fun e => by
        have := (joinPath_eq_nil (fun x hx => hv x (by simp [hx]))).mp e
        cases this
      rw [h2]
      have hv' := hv e (by have := List.mem_of_getLast? h1; simp [this])
      cases he : e.getLast? with
      | none => exact absurd (List.getLast?_eq_none_iff.mp he) hv'.1
      | some b => simp

theorem textOf_paths {V : List (List Bytes)} (hv : ∀ p ∈ V, p ≠ [] ∧ (∀ c ∈ p, ValidName c) ∧ OneLine p) :
    TextOf (V.map joinPath) (V.flatMap (fun p => joinPath p ++ [10])) := by
  induction V with
  | nil => exact .empty
  | cons p V ih =>
    obtain ⟨h1, h2, h3, h4⟩ := hv p (by simp)
    have := ih fun q hq => hv q (by simp [hq])
    simp only [List.map_cons, List.flatMap_cons, List.append_assoc, List.singleton_append]
    refine .line (joinPath_no_newline h3) ?_ this
    obtain ⟨c, i1, i2⟩ := joinPath_last h1 h2
    rw [i2]
    exact h4 c i1

theorem Written.mapWF {rs : List AddReq} {a : Archive} {m : PathMap} (h : Written rs a) (hm : SpecRun PathMap.empty rs m) : m.WF := by
  obtain ⟨st, o, h1, _⟩ := h
  exact SpecRun.wf h1 hm

/-- **C96 (the lines).** The lines of what `arx list` prints are the paths of the archive, each once, if every path is one line. -/
theorem C96_lines {rs : List AddReq} {a : Archive} {m : PathMap} (h : Written rs a) (hm : SpecRun PathMap.empty rs m)
    (hline : ∀ p n, m p = some n → OneLine p) {depth : Nat} (hd : a.entries.length < depth) {out : Bytes} {ok : Bool} (hout : listCmd a none depth = (out, ok))
    {lines : List Bytes} (hlines : TextOf lines out) :
    ok = true ∧ lines.Nodup ∧ (∀ x, x ∈ lines ↔ ∃ p n, m p = some n ∧ x = joinPath p) ∧ ∀ p n, m p = some n → comps (joinPath p) = p := by
  obtain ⟨V, hV, e⟩ := C11_list h hm depth hd
  have W := h.mapWF hm
  rw [e] at hout
  cases hout
  have hall : ∀ p ∈ V, p ≠ [] ∧ (∀ c ∈ p, ValidName c) ∧ OneLine p := by
    intro p hp
    obtain ⟨⟨n, hn⟩, _, h3⟩ := (hV.2 p).mp hp
    exact ⟨fun e => h3 e.symm, W.names p n hn, hline p n hn⟩
  have hl : lines = V.map joinPath := by rw [← TextOf.lines hlines, ← TextOf.lines (textOf_paths hall)]
  subst hl
  have hc : ∀ p n, m p = some n → comps (joinPath p) = p := fun p n hn => comps_joinPath (W.names p n hn)
  refine ⟨rfl, ?_, ?_, hc⟩
  · rw [List.Nodup, List.pairwise_map]
    refine hV.1.imp_of_mem ?_
    intro p q hp hq hlt e
    have : p = q := by
      obtain ⟨⟨n, hn⟩, _⟩ := (hV.2 p).mp hp
      obtain ⟨⟨n', hn'⟩, _⟩ := (hV.2 q).mp hq
      rw [← hc p n hn, ← hc q n' hn', e]
    subst this
    exact lexLt_irrefl _ hlt
  · intro x
    rw [List.mem_map]
    constructor
    · rintro ⟨p, hp, rfl⟩
      obtain ⟨⟨n, hn⟩, _⟩ := (hV.2 p).mp hp
      exact ⟨p, n, hn, rfl⟩
    · rintro ⟨p, n, hn, rfl⟩
      refine ⟨p, (hV.2 p).mpr ⟨⟨n, hn⟩, List.nil_prefix, ?_⟩, rfl⟩
      rintro rfl
      rw [W.root] at hn; cases hn

theorem joinPath_append_cons {p : List Bytes} (hp : p ≠ []) (c : Bytes) (t : List Bytes) :
    joinPath (p ++ c :: t) = joinPath p ++ SEP :: joinPath (c :: t) := by
  induction p with
  | nil => exact absurd rfl hp
  | cons d p ih =>
    cases p with
    | nil => rfl
    | cons e p =>
      have := ih (by simp)
      simp only [List.cons_append, joinPath] at this ⊢
      rw [this]
      simp

/-- `arx extract` to an empty place, no call failing: it succeeds, and what is there is what is asked for. -/
theorem ExtractOpts.part {rs : List AddReq} {m : PathMap} {a : Archive} {bytes : ContentAddr → GetBytes} {o : ExtractOpts} {sys : CmdSys}
    (h : Written rs a) (hm : SpecRun PathMap.empty rs m) (hE : Extractable (m.sub o.rootOf) bytes) (harch : sys.archive = some (a, bytes))
    {depth : Nat} {before : FS} {last : List (Nat × WriteRes)} {w : World} {res : XResult}
    (hd : a.entries.length < depth) (hrun : o.run sys depth before last = some (w, res)) (hfin : w.finished)
    (hfault : ∀ n, sys.env.fault n = false) (hns : ∀ n, NoErr (sys.env.sched n)) (hnl : NoErr last)
    (hT : EmptyTarget before (o.target sys.cwd)) :
    ∃ files, o.toExtract sys = some files ∧ res = .ok ∧ PartAt w.fs (o.target sys.cwd) (m.sub o.rootOf) bytes [(files, o.recursion)] := by
  obtain ⟨files, rg, hf, hs, hx⟩ := ExtractOpts.run_source h hm harch hrun
  have hC : CleanExtraction (o.cfg sys a bytes files) rg before w.fs res := ⟨hfault, hns, depth, last, w, hd, hx, hfin, rfl, hnl⟩
  have hT' : EmptyTarget before (o.cfg sys a bytes files).base := hT
  have T : PlainTarget before (o.cfg sys a bytes files).base (m.sub o.rootOf) := hT'.plain (bytes := bytes) hE.names
  have hok : res = .ok := hC.ok hs T (hT'.noObstacle hE rfl hfault)
  subst hok
  exact ⟨files, hf, rfl, (C72_steps hs hE hT (.run _ .none rfl rfl rfl hC)).1⟩

theorem PathMap.WF.sub_nil {m : PathMap} (W : m.WF) : m.sub [] = m := by
  funext p
  unfold PathMap.sub
  split
  · next e => rw [e, W.root]
  · rfl

/-- **C96 (extracting lines of the listing).** Keep some of the lines that `arx list` prints, in any order, and give them to
`arx extract` as file list (`-L`), without `--recurse`, to an empty or missing directory, no call failing. The extraction succeeds, and
extracted is exactly: the entries whose lines were kept, and the directories on the way to them. -/
theorem C96_extract {rs : List AddReq} {a : Archive} {m : PathMap} (h : Written rs a) (hm : SpecRun PathMap.empty rs m)
    (hline : ∀ p n, m p = some n → OneLine p) {listDepth : Nat} (hld : a.entries.length < listDepth) {out : Bytes} {ok : Bool}
    (hout : listCmd a none listDepth = (out, ok)) {lines kept : List Bytes} (hlines : TextOf lines out) (hkept : ∀ x ∈ kept, x ∈ lines) (hne : kept ≠ [])
    {bytes : ContentAddr → GetBytes} (hE : Extractable m bytes)
    {o : ExtractOpts} {sys : CmdSys} {l text : Bytes} (hacc : o.Accepted) (hfl : o.fileList = some l) (hrec : o.recurse = false) (hroot : o.rootDir = none)
    (htext : sys.text l = some text) (hk : TextOf kept text) (harch : sys.archive = some (a, bytes))
    {depth : Nat} {before : FS} {last : List (Nat × WriteRes)} {w : World} {res : XResult}
    (hd : a.entries.length < depth) (hrun : o.run sys depth before last = some (w, res)) (hfin : w.finished)
    (hfault : ∀ n, sys.env.fault n = false) (hns : ∀ n, NoErr (sys.env.sched n)) (hnl : NoErr last)
    (hT : EmptyTarget before (o.target sys.cwd)) :
    res = .ok ∧
    (∀ p n, m p = some n → LineKept kept (joinPath p) n.isDir → IsEntry bytes w.fs (o.target sys.cwd ++ p) n) ∧
    (∀ p, p ≠ [] → w.fs.nodes (o.target sys.cwd ++ p) ≠ none → ∃ n, m p = some n ∧ LineKept kept (joinPath p) n.isDir) := by
  have W := h.mapWF hm
  have hro : o.rootOf = [] := by simp [ExtractOpts.rootOf, hroot]
  obtain ⟨-, -, hmem, hcomps⟩ := C96_lines h hm hline hld hout hlines
  obtain ⟨files, hf, hok, P⟩ := ExtractOpts.part h hm (by rw [hro, W.sub_nil]; exact hE) harch hd hrun hfin hfault hns hnl hT
  rw [hro, W.sub_nil] at P
  have hl : o.Lines sys kept := by
    intro l' e
    rw [hfl] at e; cases e
    exact ⟨text, htext, hk⟩
  have hsel : ∀ p n, m p = some n → (SelectedIn [(files, o.recursion)] p n.isDir ↔ LineKept kept (joinPath p) n.isDir) := by
    intro p n hn
    have hp : p ≠ [] := by rintro rfl; rw [W.root] at hn; cases hn
    have e : SelectedIn [(files, o.recursion)] p n.isDir ↔ Wanted o kept p n.isDir := by
      rw [← ExtractOpts.selected_iff hacc hl (fun _ => hne) hf]
      simp [SelectedIn]
    rw [e]
    simp only [Wanted, hfl, AskedBy, hrec, Bool.false_eq_true, false_and, false_or]
    constructor
    · rintro ⟨f, hfk, hc | ⟨hdir, c, t, hc, hcur⟩⟩
      · obtain ⟨q, n', hq, rfl⟩ := (hmem f).mp (hkept f hfk)
        rw [hcomps q n' hq] at hc
        subst hc
        exact .inl hfk
      · obtain ⟨q, n', hq, rfl⟩ := (hmem f).mp (hkept f hfk)
        rw [hcomps q n' hq] at hc
        subst hc
        rw [joinPath_append_cons hp] at hfk
        exact .inr ⟨hdir, _, hfk⟩
    · rintro (hk' | ⟨hdir, rest, hk'⟩)
      · exact ⟨_, hk', .inl (hcomps p n hn)⟩
      · refine ⟨_, hk', .inr ⟨hdir, ?_⟩⟩
        obtain ⟨q, n', hq, e⟩ := (hmem _).mp (hkept _ hk')
        have hcq := hcomps q n' hq
        rw [← e, comps_append, hcomps p n hn] at hcq
        rw [comps_append, hcomps p n hn]
        cases hr : comps rest with
        | nil =>
          rw [hr, List.append_nil] at hcq
          subst hcq
          have := congrArg List.length e
          simp at this
        | cons c t =>
          refine ⟨c, t, rfl, ?_⟩
          rw [hr] at hcq
          subst hcq
          exact (hE.names _ n' hq c (by simp)).1
  refine ⟨hok, fun p n hn hkp => P.there p n hn ((hsel p n hn).mpr hkp), ?_⟩
  intro p hp hn
  cases hmp : m p with
  | none => exact absurd (P.nothing p hp hmp) hn
  | some n =>
    refine ⟨n, rfl, (hsel p n hmp).mp ?_⟩
    exact Classical.byContradiction fun hno => hn (P.unselected p n hmp hno)

/-- **C96 (extracting the whole listing).** With the whole output of `arx list` as file list, everything is extracted, and nothing else. -/
theorem C96_all {rs : List AddReq} {a : Archive} {m : PathMap} (h : Written rs a) (hm : SpecRun PathMap.empty rs m)
    (hline : ∀ p n, m p = some n → OneLine p) {listDepth : Nat} (hld : a.entries.length < listDepth) {out : Bytes} {ok : Bool}
    (hout : listCmd a none listDepth = (out, ok)) {bytes : ContentAddr → GetBytes} (hE : Extractable m bytes)
    {o : ExtractOpts} {sys : CmdSys} {l : Bytes} (hacc : o.Accepted) (hfl : o.fileList = some l) (hroot : o.rootDir = none)
    (htext : sys.text l = some out) (harch : sys.archive = some (a, bytes))
    {depth : Nat} {before : FS} {last : List (Nat × WriteRes)} {w : World} {res : XResult}
    (hd : a.entries.length < depth) (hrun : o.run sys depth before last = some (w, res)) (hfin : w.finished)
    (hfault : ∀ n, sys.env.fault n = false) (hns : ∀ n, NoErr (sys.env.sched n)) (hnl : NoErr last)
    (hT : EmptyTarget before (o.target sys.cwd)) :
    res = .ok ∧ (∀ p n, m p = some n → IsEntry bytes w.fs (o.target sys.cwd ++ p) n) ∧
    (∀ p, p ≠ [] → m p = none → w.fs.nodes (o.target sys.cwd ++ p) = none) := by
  have W := h.mapWF hm
  have hro : o.rootOf = [] := by simp [ExtractOpts.rootOf, hroot]
  obtain ⟨lines, hlines⟩ := TextOf.exists out
  obtain ⟨-, -, hmem, hcomps⟩ := C96_lines h hm hline hld hout hlines
  obtain ⟨files, hf, hok, P⟩ := ExtractOpts.part h hm (by rw [hro, W.sub_nil]; exact hE) harch hd hrun hfin hfault hns hnl hT
  rw [hro, W.sub_nil] at P
  have hl : o.Lines sys lines := by
    intro l' e
    rw [hfl] at e; cases e
    exact ⟨out, htext, hlines⟩
  refine ⟨hok, fun p n hn => P.there p n hn ?_, P.nothing⟩
  have hin := (hmem (joinPath p)).mpr ⟨p, n, hn, rfl⟩
  have hne : lines ≠ [] := by rintro rfl; cases hin
  refine ⟨_, List.mem_singleton.mpr rfl, (ExtractOpts.selected_iff hacc hl (fun _ => hne) hf p n.isDir).mpr ?_⟩
  simp only [Wanted, hfl, AskedBy]
  exact ⟨_, hin, .inl (hcomps p n hn)⟩

theorem IsEntry.archived {s : Src} {bytes bytes' : ContentAddr → GetBytes} {q : List Bytes} {n : Node} {o : Option Node}
    (h : IsEntry bytes s.fs q n) (hsp : ¬ s.Special q) (hh : Held s bytes' q o) : SameEntry bytes bytes' (some n) o := by
  unfold IsEntry at h
  cases hk : n.kind with
  | dir =>
    rw [hk] at h
    obtain ⟨t, ht⟩ := h
    rcases hh with hh | ⟨_, n', _, rfl, hn'⟩
    · unfold Archived at hh
      rw [ht] at hh
      simp only at hh
      subst hh
      simp [SameEntry, hk]
    · cases hk' : n'.kind <;> simp_all [SameEntry, Node.isDir, Kind.isDir]
  | file sz c =>
    rw [hk] at h
    obtain ⟨i, hi, hb⟩ := h
    rcases hh with hh | ⟨_, n', hd, _⟩
    · unfold Archived at hh
      rw [hi] at hh
      have : s.special i = false := by
        cases e : s.special i with
        | false => rfl
        | true => exact absurd ⟨i, hi, e⟩ hsp
      simp only [this] at hh
      obtain ⟨c', rfl, hc'⟩ := hh
      simp only [SameEntry, hk]
      exact ⟨_, hb, hc', rfl⟩
    · rw [hi] at hd; cases hd
  | link t =>
    rw [hk] at h
    obtain ⟨u, hu⟩ := h
    rcases hh with hh | ⟨_, n', hd, _⟩
    · unfold Archived at hh
      rw [hu] at hh
      simp only at hh
      subst hh
      simp [SameEntry, hk]
    · rw [hu] at hd; cases hd

theorem Held.isEntry {s : Src} {bytes : ContentAddr → GetBytes} {q : List Bytes} {n : Node} (h : Held s bytes q (some n)) (hsp : ¬ s.Special q) :
    IsEntry bytes s.fs q n := by
  rcases h with h | ⟨t, n', hd, hn, hdir⟩
  · unfold Archived at h
    cases hx : s.fs.nodes q with
    | none => rw [hx] at h; exact h.elim
    | some x =>
      rw [hx] at h
      cases x with
      | dir t => simp only [Option.some.injEq] at h; subst h; exact ⟨t, hx⟩
      | link tg t => simp only [Option.some.injEq] at h; subst h; exact ⟨t, hx⟩
      | file i =>
        have : s.special i = false := by
          cases e : s.special i with
          | false => rfl
          | true => exact absurd ⟨i, hx, e⟩ hsp
        simp only [this] at h
        obtain ⟨a, e, hb⟩ := h
        cases e
        exact ⟨i, hx, hb⟩
  · cases hn
    unfold IsEntry
    have : n.kind = .dir := by
      cases hk : n.kind <;> simp_all [Node.isDir, Kind.isDir]
    rw [this]
    exact ⟨t, hd⟩

theorem IsEntry.some {bytes : ContentAddr → GetBytes} {fs : FS} {q : List Bytes} {n : Node} (h : IsEntry bytes fs q n) :
    ∃ x, fs.nodes q = some x ∧ ((∃ t, x = .dir t) ↔ n.isDir = true) := by
  unfold IsEntry at h
  cases hk : n.kind with
  | dir => rw [hk] at h; obtain ⟨t, ht⟩ := h; exact ⟨_, ht, by simp [Node.isDir, Kind.isDir, hk]⟩
  | file sz c => rw [hk] at h; obtain ⟨i, ht, _⟩ := h; exact ⟨_, ht, by simp [Node.isDir, Kind.isDir, hk]⟩
  | link t => rw [hk] at h; obtain ⟨t, ht⟩ := h; exact ⟨_, ht, by simp [Node.isDir, Kind.isDir, hk]⟩

/-- **C96 (archiving lines of the listing).** Let the directory in which `arx create` works (`-C`) contain the entries of an archive
(as extracted, say). Keep some of the lines that `arx list` prints for that archive and give them to `arx create` as file list, without
prefix to strip and without following links. It succeeds if the output can be written; and the new archive has exactly the entries
whose lines were kept, and the directories on the way to them: the same paths, kinds, contents and link targets. -/
theorem C96_create {rs : List AddReq} {a : Archive} {m : PathMap} (h : Written rs a) (hm : SpecRun PathMap.empty rs m)
    (hline : ∀ p n, m p = some n → OneLine p) {listDepth : Nat} (hld : a.entries.length < listDepth) {out : Bytes} {ok : Bool}
    (hout : listCmd a none listDepth = (out, ok)) {lines kept : List Bytes} (hlines : TextOf lines out) (hkept : ∀ x ∈ kept, x ∈ lines) (hnd : kept.Nodup)
    {bytes : ContentAddr → GetBytes} (hE : Extractable m bytes)
    {o : CreateOpts} {sys : CreateSys} {s : Src} {cwd : List Bytes} {l text : Bytes}
    (hlc : o.listCompressions = false) (hfl : o.fileList = some l) (hpre : o.stripPrefix = none) (hnf : o.followSymlink = false)
    (hcwd : StartsIn o sys cwd) (Q : ∀ d, Quiet (sys.cenv d) s) (W : s.WF)
    (htext : sys.text (absFile sys.cwd l) = some text) (hk : TextOf kept text)
    (hthere : ∀ p n, m p = some n → IsEntry bytes s.fs (cwd ++ p) n) (hsp : ∀ p n, m p = some n → ¬ s.Special (cwd ++ p)) :
    ((o.run sys).2 = .ok ↔ OutputFree o sys ∧ l ≠ [] ∧ sys.openOk = true ∧ sys.writeOk = true) ∧
    ∀ N a', CreateEv.written N a' ∈ (o.run sys).1 → ∃ rs' m', SpecRun PathMap.empty rs' m' ∧
      (∀ order, IsLayout a'.creator order → a'.creator.store.length < 2 ^ 32 → Written rs' (writeArchive a'.creator order)) ∧
      (∀ p n, m p = some n → LineKept kept (joinPath p) n.isDir → SameEntry bytes (packBytes a'.contents) (some n) (m' p)) ∧
      (∀ p n', m' p = some n' → ∃ n, m p = some n ∧ LineKept kept (joinPath p) n.isDir) := by
  have WM := h.mapWF hm
  obtain ⟨-, -, hmem, hcomps⟩ := C96_lines h hm hline hld hout hlines
  have hst : ∀ p n, m p = some n → StoredAs (joinPath p) [] p := by
    intro p n hn
    unfold StoredAs
    rw [hcomps p n hn]
    have : p.filter (· ≠ CUR) = p := by
      rw [List.filter_eq_self]
      intro c hc
      simpa using (hE.names p n hn c hc).1
    rw [this]
    rfl
  have hplace : ∀ p n, m p = some n → namesOf cwd (joinPath p) = cwd ++ p := fun p n hn => (C33_place (WM.names p n hn) cwd).1
  have hres : ∀ p n, m p = some n → s.fs.resolve false (namesOf cwd (joinPath p)) = .ok (.found (cwd ++ p)) := by
    intro p n hn
    obtain ⟨x, hx, _⟩ := (hthere p n hn).some
    rw [hplace p n hn]
    exact W.resolve_self hx
  have hnil : ∀ p n, m p = some n → p ≠ [] := by rintro p n hn rfl; rw [WM.root] at hn; cases hn
  have hoff : ∀ p n u, m p = some n → (OffersOne s cwd [] (joinPath p, false) u ↔ u = (p, cwd ++ p)) := by
    intro p n u hn
    constructor
    · rintro ⟨i1, i2, i3⟩
      have e1 := i1.unique (hst p n hn)
      simp only at i3
      rw [hres p n hn] at i3
      have e2 : cwd ++ p = u.2 := by injection i3 with i3; injection i3
      exact Prod.ext e1 e2.symm
    · rintro rfl
      exact ⟨hst p n hn, hnil p n hn, hres p n hn⟩
  constructor
  · rw [C77_list hlc hfl Q W]
    constructor
    · rintro ⟨h1, h2, h3, h4, _⟩; exact ⟨h1, h2, h3, h4⟩
    · rintro ⟨h1, h2, h3, h4⟩
      refine ⟨h1, h2, h3, h4, cwd, text, kept, hcwd, htext, hk, ?_, ?_, ?_⟩
      · intro x hx
        obtain ⟨p, n, hn, rfl⟩ := (hmem x).mp (hkept x hx)
        rw [validUtf8_comps, hcomps p n hn]
        exact hE.utf8 p n hn
      · intro x hx
        obtain ⟨p, n, hn, rfl⟩ := (hmem x).mp (hkept x hx)
        rw [hpre, hnf]
        refine ⟨joinPath_relative (WM.names p n hn), ?_, p, hst p n hn, fun _ => ⟨_, hres p n hn, .inr ?_⟩⟩
        · intro c hc
          rw [hcomps p n hn] at hc
          exact hE.utf8 p n hn c hc
        · intro e
          exact (hE.names p n hn _ (List.mem_of_getLast? e)).2.1 rfl
      · refine hnd.imp_of_mem ?_
        intro x y hx hy hxy u v hu hv
        obtain ⟨p, n, hn, rfl⟩ := (hmem x).mp (hkept x hx)
        obtain ⟨q, n', hn', rfl⟩ := (hmem y).mp (hkept y hy)
        rw [hpre, hnf] at hu hv
        have hu := (hoff p n u hn).mp hu
        have hv := (hoff q n' v hn').mp hv
        subst hu hv
        have hpq : p ≠ q := fun e => hxy (by rw [e])
        have key : ∀ p q n n', m p = some n → m q = some n' → p ≠ q → ¬ Clash s (p, cwd ++ p) (q, cwd ++ q) := by
          rintro p q n n' hn hn' hpq ⟨⟨hleaf, _⟩, ⟨hc, _⟩ | ⟨hc, _⟩⟩
          · obtain ⟨d, hd, hdir⟩ := WM.ancestors q n' p hn' ⟨hnil p n hn, hpq, hc⟩
            obtain ⟨x, hx, hx'⟩ := (hthere p d hd).some
            obtain ⟨t, rfl⟩ := hx'.mpr hdir
            exact hleaf t hx
          · exact hpq hc
        exact ⟨key p q n n' hn hn' hpq, key q p n' n hn' hn (Ne.symm hpq)⟩
  · intro N a' hw
    obtain ⟨text', lines', rs', m', e1, e2, g1, g2, g3⟩ := CreateOpts.list_spec hfl hcwd (Q cwd) W hw
    rw [htext] at e1; cases e1
    have : lines' = kept := by rw [← e2.lines, hk.lines]
    subst this
    rw [hpre, hnf] at g3
    obtain ⟨o1, o2⟩ := offers_list g3
    refine ⟨rs', m', g2, fun order i1 i2 => ⟨_, order, g1, i1, rfl, i2⟩, ?_, ?_⟩
    · rintro p n hn (hkp | ⟨hdir, rest, hkp⟩)
      · have := o1 (p, cwd ++ p) ⟨_, hkp, (hoff p n _ hn).mpr rfl⟩ (hsp p n hn)
        exact (hthere p n hn).archived (hsp p n hn) this
      · obtain ⟨q, n', hq, e⟩ := (hmem _).mp (hkept _ hkp)
        obtain ⟨k, j1, j2⟩ := g3.held _ (List.mem_map.mpr ⟨_, hkp, rfl⟩)
        simp only [Option.getD_none] at j1
        rw [e] at j1
        have := j1.unique (hst q n' hq)
        subst this
        obtain ⟨_, _, _, _, j3⟩ := j2 (hnil k n' hq)
        have hcq := hcomps k n' hq
        rw [← e, comps_append, hcomps p n hn] at hcq
        have hne : p ≠ k := by
          rintro rfl
          have := congrArg List.length e
          simp at this
        obtain ⟨d, hd, hdd⟩ := j3 p ⟨hnil p n hn, hne, ⟨_, hcq⟩⟩
        rw [hd]
        cases hk' : n.kind <;> cases hk'' : d.kind <;> simp_all [SameEntry, Node.isDir, Kind.isDir]
    · intro z n' hz
      obtain ⟨u, ⟨f, hf, hu⟩, i2, _⟩ := o2 z n' hz
      obtain ⟨q, n, hn, rfl⟩ := (hmem f).mp (hkept f hf)
      have hu := (hoff q n u hn).mp hu
      subst hu
      simp only at i2
      by_cases e : z = q
      · subst e; exact ⟨n, hn, .inl hf⟩
      · have hz0 : z ≠ [] := by
          rintro rfl
          rw [(SpecRun.wf g1 g2).root] at hz; cases hz
        obtain ⟨d, hd, hdir⟩ := WM.ancestors q n z hn ⟨hz0, e, i2⟩
        obtain ⟨r, rfl⟩ := i2
        cases r with
        | nil => simp at e
        | cons c t =>
          rw [joinPath_append_cons hz0] at hf
          exact ⟨d, hd, .inr ⟨hdir, _, hf⟩⟩

/-- **C96 counterexample (newlines).** A file or link whose path contains a newline is not extracted with a file list, whatever the list is
(unless the list is empty or `--recurse` is given): no line stands for it. -/
theorem C96_newline_counterexample {rs : List AddReq} {a : Archive} {m : PathMap} (h : Written rs a) (hm : SpecRun PathMap.empty rs m)
    {bytes : ContentAddr → GetBytes} (hE : Extractable m bytes) {p : List Bytes} {n : Node} (hp : m p = some n) (hleaf : n.isDir = false)
    {c : Bytes} (hc : c ∈ p) (hnl : (10 : UInt8) ∈ c)
    {o : ExtractOpts} {sys : CmdSys} {l text : Bytes} {lines : List Bytes} (hacc : o.Accepted) (hfl : o.fileList = some l) (hrec : o.recurse = false)
    (hroot : o.rootDir = none) (htext : sys.text l = some text) (hk : TextOf lines text) (hne : lines ≠ []) (harch : sys.archive = some (a, bytes))
    {depth : Nat} {before : FS} {last : List (Nat × WriteRes)} {w : World} {res : XResult}
    (hd : a.entries.length < depth) (hrun : o.run sys depth before last = some (w, res)) (hfin : w.finished)
    (hfault : ∀ n, sys.env.fault n = false) (hns : ∀ n, NoErr (sys.env.sched n)) (hlast : NoErr last)
    (hT : EmptyTarget before (o.target sys.cwd)) :
    res = .ok ∧ w.fs.nodes (o.target sys.cwd ++ p) = none := by
  have W := h.mapWF hm
  have hro : o.rootOf = [] := by simp [ExtractOpts.rootOf, hroot]
  obtain ⟨files, hf, hok, P⟩ := ExtractOpts.part h hm (by rw [hro, W.sub_nil]; exact hE) harch hd hrun hfin hfault hns hlast hT
  rw [hro, W.sub_nil] at P
  have hl : o.Lines sys lines := by
    intro l' e
    rw [hfl] at e; cases e
    exact ⟨text, htext, hk⟩
  refine ⟨hok, P.unselected p n hp ?_⟩
  rintro ⟨_, hs, hsel⟩
  rw [List.mem_singleton] at hs
  subst hs
  have := (ExtractOpts.selected_iff hacc hl (fun _ => hne) hf p n.isDir).mp hsel
  simp only [Wanted, hfl, AskedBy, hrec, hleaf, Bool.false_eq_true, false_and, false_or, or_false] at this
  obtain ⟨f, hf', rfl⟩ := this
  have hno : ∀ {ls : List Bytes} {t : Bytes}, TextOf ls t → ∀ x ∈ ls, (10 : UInt8) ∉ x := by
    intro ls t ht
    induction ht with
    | empty => intro x hx; cases hx
    | last _ h2 => intro x hx; rw [List.mem_singleton] at hx; subst hx; exact h2
    | line h1 _ _ ih =>
      intro x hx
      rcases List.mem_cons.mp hx with rfl | hx
      · exact h1
      · exact ih x hx
    | crlf h1 _ ih =>
      intro x hx
      rcases List.mem_cons.mp hx with rfl | hx
      · exact h1
      · exact ih x hx
  exact hno hk f hf' (mem_of_comps hc hnl)

/-! ### Examples -/

/-- `arx list x.arx | grep x > k; arx extract -L k x.arx` -/
def keepCmd : CmdSys := { exCmd with text := fun p => if p = ascii "k" then some (ascii "b/x\n") else some (ascii "a\na/l\nb\nb/x\n") }
def keepRun : World × XResult := ((exOpts [] (some (ascii "k"))).run keepCmd 5 fs0 finish).getD (⟨fs0, [], true, 0⟩, .writes)

theorem exMap_oneLine : ∀ p n, exMap p = some n → OneLine p := by
  intro p n hp
  have := exMap_paths hp
  simp only [List.mem_cons, List.not_mem_nil, or_false] at this
  unfold OneLine
  rcases this with rfl | rfl | rfl | rfl <;> constructor <;> simp [ascii] <;> decide

theorem keepRun_eq : (exOpts [] (some (ascii "k"))).run keepCmd 5 fs0 finish = some keepRun := by
  unfold keepRun
  cases hr : (exOpts [] (some (ascii "k"))).run keepCmd 5 fs0 finish with
  | none =>
    have : ((exOpts [] (some (ascii "k"))).run keepCmd 5 fs0 finish).isSome = true := by decide +kernel
    rw [hr] at this; cases this
  | some r => rfl

example : listCmd exArchive none 5 = (ascii "a\na/l\nb\nb/x\n", true) := by decide +kernel

example : keepRun.2 = .ok ∧
    (∀ p n, exMap p = some n → LineKept [ascii "b/x"] (joinPath p) n.isDir → IsEntry exBytes keepRun.1.fs ([ascii "t"] ++ p) n) ∧
    (∀ p, p ≠ [] → keepRun.1.fs.nodes ([ascii "t"] ++ p) ≠ none → ∃ n, exMap p = some n ∧ LineKept [ascii "b/x"] (joinPath p) n.isDir) :=
  C96_extract (o := exOpts [] (some (ascii "k"))) (sys := keepCmd) (depth := 5) (before := fs0) (last := finish) (w := keepRun.1) (res := keepRun.2)
    exWritten exMap_spec exMap_oneLine (listDepth := 5) (by decide +kernel) (out := ascii "a\na/l\nb\nb/x\n") (ok := true) (by decide +kernel)
    (lines := [ascii "a", ascii "a/l", ascii "b", ascii "b/x"])
    (.line (l := ascii "a") (by decide) (by decide) (.line (l := ascii "a/l") (by decide) (by decide)
      (.line (l := ascii "b") (by decide) (by decide) (.line (l := ascii "b/x") (t := []) (by decide) (by decide) .empty))))
    (by decide) (by decide) (by rw [← (exWritten.mapWF exMap_spec).sub_nil]; exact exExtractable) ⟨by decide, by decide⟩ rfl rfl rfl
    (text := ascii "b/x\n") rfl (.line (l := ascii "b/x") (t := []) (by decide) (by decide) .empty) rfl (by decide +kernel) keepRun_eq
    (by decide +kernel) (fun _ => rfl) (fun _ x h => by cases h) (by intro x hx; revert x; decide) exT

/-- and the conclusion can be seen -/
example : keepRun.1.fs.nodes [ascii "t", ascii "a"] = none ∧ (keepRun.1.fs.nodes [ascii "t", ascii "b"]).isSome = true ∧
    (keepRun.1.fs.nodes [ascii "t", ascii "b", ascii "x"]).isSome = true := by decide +kernel

/-- an archive with the directory `a` and the link `a⏎b` -/
def nlReqs : List AddReq := [⟨ascii "a", .ok (some .dir), exMeta⟩, ⟨ascii "a\nb", .ok (some (.link (ascii "c"))), exMeta⟩]
def nlSt : Creator := (Creator.new.run nlReqs).getD Creator.new
def nlArchive : Archive := writeArchive nlSt [0, 1]
theorem nlWritten : Written nlReqs nlArchive := by
  obtain ⟨m, paths, hs, R⟩ := run_rel (show Creator.new.run nlReqs = some nlSt from rfl)
  exact ⟨nlSt, [0, 1], rfl, R.layoutLoop_sound 3 _ _ (by rw [R.len]) (by decide), rfl, by decide⟩

theorem nlMap {m : PathMap} (hm : SpecRun PathMap.empty nlReqs m) {p : List Bytes} {n : Node} (hp : m p = some n) :
    (p = [ascii "a"] ∧ n.kind = .dir) ∨ (p = [ascii "a\nb"] ∧ n.kind = .link (ascii "c")) := by
  obtain ⟨i, hi, hu⟩ := map_cases nlWritten hm hp
  have hl : nlArchive.entries.length = 2 := by decide
  rw [hl] at hi hu
  match i, hi with
  | 0, _ =>
    have : pathUp nlArchive 2 0 = some [ascii "a"] := by decide
    rw [this] at hu; cases hu
    obtain ⟨n', hn, h1, h2, h3, h⟩ := map_kind nlWritten hm (ascii "a") (by decide) rfl
    rw [show comps (ascii "a") = [ascii "a"] by decide, hp] at hn
    cases hn
    refine .inl ⟨rfl, ?_⟩
    cases hk : n.kind <;> simp only [hk] at h
    · rfl
    · obtain ⟨f, hf, _⟩ := h; cases hf
    · obtain ⟨f, hf, _⟩ := h; cases hf
  | 1, _ =>
    have : pathUp nlArchive 2 1 = some [ascii "a\nb"] := by decide
    rw [this] at hu; cases hu
    obtain ⟨n', hn, h1, h2, h3, h⟩ := map_kind nlWritten hm (ascii "a\nb") (by decide) rfl
    rw [show comps (ascii "a\nb") = [ascii "a\nb"] by decide, hp] at hn
    cases hn
    refine .inr ⟨rfl, ?_⟩
    cases hk : n.kind <;> simp only [hk] at h
    · obtain ⟨_, _, hf⟩ := h; cases hf
    · obtain ⟨f, hf, _⟩ := h; cases hf
    · obtain ⟨f, hf, hf'⟩ := h; cases hf; rw [← hf']; rfl

theorem nlExtractable {m : PathMap} (hm : SpecRun PathMap.empty nlReqs m) : Extractable m exBytes := by
  refine ⟨?_, ?_, ?_, ?_⟩
  · intro p n hp c hc
    rcases nlMap hm hp with ⟨rfl, _⟩ | ⟨rfl, _⟩ <;> rw [List.mem_singleton] at hc <;> subst hc <;> exact ⟨by decide, by decide, by decide⟩
  · intro p n hp c hc
    rcases nlMap hm hp with ⟨rfl, _⟩ | ⟨rfl, _⟩ <;> rw [List.mem_singleton] at hc <;> subst hc <;> decide
  · intro p n t hp ht
    rcases nlMap hm hp with ⟨rfl, hk⟩ | ⟨rfl, hk⟩ <;> rw [hk] at ht <;> cases ht
    exact ⟨by decide, by decide, by decide⟩
  · intro p n s c hp ht
    rcases nlMap hm hp with ⟨rfl, hk⟩ | ⟨rfl, hk⟩ <;> rw [hk] at ht <;> cases ht

/-- its listing, as file list, brings back the directory only: the hypotheses of `C96_newline_counterexample` are met -/
def nlCmd : CmdSys := { exCmd with text := fun _ => some (ascii "a\na\nb\n"), archive := some (nlArchive, exBytes) }
def nlRun : World × XResult := ((exOpts [] (some (ascii "k"))).run nlCmd 5 fs0 finish).getD (⟨fs0, [], true, 0⟩, .writes)

theorem nlRun_eq : (exOpts [] (some (ascii "k"))).run nlCmd 5 fs0 finish = some nlRun := by
  unfold nlRun
  cases hr : (exOpts [] (some (ascii "k"))).run nlCmd 5 fs0 finish with
  | none =>
    have : ((exOpts [] (some (ascii "k"))).run nlCmd 5 fs0 finish).isSome = true := by decide +kernel
    rw [hr] at this; cases this
  | some r => rfl

example : listCmd nlArchive none 5 = (ascii "a\na\nb\n", true) ∧ nlRun.2 = .ok ∧ nlRun.1.fs.nodes ([ascii "t"] ++ [ascii "a\nb"]) = none := by
  refine ⟨by decide +kernel, ?_⟩
  obtain ⟨m, hm, _⟩ := spec_exists nlWritten
  obtain ⟨n, hn, _, _, _, h⟩ := map_kind nlWritten hm (ascii "a\nb") (by decide) rfl
  rw [show comps (ascii "a\nb") = [ascii "a\nb"] by decide] at hn
  have hk : n.isDir = false := by
    rcases nlMap hm hn with ⟨e, _⟩ | ⟨_, e⟩
    · exact absurd e (by decide)
    · simp [Node.isDir, Kind.isDir, e]
  exact C96_newline_counterexample (o := exOpts [] (some (ascii "k"))) (sys := nlCmd) (depth := 5) (before := fs0) (last := finish)
    nlWritten hm (nlExtractable hm) hn hk (c := ascii "a\nb") (by simp) (by decide) ⟨by decide, by decide⟩ rfl rfl rfl
    (text := ascii "a\na\nb\n") (lines := [ascii "a", ascii "a", ascii "b"]) rfl
    (.line (l := ascii "a") (by decide) (by decide) (.line (l := ascii "a") (by decide) (by decide)
      (.line (l := ascii "b") (t := []) (by decide) (by decide) .empty)))
    (by decide) rfl (by decide +kernel) nlRun_eq (by decide +kernel) (fun _ => rfl) (fun _ x h => by cases h)
    (by intro x hx; revert x; decide) exT

/-- `arx list d.arx > list; arx create -o y.arx -L list` in the directory from which `d.arx` was made -/
def againSys : CreateSys := { exSys with text := fun _ => some (ascii "d\nd/f\nd/s\nd/s/l\n") }
def againOpts : CreateOpts := { exListOpts with outfile := some (ascii "y.arx") }

/-- the entries of that archive -/
theorem tripMap : ∃ rs m, Creator.new.run rs = some tripAdder.creator ∧ SpecRun PathMap.empty rs m ∧
    ∀ p n, m p = some n → p ∈ [[ascii "d"], [ascii "d", ascii "f"], [ascii "d", ascii "s"], [ascii "d", ascii "s", ascii "l"]] ∧
      IsEntry (packBytes tripAdder.contents) exSrc.fs p n := by
  obtain ⟨N, hN⟩ := tripAdder_written
  obtain ⟨rs, m, g1, g2, g3⟩ := CreateOpts.inputs_spec (o := exCreate) (sys := exSys) ⟨by decide, by decide, by decide⟩ rfl (cwd := []) rfl exEnv_quiet exSrc_wf rfl exSys_walks hN
  refine ⟨rs, m, g1, g2, ?_⟩
  have hin : ∀ k q, InputAt exSrc [] [] (ascii "d") k q → k = [ascii "d"] ∧ q = [ascii "d"] := by
    rintro k q ⟨h1, h2, _⟩
    refine ⟨h1.unique (by unfold StoredAs; decide), ?_⟩
    have : exSrc.fs.resolve true (namesOf [] (ascii "d")) = .ok (.found [ascii "d"]) := by rfl
    rw [this] at h2; cases h2; rfl
  have hheld : ∀ p, exSrc.Has [ascii "d"] p → ¬ exSrc.Special ([ascii "d"] ++ p) → Held exSrc (packBytes tripAdder.contents) ([ascii "d"] ++ p) (m ([ascii "d"] ++ p)) := by
    intro p hp hs
    obtain ⟨k, q, h1, h2⟩ := g3.all (ascii "d") (by decide)
    obtain ⟨rfl, rfl⟩ := hin k q h1
    exact h2 p hp (.inr rfl) (by simp) hs
  intro p n hp
  obtain ⟨root, hr, k, q, p', h1, h2, h3, h4, h5, h6⟩ := g3.only p n hp
  have : root = ascii "d" := by simpa [exCreate] using hr
  subst this
  obtain ⟨rfl, rfl⟩ := hin k q h1
  have hd : ∀ z : List Bytes, z ≠ [] → z <+: [ascii "d"] ++ p' → ∃ r, z = [ascii "d"] ++ r := by
    rintro (_ | ⟨c, z⟩) h0 ⟨r, hr⟩
    · exact absurd rfl h0
    · simp only [List.cons_append, List.nil_append, List.cons.injEq] at hr
      exact ⟨z, by rw [hr.1]; rfl⟩
  obtain ⟨r, rfl⟩ := hd p h4 h5
  have hhas : exSrc.Has [ascii "d"] r := by
    unfold Src.Has
    by_cases e : [ascii "d"] ++ r = [ascii "d"] ++ p'
    · rw [e]; exact h2
    · obtain ⟨x, hx⟩ := Option.ne_none_iff_exists'.mp h2
      obtain ⟨t, ht⟩ := exSrc_wf.dirsTo hx _ h5 e
      rw [ht]; simp
  have hsp : ¬ exSrc.Special ([ascii "d"] ++ r) := by
    intro hs
    by_cases e : [ascii "d"] ++ r = [ascii "d"] ++ p'
    · exact h6 e (e ▸ hs)
    · obtain ⟨x, hx⟩ := Option.ne_none_iff_exists'.mp h2
      obtain ⟨t, ht⟩ := exSrc_wf.dirsTo hx _ h5 e
      obtain ⟨i, hi, _⟩ := hs
      rw [ht] at hi; cases hi
  have hh := hheld r hhas hsp
  rw [hp] at hh
  refine ⟨?_, hh.isEntry hsp⟩
  have := exSrc_paths hhas
  simp only [List.mem_cons, List.not_mem_nil, or_false] at this ⊢
  rcases this with e | e | e | e | e | e
  · cases e
  · exact .inl e
  · exact .inr (.inl e)
  · exact absurd ⟨1, by rw [e]; rfl, rfl⟩ hsp
  · exact .inr (.inr (.inl e))
  · exact .inr (.inr (.inr e))

/-- the hypotheses of `C96_create` are met: the archive made again has the entries of the first -/
example : (againOpts.run againSys).2 = .ok ∧ ∃ rs m, Creator.new.run rs = some tripAdder.creator ∧ SpecRun PathMap.empty rs m ∧
    ∀ N a', CreateEv.written N a' ∈ (againOpts.run againSys).1 → ∃ rs' m', SpecRun PathMap.empty rs' m' ∧
      (∀ order, IsLayout a'.creator order → a'.creator.store.length < 2 ^ 32 → Written rs' (writeArchive a'.creator order)) ∧
      (∀ p n, m p = some n → LineKept [ascii "d", ascii "d/f", ascii "d/s", ascii "d/s/l"] (joinPath p) n.isDir →
        SameEntry (packBytes tripAdder.contents) (packBytes a'.contents) (some n) (m' p)) ∧
      (∀ p n', m' p = some n' → ∃ n, m p = some n ∧ LineKept [ascii "d", ascii "d/f", ascii "d/s", ascii "d/s/l"] (joinPath p) n.isDir) := by
  refine ⟨by decide +kernel, ?_⟩
  obtain ⟨rs, m, g1, g2, g3⟩ := tripMap
  refine ⟨rs, m, g1, g2, ?_⟩
  have hp : ∀ p n, m p = some n → p ∈ [[ascii "d"], [ascii "d", ascii "f"], [ascii "d", ascii "s"], [ascii "d", ascii "s", ascii "l"]] :=
    fun p n h => (g3 p n h).1
  have hsp : ∀ p n, m p = some n → ¬ exSrc.Special ([] ++ p) := by
    rintro p n h ⟨i, hi, hs⟩
    have := hp p n h
    simp only [List.mem_cons, List.not_mem_nil, or_false] at this
    rcases this with rfl | rfl | rfl | rfl
    · cases hi
    · have : i = 0 := by
        have e : exSrc.fs.nodes ([] ++ [ascii "d", ascii "f"]) = some (.file 0) := rfl
        rw [e] at hi; cases hi; rfl
      subst this; cases hs
    · cases hi
    · cases hi
  have hlines : TextOf [ascii "d", ascii "d/f", ascii "d/s", ascii "d/s/l"] (ascii "d\nd/f\nd/s\nd/s/l\n") :=
    .line (l := ascii "d") (by decide) (by decide) (.line (l := ascii "d/f") (by decide) (by decide)
      (.line (l := ascii "d/s") (by decide) (by decide) (.line (l := ascii "d/s/l") (t := []) (by decide) (by decide) .empty)))
  have hE : Extractable m (packBytes tripAdder.contents) := by
    obtain ⟨N, hN⟩ := tripAdder_written
    obtain ⟨_, ht⟩ := CreateOpts.tried (o := exCreate) (sys := exSys) (cwd := []) rfl hN
    refine ht.extractable exEnv_quiet exSrc_wf g1 g2 ?_ ?_
    · intro p n h c hc
      have := hp p n h
      simp only [List.mem_cons, List.not_mem_nil, or_false] at this
      rcases this with rfl | rfl | rfl | rfl <;> simp only [List.mem_cons, List.not_mem_nil, or_false] at hc <;>
        (try rcases hc with rfl | rfl | rfl) <;> (try rcases hc with rfl | rfl) <;> (try subst hc) <;> exact ⟨by decide, by decide, by decide⟩
    · intro q t u h
      have := exSrc_nodes h
      simp only [List.mem_cons, Prod.mk.injEq, List.not_mem_nil, or_false] at this
      rcases this with ⟨_, e⟩ | ⟨_, e⟩ | ⟨_, e⟩ | ⟨_, e⟩ | ⟨_, e⟩ | ⟨_, e⟩ <;> cases e
      decide
  have hwr : Written rs (writeArchive tripAdder.creator tripOrder) :=
    ⟨_, tripOrder, g1, ⟨by decide +kernel, by decide +kernel⟩, rfl, by decide +kernel⟩
  exact (C96_create (o := againOpts) (sys := againSys) (s := exSrc) (cwd := []) (l := ascii "list") (text := ascii "d\nd/f\nd/s\nd/s/l\n") hwr g2
    (by
      intro p n h
      have := hp p n h
      simp only [List.mem_cons, List.not_mem_nil, or_false] at this
      unfold OneLine
      rcases this with rfl | rfl | rfl | rfl <;> constructor <;> simp [ascii] <;> decide)
    (listDepth := 5) (by decide +kernel) (out := ascii "d\nd/f\nd/s\nd/s/l\n") (ok := true) (by decide +kernel) hlines (fun x hx => hx)
    (by decide) hE rfl rfl rfl rfl rfl (fun _ => ⟨fun _ => rfl, fun _ => rfl⟩) exSrc_wf rfl hlines (fun p n h => (g3 p n h).2) hsp).2

end Arx
