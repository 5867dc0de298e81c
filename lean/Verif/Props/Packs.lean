import Verif.Spec.Packs
import Verif.Props.Steps
import Verif.Props.Mount3
import Verif.Props.Success
import Verif.Props.Cmd
/-!
# C104: missing content packs
-/
namespace Arx

theorem contentsThere_found {content : ContentAddr → Bytes} {there : ContentAddr → Bool} {c : ContentAddr} (h : there c = true) :
    contentsThere content there c = .found (content c) := by simp [contentsThere, h]

theorem contentsThere_missing {content : ContentAddr → Bytes} {there : ContentAddr → Bool} {c : ContentAddr} (h : ¬ there c = true) :
    contentsThere content there c = .missing := by simp [contentsThere, h]

theorem EmptyTarget.givenAt {base : List Bytes} {m : PathMap} {content : ContentAddr → Bytes} {d0 : List Bytes} {before : FS}
    (h : EmptyTarget before base) : GivenAt before base (m.sub d0) content [] where
  there p n _ hs := by obtain ⟨s, hs, _⟩ := hs; cases hs
  absent p n hp _ := h.below _ (List.prefix_append _ _) (by simpa using (PathMap.sub_some hp).1)
  nothing p hp _ := h.below _ (List.prefix_append _ _) (by simpa using hp)

/-- one run -/
theorem GivenAt.step {cfg : XCfg} {rs : List AddReq} {M : PathMap} {d0 : List Bytes} {start fs after : FS} {rg : Range} {runs : List PackRun}
    {content : ContentAddr → Bytes} {there : ContentAddr → Bool}
    (h : Source rs M cfg.a rg d0) (hb : cfg.bytes = contentsThere content there)
    (L : Leftover cfg.base (M.sub d0) start fs) (I : GivenAt fs cfg.base (M.sub d0) content runs)
    (hx : Extraction cfg rg fs after .ok) :
    GivenAt after cfg.base (M.sub d0) content (⟨(cfg.files, cfg.recurse), there⟩ :: runs) := by
  obtain ⟨k1, _, k3⟩ := hx.main h L.plain
  obtain ⟨_, k4⟩ := k3 rfl
  have same : ∀ p n, M.sub d0 p = some n → ¬ Selected cfg.files cfg.recurse p n.isDir →
      after.nodes (cfg.base ++ p) = fs.nodes (cfg.base ++ p) := by
    intro p n hp hs
    refine k1.nodes _ (not_prefix_base (PathMap.sub_some hp).1) ?_
    rintro ⟨p', n', e, hp', hs'⟩
    rw [List.append_cancel_left_eq] at e; subst e
    rw [hp] at hp'; cases hp'
    exact hs hs'
  -- an entry that this run does not give is as it was
  have keep : ∀ p n, M.sub d0 p = some n → ¬ (PackRun.mk (cfg.files, cfg.recurse) there).Gives p n →
      after.nodes (cfg.base ++ p) = fs.nodes (cfg.base ++ p) ∧ ∀ i, fs.nodes (cfg.base ++ p) = some (.file i) → after.data i = fs.data i := by
    intro p n hp hg
    by_cases hs : Selected cfg.files cfg.recurse p n.isDir
    · have : ¬ ∀ s c, n.kind = .file s c → there c = true := fun h => hg ⟨hs, h⟩
      have hE1 := k4 p n hp hs
      cases hk : n.kind with
      | dir => exact absurd (fun s c e => by rw [hk] at e; cases e) this
      | link t => exact absurd (fun s c e => by rw [hk] at e; cases e) this
      | file s c =>
        have hc : ¬ there c = true := fun e => this (fun s' c' e' => by rw [hk] at e'; cases e'; exact e)
        simp only [Extracted, hk, hb, contentsThere_missing hc] at hE1
        exact hE1
    · refine ⟨same p n hp hs, fun i hi => ?_⟩
      refine k1.data i (L.plain.inos _ _ hi) ?_
      rintro q hq ⟨p', n', e, hp', hs'⟩
      subst e
      have := L.plain.alias p n i _ hp hi hq
      rw [List.append_cancel_left_eq] at this; subst this
      rw [hp] at hp'; cases hp'
      exact hs hs'
  refine ⟨?_, ?_, ?_⟩
  · intro p n hp hsel
    have hold : ∀ x, fs.nodes (cfg.base ++ p) = some x → IsEntry (fun c => .found (content c)) fs (cfg.base ++ p) n := by
      intro x hx
      by_cases hs : ∃ r ∈ runs, r.Gives p n
      · exact I.there p n hp hs
      · rw [I.absent p n hp (fun r hr hg => hs ⟨r, hr, hg⟩)] at hx; cases hx
    by_cases hg : (PackRun.mk (cfg.files, cfg.recurse) there).Gives p n
    · have hE1 := k4 p n hp hg.1
      unfold IsEntry
      cases hk : n.kind with
      | dir => simp only [Extracted, hk] at hE1; exact hE1.1
      | file s c =>
        simp only [Extracted, hk, hb, contentsThere_found (content := content) (hg.2 s c hk)] at hE1
        simp only
        cases hbef : fs.nodes (cfg.base ++ p) with
        | none =>
          rw [hbef] at hE1
          obtain ⟨i, h1, _, h2⟩ := hE1
          exact ⟨i, h1, by rw [h2]⟩
        | some x =>
          rw [hbef] at hE1
          obtain ⟨_, h1, h2, h3⟩ := hE1
          have := hold x hbef
          simp only [IsEntry, hk] at this
          obtain ⟨i, hi, hbi⟩ := this
          rw [hbef] at hi; cases hi
          refine ⟨i, h1, ?_⟩
          by_cases hr : Replaces cfg.mode n.info.mtime (fs.timeOf (.file i))
          · obtain ⟨j, e, hj⟩ := h2 hr
            cases e; rw [hj]
          · rw [h3 hr i rfl, ← hbi]
      | link t =>
        simp only [Extracted, hk] at hE1
        simp only
        obtain ⟨_, hE1⟩ := hE1
        cases hbef : fs.nodes (cfg.base ++ p) with
        | none => rw [hbef] at hE1; exact hE1
        | some x =>
          rw [hbef] at hE1
          obtain ⟨_, h2, h3⟩ := hE1
          by_cases hr : Replaces cfg.mode n.info.mtime (fs.timeOf x)
          · exact (h2 hr).2
          · have := hold x hbef
            simp only [IsEntry, hk] at this
            obtain ⟨u, hu⟩ := this
            rw [hbef] at hu; cases hu
            exact ⟨u, (h3 hr).1⟩
    · have hs' : ∃ r ∈ runs, r.Gives p n := by
        obtain ⟨s, hs1, hs2⟩ := hsel
        rcases List.mem_cons.mp hs1 with rfl | hs1
        · exact absurd hs2 hg
        · exact ⟨s, hs1, hs2⟩
      have hI := I.there p n hp hs'
      obtain ⟨e1, e2⟩ := keep p n hp hg
      unfold IsEntry at hI ⊢
      rw [e1]
      cases hk : n.kind with
      | dir => rw [hk] at hI; exact hI
      | link t => rw [hk] at hI; exact hI
      | file s c =>
        rw [hk] at hI
        obtain ⟨i, hi, hb⟩ := hI
        exact ⟨i, hi, by rw [e2 i hi]; exact hb⟩
  · intro p n hp hsel
    rw [(keep p n hp (hsel _ List.mem_cons_self)).1]
    exact I.absent p n hp (fun r hr => hsel r (List.mem_cons_of_mem _ hr))
  · intro p hp hm
    rw [k1.nodes _ (not_prefix_base hp) ?_]
    · exact I.nothing p hp hm
    · rintro ⟨p', n', e, hp', _⟩
      rw [List.append_cancel_left_eq] at e; subst e
      rw [hm] at hp'; cases hp'

theorem PackRuns.inv {rs : List AddReq} {M : PathMap} {a : Archive} {content : ContentAddr → Bytes} {base : List Bytes} {rg : Range}
    {d0 : List Bytes} {before after : FS} {runs : List PackRun} (h : Source rs M a rg d0)
    (hn : ∀ p n, M.sub d0 p = some n → ∀ c ∈ p, PlainName c)
    (hT : EmptyTarget before base) (hr : PackRuns a content base rg before runs after) :
    Leftover base (M.sub d0) before after ∧ GivenAt after base (M.sub d0) content runs := by
  induction hr with
  | none => exact ⟨hT.leftover hn, hT.givenAt⟩
  | wait t _ ih =>
    obtain ⟨i1, i2⟩ := ih
    exact ⟨i1.wait t, ⟨i2.there, i2.absent, i2.nothing⟩⟩
  | run cfg there _ h1 h2 h3 hx ih =>
    obtain ⟨i1, i2⟩ := ih
    subst h1; subst h3
    obtain ⟨P, G, hrg⟩ := h.good
    obtain ⟨_, _, depth, last, w, hd, hrun, hfin, haft, _⟩ := hx
    exact ⟨i1.step G hrg ⟨depth, last, hd, by rw [hrun]; exact haft⟩, i2.step h h2 i1 ⟨depth, last, w, hd, hrun, hfin, haft⟩⟩

/-- **C104 (extraction).** An archive is extracted to an empty (or missing) directory, in any number of runs with any selections and overwrite
modes, some of its content packs missing, perhaps others each time. When all runs have ended with success, below the directory is exactly what at
least one of them was asked for and could read, complete; nothing else has been created, and nothing outside has changed. -/
theorem C104_packs {rs : List AddReq} {m : PathMap} {a : Archive} {content : ContentAddr → Bytes} {base : List Bytes} {rg : Range}
    {d0 : List Bytes} {before after : FS} {runs : List PackRun} (h : Source rs m a rg d0)
    (hn : ∀ p n, m.sub d0 p = some n → ∀ c ∈ p, PlainName c) (hT : EmptyTarget before base)
    (hr : PackRuns a content base rg before runs after) :
    GivenAt after base (m.sub d0) content runs ∧
    (∀ q, ¬ base <+: q → ¬ q <+: base → after.nodes q = before.nodes q) ∧
    (∀ q x, q <+: base → before.nodes q = some x → after.nodes q = some x) ∧
    (∀ i, i < before.next → after.data i = before.data i) := by
  obtain ⟨i1, i2⟩ := hr.inv h hn hT
  exact ⟨i2, i1.outside, i1.above, i1.data⟩

/-- **C104 (the next run).** Whatever packs were and are missing, a run without failing calls succeeds in the modes `skip`, `warn`, `overwrite`, and
`newer` (archived times below 2^63); in mode `error` exactly if none of the files (whose content is there now) and links it is asked for
has been created already. -/
theorem C104_next {rs : List AddReq} {m : PathMap} {cfg : XCfg} {rg : Range} {d0 : List Bytes} {before mid after : FS} {res : XResult}
    {content : ContentAddr → Bytes} {there : ContentAddr → Bool} {runs : List PackRun} (h : Source rs m cfg.a rg d0)
    (hE : Extractable (m.sub d0) (fun c => .found (content c))) (hT : EmptyTarget before cfg.base)
    (hr : PackRuns cfg.a content cfg.base rg before runs mid) (hb : cfg.bytes = contentsThere content there)
    (hx : CleanExtraction cfg rg mid after res) :
    (cfg.mode ≠ .error → (cfg.mode = .newer → ∀ p n, m.sub d0 p = some n → n.info.mtime < 2 ^ 63) → res = .ok) ∧
    (cfg.mode = .error → (res = .ok ↔ ∀ p n, m.sub d0 p = some n → n.isDir = false →
      (PackRun.mk (cfg.files, cfg.recurse) there).Gives p n → ∀ r ∈ runs, ¬ r.Gives p n)) := by
  obtain ⟨L, I⟩ := hr.inv h hE.names hT
  have hno : (∀ p n x, m.sub d0 p = some n → (PackRun.mk (cfg.files, cfg.recurse) there).Gives p n →
    mid.nodes (cfg.base ++ p) = some x → NoConflict cfg.mode mid n x) → res = .ok := by
    intro hc
    rw [C75_success h L.plain hx]
    refine ⟨?_, ?_, ?_, ?_, ?_⟩
    · intro q i hq e
      obtain ⟨u, hu⟩ := L.way q _ hq e
      cases hu
    · intro p n x hp hs hm e
      refine hc p n x hp ⟨hs, fun s c hk => ?_⟩ e
      have := hm s c hk
      rw [hb] at this
      exact Classical.byContradiction fun hn => this (contentsThere_missing hn)
    · intro p n s c _ _ _ e
      rw [hb, contentsThere] at e
      split at e <;> cases e
    · intro p c n hp _
      exact ⟨hE.utf8 _ n hp c (by simp), fun t hk => (hE.targets _ n t hp hk).1⟩
    · intro p n t hp _ hk
      exact (hE.targets p n t hp hk).2
  have fits : ∀ p n x, m.sub d0 p = some n → mid.nodes (cfg.base ++ p) = some x → Fits before.next n x := by
    intro p n x hp e
    obtain ⟨n', h1, h2⟩ := L.below p x (PathMap.sub_some hp).1 e
    rw [hp] at h1; cases h1
    exact h2
  constructor
  · intro hne hnew
    refine hno ?_
    intro p n x hp _ e
    have hf := fits p n x hp e
    unfold NoConflict
    unfold Fits at hf
    cases hk : n.kind with
    | dir => rw [hk] at hf; exact hf
    | file s c =>
      rw [hk] at hf
      obtain ⟨i, _, hf⟩ := hf
      exact ⟨hne, fun hn => hnew hn p n hp, fun _ => ⟨i, hf⟩⟩
    | link t =>
      rw [hk] at hf
      obtain ⟨s, hf⟩ := hf
      exact ⟨hne, fun hn => hnew hn p n hp, fun _ u e => by rw [hf] at e; cases e⟩
  · intro herr
    constructor
    · rintro rfl p n hp hd hs r hr hsel
      obtain ⟨_, _, depth, last, w, hdp, hrun, hfin, haft, _⟩ := hx
      have hE1 := C20_exact h L.plain ⟨depth, last, w, hdp, hrun, hfin, haft⟩ hp hs.1
      have hI := I.there p n hp ⟨r, hr, hsel⟩
      unfold IsEntry at hI
      cases hk : n.kind with
      | dir => simp [Node.isDir, Kind.isDir, hk] at hd
      | file s c =>
        rw [hk] at hI
        obtain ⟨i, hi, _⟩ := hI
        simp only [Extracted, hk, hb, contentsThere_found (content := content) (hs.2 s c hk), hi] at hE1
        exact hE1.1 herr
      | link t =>
        rw [hk] at hI
        obtain ⟨u, hu⟩ := hI
        simp only [Extracted, hk, hu] at hE1
        exact hE1.2.1 herr
    · intro hnot
      refine hno ?_
      intro p n x hp hs e
      have hf := fits p n x hp e
      have : n.isDir = true := by
        cases hd : n.isDir with
        | true => rfl
        | false =>
          rw [I.absent p n hp (hnot p n hp hd hs)] at e; cases e
      unfold NoConflict
      unfold Fits at hf
      cases hk : n.kind with
      | dir => rw [hk] at hf; exact hf
      | file s c => simp [Node.isDir, Kind.isDir, hk] at this
      | link t => simp [Node.isDir, Kind.isDir, hk] at this

/-- **C104 (in the end).** Whatever packs were missing in earlier runs: when all of them are there, extracting everything in a mode other than
`error` succeeds, and below the directory is exactly the archive. -/
theorem C104_complete {rs : List AddReq} {m : PathMap} {cfg : XCfg} {content : ContentAddr → Bytes} {rg : Range}
    {d0 : List Bytes} {before mid after : FS} {runs : List PackRun} {res : XResult} (h : Source rs m cfg.a rg d0)
    (hE : Extractable (m.sub d0) (fun c => .found (content c))) (hT : EmptyTarget before cfg.base)
    (hr : PackRuns cfg.a content cfg.base rg before runs mid) (hb : cfg.bytes = fun c => .found (content c))
    (hall : cfg.files = []) (hmode : cfg.mode ≠ .error) (hnew : cfg.mode = .newer → ∀ p n, m.sub d0 p = some n → n.info.mtime < 2 ^ 63)
    (hx : CleanExtraction cfg rg mid after res) : res = .ok ∧ TreeAt after cfg.base (m.sub d0) cfg.bytes := by
  have hb' : cfg.bytes = contentsThere content (fun _ => true) := by rw [hb]; funext c; simp [contentsThere]
  have hok := (C104_next h hE hT hr hb' hx).1 hmode hnew
  subst hok
  refine ⟨rfl, ?_⟩
  have I := (C104_packs h hE.names hT (.run cfg _ hr rfl hb' rfl hx)).1
  have key : ∀ p n, m.sub d0 p = some n → IsEntry (fun c => .found (content c)) after (cfg.base ++ p) n :=
    fun p n hp => I.there p n hp ⟨_, List.mem_cons_self, Or.inl hall, fun _ _ _ => rfl⟩
  obtain ⟨L, _⟩ := hr.inv h hE.names hT
  obtain ⟨_, _, depth, last, w, hd, hrun, hfin, haft, _⟩ := hx
  have hX : Extraction cfg rg mid after .ok := ⟨depth, last, w, hd, hrun, hfin, haft⟩
  refine ⟨((hX.main h L.plain).2.2 rfl).1, I.nothing, ?_, ?_, ?_⟩
  · intro p n hp hk; have := key p n hp; simpa only [IsEntry, hk] using this
  · intro p n s c hp hk; have := key p n hp; rw [hb]; simpa only [IsEntry, hk] using this
  · intro p n t hp hk; have := key p n hp; simpa only [IsEntry, hk] using this

/-- **C104 (dump).** What `arx dump` of a file does depends on no content but that of the file. -/
theorem C104_dump {rs : List AddReq} {a : Archive} {m : PathMap} (h : Written rs a) (hm : SpecRun PathMap.empty rs m)
    (bytes bytes' : ContentAddr → GetBytes) (path : RPath) (out : Option Bytes) (o : OutEnv) (ns : List Nat) (d : DumpSys)
    (hs : ∀ n s c, m (comps path) = some n → n.kind = .file s c → bytes' c = bytes c) :
    dump o ns a bytes' path out d = dump o ns a bytes path out d := by
  by_cases hp : comps path = []
  · have : a.getEntry dumpBuilder path = .error .panic := by unfold Archive.getEntry; rw [hp]; rfl
    simp only [dump, this]
  · have hg := dump_getEntry h hm path hp
    have hsame : ∀ e copy, a.getEntry dumpBuilder path = .ok e → dumpEntry bytes' e copy d = dumpEntry bytes e copy d := by
      intro e copy he
      cases e with
      | dir r u => rfl
      | link u => rfl
      | file c =>
        cases hk : m (comps path) with
        | none => rw [hk] at hg; simp only at hg; rw [he] at hg; cases hg
        | some n =>
          rw [hk] at hg
          simp only at hg
          obtain ⟨e', he', hke⟩ := hg
          rw [he] at he'; cases he'
          cases hnk : n.kind with
          | dir => rw [hnk] at hke; obtain ⟨r, e⟩ := hke; cases e
          | link t => rw [hnk] at hke; cases hke
          | file s c' =>
            rw [hnk] at hke; cases hke
            simp only [dumpEntry, hs n s _ hk hnk]
    unfold dump
    cases he : a.getEntry dumpBuilder path with
    | error e => cases e <;> rfl
    | ok e => simp only [hsame e _ he]

theorem readdirLoop_finding (cfg : FsCfg) (bytes' : ContentAddr → GetBytes) (ino : Nat) (range : Range) (bufSize : Nat) :
    ∀ (is : List Nat) (cur : Nat) (l : List DirEnt) (c : Lru (Nat × Bytes) (Option Nat)),
      readdirLoop (cfg.finding bytes') ino range bufSize is cur l c = readdirLoop cfg ino range bufSize is cur l c
  | [], _, _, _ => rfl
  | i :: is, cur, l, c => by
    have ih := readdirLoop_finding cfg bytes' ino range bufSize is
    have e1 : (cfg.finding bytes').parentIno ino = cfg.parentIno ino := rfl
    have e2 : (cfg.finding bytes').a = cfg.a := rfl
    simp only [readdirLoop, ih, e1, e2]

/-- **C104 (mount).** What a mounted archive answers to a history of requests depends on no contents but those of the files that are opened: whatever
packs are missing, everything else can be looked up, listed and read. -/
theorem C104_mount {rs : List AddReq} {m : PathMap} {cfg : FsCfg} {d0 : List Bytes} (h : Mounted rs m cfg d0)
    (bytes' : ContentAddr → GetBytes) (reqs : List FReq)
    (hs : ∀ ino, .open ino ∈ reqs → ∃ p, inoPath cfg d0 ino = some p ∧
      ∀ n s c, m p = some n → n.kind = .file s c → bytes' c = cfg.bytes c) :
    FsState.init.run (cfg.finding bytes') reqs = FsState.init.run cfg reqs := by
  obtain ⟨P, G, _, _⟩ := h.good
  have hstep : ∀ (s : FsState) (r : FReq), r ∈ reqs → s.step (cfg.finding bytes') r = s.step cfg r := by
    intro s r hr
    cases r with
    | «open» ino =>
      obtain ⟨p, hp, hc⟩ := hs ino hr
      rcases G.inoPath_cases hp with ⟨rfl, _⟩ | ⟨i, rfl, hi', hidx⟩
      · simp only [FsState.step, FsState.open, inoIdx]
        simp
      obtain ⟨r, n, g1, g2, g3⟩ := G.row_at hi'
      obtain ⟨_, _, _, _, _, _, q7⟩ := g3
      simp only [FsState.step, FsState.open, hidx, g1, FsCfg.finding]
      cases hk : n.kind with
      | dir => rw [hk] at q7; simp [q7.1, EntryType.tryFrom]
      | link t => rw [hk] at q7; simp [q7.1, EntryType.tryFrom]
      | file sz c =>
        rw [hk] at q7
        simp only [q7.2.2.1, hc n sz c g2 hk]
    | readdir ino offset bufSize =>
      simp only [FsState.step, FsState.readdir, readdirLoop_finding]
      rfl
    | _ => rfl
  generalize FsState.init = s0
  clear hs
  induction reqs generalizing s0 with
  | nil => rfl
  | cons r rs ih =>
    simp only [FsState.run]
    rw [hstep s0 r List.mem_cons_self]
    rw [ih (fun s r hr => hstep s r (List.mem_cons_of_mem _ hr))]

/-! ### Example: first without any pack, then again, with mode `skip`, with all of them -/

def packContent : ContentAddr → Bytes := fun c => if c = ⟨1, 0⟩ then ascii "xyz" else ascii "q"

def packX (there : ContentAddr → Bool) (mode : Overwrite) : XCfg :=
  ⟨exArchive, contentsThere packContent there, [], true, [ascii "t"], mode, quiet⟩

def packFs (there : ContentAddr → Bool) (mode : Overwrite) (fs : FS) : World × XResult := (packX there mode).extractRange 5 exArchive.root fs finish

theorem packClean {there : ContentAddr → Bool} {mode : Overwrite} {fs : FS} (h1 : (packFs there mode fs).2 = .ok) (h2 : (packFs there mode fs).1.finished) :
    CleanExtraction (packX there mode) exArchive.root fs (packFs there mode fs).1.fs .ok := by
  refine ⟨fun _ => rfl, fun _ x hx => by simp [packX, quiet] at hx, 5, finish, _, ?_, ?_, h2, rfl, ?_⟩
  · show exArchive.entries.length < 5
    decide
  · rw [← h1]; rfl
  · intro x hx; simp only [finish, List.mem_cons, List.not_mem_nil, or_false] at hx; rcases hx with rfl | rfl | rfl <;> simp

def pack1 : FS := (packFs (fun _ => false) .error fs0).1.fs
def pack2 : FS := (packFs (fun _ => true) .skip pack1).1.fs

theorem packRuns1 : PackRuns exArchive packContent [ascii "t"] exArchive.root fs0 [⟨([], true), fun _ => false⟩] pack1 :=
  .run (packX (fun _ => false) .error) _ .none rfl rfl rfl (packClean (by decide) (by decide))

theorem packExtractable : Extractable (exMap.sub []) (fun c => .found (packContent c)) :=
  ⟨exExtractable.names, exExtractable.utf8, exExtractable.targets, fun _ _ _ _ _ _ => ⟨_, rfl⟩⟩

/-- the hypotheses of the theorems on extraction are met … -/
example : TreeAt pack2 [ascii "t"] (exMap.sub []) (packX (fun _ => true) .skip).bytes :=
  (C104_complete (cfg := packX (fun _ => true) .skip) exSource packExtractable exT packRuns1 (by funext c; simp [packX, contentsThere]) rfl
    (by decide) (fun e => by cases e) (packClean (by decide) (by decide))).2

/-- … the first run creates the directories and the link, not the file, and the second one the file; in mode `error` it fails -/
example : pack1.nodes [ascii "t", ascii "a", ascii "l"] = some (.link (ascii "../b") 5000000000) ∧
    (pack1.nodes [ascii "t", ascii "b"]).isSome ∧ pack1.nodes [ascii "t", ascii "b", ascii "x"] = none ∧
    pack2.nodes [ascii "t", ascii "b", ascii "x"] = some (.file 0) ∧ (pack2.data 0).bytes = ascii "xyz" ∧
    (packFs (fun _ => true) .error pack1).2 ≠ .ok := by decide

/-- the hypotheses of the theorem on mounts are met: without the pack everything but the file is as before -/
example : FsState.init.run (exFs.finding fun _ => .missing) [.lookup 1 (ascii "a"), .open 4, .getattr 5, .readlink 4] =
    FsState.init.run exFs [.lookup 1 (ascii "a"), .open 4, .getattr 5, .readlink 4] :=
  C104_mount exMounted _ _ (by
    intro ino hi
    simp only [List.mem_cons, reduceCtorEq, FReq.open.injEq, List.not_mem_nil, or_false, false_or] at hi
    subst hi
    refine ⟨[ascii "a", ascii "l"], by decide, ?_⟩
    intro n s c hn hk
    obtain ⟨n', e1, e2⟩ := exMap_kinds.2.2.1
    rw [hn] at e1; cases e1
    rw [e2] at hk; cases hk)

end Arx
