import Verif.Proof.Inside
import Verif.Props.ConvMount
import Verif.Props.CreateCrash
import Verif.Props.Cmd2
import Verif.Props.Zip
import Verif.Props.ConvCrash
/-!
# C89: what is extracted stays in the directory

The English property ("extracting an archive made by arx changes nothing outside of the output directory") is false for
archives with `..` in their paths; see the counterexamples below. Proved: it is true for every archive that the zip converter
makes, and for everything archived without `..`.
-/
namespace Arx

/-- **C17, created archives.** Extract any created archive, or a directory of it, whose paths stay inside (`TreeInside`: they
may contain `..`) to a place for untrusted archives: whatever is selected, whatever the overwrite mode, whichever calls and
writes fail and however the writers are scheduled, nothing outside of that place changes. -/
theorem C17_tree_inside {rs : List AddReq} {m : PathMap} {cfg : XCfg} {rg : Range} {d0 : List Bytes} {before : FS}
    (h : Source rs m cfg.a rg d0) (T : TreeInside (m.sub d0)) (hT : SafeTarget before cfg.base)
    {depth : Nat} (hd : cfg.a.entries.length < depth) (last : List (Nat × WriteRes)) :
    OnlyBelow cfg.base before (cfg.extractRange depth rg before last).1.fs := by
  obtain ⟨P, G, hrg⟩ := h.good
  have H := G.held hT T hrg hd last
  exact ⟨H.nodes, fun q i h1 h2 => H.data i ⟨q, h1, h2⟩⟩

theorem StaysInside.plain {p : List Bytes} (h : PARENT ∉ p) : StaysInside p := by
  intro q hq
  rw [List.count_eq_zero_of_not_mem (fun hc => h (hq.subset hc))]
  omega

/-- without `.` and `..` -/
theorem TreeInside.plain {m : PathMap} (W : m.WF) (hn : ∀ p n, m p = some n → CUR ∉ p ∧ PARENT ∉ p) (d0 : List Bytes) :
    TreeInside (m.sub d0) := by
  have lead : ∀ p q : List Bytes, (CUR ∉ p ∧ PARENT ∉ p) → q <+: p → leadsFrom [] q = q := by
    intro p q hp hq
    rw [leadsFrom_plain q [] (fun c hc => ⟨fun e => hp.1 (e ▸ hq.subset hc), fun e => hp.2 (e ▸ hq.subset hc)⟩), List.nil_append]
  have names : ∀ p n, m.sub d0 p = some n → CUR ∉ p ∧ PARENT ∉ p := by
    intro p n hp
    have := hn _ n (PathMap.sub_some hp).2
    exact ⟨fun h => this.1 (by simp [h]), fun h => this.2 (by simp [h])⟩
  refine ⟨fun p n hp => (names p n hp).1, fun p n hp => .plain (names p n hp).2, ?_⟩
  intro p n t hp hk q n' hq q' hq' hor e
  rw [lead q q' (names q n' hq) hq', lead p p (names p n hp) List.prefix_rfl] at e
  subst e
  obtain ⟨hne, hm⟩ := PathMap.sub_some hp
  rcases hor with h1 | h1
  · obtain ⟨k, hk1, hk2⟩ := W.ancestors _ n' (d0 ++ q') (PathMap.sub_some hq).2
      ⟨by simp [hne], by simpa using h1, (List.prefix_append_right_inj d0).mpr hq'⟩
    rw [hm] at hk1; cases hk1
    simp [Node.isDir, Kind.isDir, hk] at hk2
  · by_cases he : q' = q
    · subst he
      rw [hp] at hq; cases hq
      exact h1 t hk
    · obtain ⟨k, hk1, hk2⟩ := W.ancestors _ n' (d0 ++ q') (PathMap.sub_some hq).2
        ⟨by simp [hne], by simpa using he, (List.prefix_append_right_inj d0).mpr hq'⟩
      rw [hm] at hk1; cases hk1
      simp [Node.isDir, Kind.isDir, hk] at hk2

/-- without links -/
theorem TreeInside.noLinks {m : PathMap} (hn : ∀ p n, m p = some n → CUR ∉ p ∧ StaysInside p ∧ ∀ t, n.kind ≠ .link t) :
    TreeInside (m.sub []) := by
  have sub : ∀ p n, m.sub [] p = some n → m p = some n := fun p n hp => by simpa using (PathMap.sub_some hp).2
  refine ⟨fun p n hp => (hn p n (sub p n hp)).1, fun p n hp => (hn p n (sub p n hp)).2.1, ?_⟩
  intro p n t hp hk
  exact absurd hk ((hn p n (sub p n hp)).2.2 t)

/-- the command -/
theorem extract_inside {rs : List AddReq} {m : PathMap} {st : Creator} {order : List Nat} {bytes : ContentAddr → GetBytes}
    (hrun : Creator.new.run rs = some st) (hm : SpecRun PathMap.empty rs m)
    (ho : IsLayout st order) (hlen : st.store.length < 2 ^ 32)
    {x : ExtractOpts} {xs : CmdSys} (harch : xs.archive = some (writeArchive st order, bytes))
    (T : TreeInside (m.sub x.rootOf))
    {depth : Nat} {before : FS} {last : List (Nat × WriteRes)} {w : World} {res : XResult}
    (hd : st.store.length < depth) (hx : x.run xs depth before last = some (w, res))
    (hT : SafeTarget before (x.target xs.cwd)) : OnlyBelow (x.target xs.cwd) before w.fs := by
  obtain ⟨files, rg, _, hs, he⟩ := ExtractOpts.run_source ⟨st, order, hrun, ho, rfl, hlen⟩ hm harch hx
  have hl : (writeArchive st order).entries.length < depth := by
    have : (writeArchive st order).entries.length ≤ order.length := by
      simp only [writeArchive]; exact List.length_filterMap_le _ _
    have := ho.1.length_eq
    simp only [List.length_range] at this
    omega
  have := C17_tree_inside (cfg := x.cfg xs (writeArchive st order) bytes files) (before := before) (depth := depth) hs T hT hl last
  rw [he] at this
  exact this

/-- **C89, zip.** Convert any zip archive with `zip2arx`, whatever the paths of its members, and extract the result to a place
for untrusted archives (for instance, an empty directory): whatever is selected, whatever the overwrite mode, whichever calls
and writes fail and however the threads are scheduled, nothing outside of that place changes. (Without `--root-dir`,
see `C89_root_counterexample`.) -/
theorem C89_zip {zipFile outfile out : Bytes} {sys : ConvSys ZipMember} {c : Conv}
    (hw : ConvEv.written out c ∈ (zip2arx zipFile outfile sys).1)
    {order : List Nat} (ho : IsLayout c.creator order) (hlen : c.creator.store.length < 2 ^ 32)
    {x : ExtractOpts} {xs : CmdSys} {bytes : ContentAddr → GetBytes} (harch : xs.archive = some (writeArchive c.creator order, bytes))
    (hroot : x.rootDir = none)
    {depth : Nat} {before : FS} {last : List (Nat × WriteRes)} {w : World} {res : XResult}
    (hd : c.creator.store.length < depth) (hx : x.run xs depth before last = some (w, res))
    (hT : SafeTarget before (x.target xs.cwd)) : OnlyBelow (x.target xs.cwd) before w.fs := by
  obtain ⟨i, hi⟩ := List.mem_iff_getElem?.mp hw
  obtain ⟨_, c', items, e1, _, e3⟩ := (C61_zip zipFile outfile sys).1 i _ hi rfl
  cases e1
  obtain ⟨rs, m, g1, g2, g3, g4⟩ := C42_zip_partial e3
  have W := SpecRun.wf g1 g2
  have hr : x.rootOf = [] := by simp [ExtractOpts.rootOf, hroot]
  refine extract_inside g1 g2 ho hlen harch ?_ hd hx hT
  rw [hr]
  refine TreeInside.noLinks fun p n hp => ?_
  obtain ⟨k1, e, he, k2⟩ := g4 p n hp
  refine ⟨fun hc => (memberNames_mem (k2.subset hc)).2 rfl, k1, fun t hk => ?_⟩
  obtain ⟨A, B, hAB⟩ := List.append_of_mem he
  obtain ⟨_, _, _, k4, k5⟩ := g3 A e B hAB
  have hex : ∃ n', m (memberNames e.name) = some n' ∧ ∀ t, n'.kind ≠ .link t := by
    cases hd : e.isDir with
    | true =>
      obtain ⟨n', h1, h2, _⟩ := k5 hd
      exact ⟨n', h1, fun t hk => by simp [Node.isDir, Kind.isDir, hk] at h2⟩
    | false => obtain ⟨d, a, _, _, h1⟩ := k4 hd; exact ⟨_, h1, fun t hk => by cases hk⟩
  obtain ⟨n', hn', hl⟩ := hex
  by_cases hpe : p = memberNames e.name
  · rw [hpe, hn'] at hp; cases hp
    exact hl t hk
  · have hp0 : p ≠ [] := by rintro rfl; rw [W.root] at hp; cases hp
    obtain ⟨d, hd1, hd2⟩ := W.ancestors _ n' p hn' ⟨hp0, hpe, k2⟩
    rw [hp] at hd1; cases hd1
    simp [Node.isDir, Kind.isDir, hk] at hd2

/-- **C89, zip, with `--root-dir`** also, if no member has a name `..`. -/
theorem C89_zip_root {zipFile outfile out : Bytes} {sys : ConvSys ZipMember} {c : Conv}
    (hw : ConvEv.written out c ∈ (zip2arx zipFile outfile sys).1) {ms : List ZipMember}
    (hin : sys.input (some zipFile) = .ok (ms.map .ok)) (hpar : ∀ e ∈ ms, PARENT ∉ memberNames e.name)
    {order : List Nat} (ho : IsLayout c.creator order) (hlen : c.creator.store.length < 2 ^ 32)
    {x : ExtractOpts} {xs : CmdSys} {bytes : ContentAddr → GetBytes} (harch : xs.archive = some (writeArchive c.creator order, bytes))
    {depth : Nat} {before : FS} {last : List (Nat × WriteRes)} {w : World} {res : XResult}
    (hd : c.creator.store.length < depth) (hx : x.run xs depth before last = some (w, res))
    (hT : SafeTarget before (x.target xs.cwd)) : OnlyBelow (x.target xs.cwd) before w.fs := by
  obtain ⟨i, hi⟩ := List.mem_iff_getElem?.mp hw
  obtain ⟨_, c', items, e1, e2, e3⟩ := (C61_zip zipFile outfile sys).1 i _ hi rfl
  cases e1
  rw [hin] at e2; cases e2
  obtain ⟨rs, m, g1, g2, _, g4⟩ := C42_zip_partial e3
  refine extract_inside g1 g2 ho hlen harch (TreeInside.plain (SpecRun.wf g1 g2) (fun p n hp => ?_) _) hd hx hT
  obtain ⟨_, e, he, k2⟩ := g4 p n hp
  refine ⟨fun hc => (memberNames_mem (k2.subset hc)).2 rfl, fun hc => hpar e (by simpa using he) (k2.subset hc)⟩

/-- **C89, tar.** The same for `tar2arx` and a tar archive without `..` in the paths of its members; also with `--root-dir`.
Its symbolic links may have any targets, within the archive or outside, in any order with the other members. -/
theorem C89_tar_partial {tarFile outfile : Option Bytes} {sys : ConvSys TarMember} {out : Bytes} {c : Conv}
    (hw : ConvEv.written out c ∈ (tar2arx tarFile outfile sys).1) {ms : List TarMember}
    (hin : sys.input (TarInput tarFile) = .ok (ms.map .ok)) (hpar : ∀ e ∈ ms, ¬ e.Ignored → PARENT ∉ memberNames e.path)
    {order : List Nat} (ho : IsLayout c.creator order) (hlen : c.creator.store.length < 2 ^ 32)
    {x : ExtractOpts} {xs : CmdSys} {bytes : ContentAddr → GetBytes} (harch : xs.archive = some (writeArchive c.creator order, bytes))
    {depth : Nat} {before : FS} {last : List (Nat × WriteRes)} {w : World} {res : XResult}
    (hd : c.creator.store.length < depth) (hx : x.run xs depth before last = some (w, res))
    (hT : SafeTarget before (x.target xs.cwd)) : OnlyBelow (x.target xs.cwd) before w.fs := by
  obtain ⟨i, hi⟩ := List.mem_iff_getElem?.mp hw
  obtain ⟨_, out', c', items, _, e1, e2, e3⟩ := (C61_tar tarFile outfile sys).1 i _ hi rfl
  cases e1
  rw [hin] at e2; cases e2
  obtain ⟨rs, m, g1, g2, _, g4⟩ := C41_tar_partial e3
  refine extract_inside g1 g2 ho hlen harch (TreeInside.plain (SpecRun.wf g1 g2) (fun p n hp => ?_) _) hd hx hT
  obtain ⟨e, he, hig, k2⟩ := g4 p n hp
  refine ⟨fun hc => (memberNames_mem (k2.subset hc)).2 rfl, fun hc => hpar e (by simpa using he) hig (k2.subset hc)⟩

/-! ## Archives made from files -/

theorem AsSeen.noParent {env : CEnv} {bytes : ContentAddr → GetBytes} {l : List Attempted} {m : PathMap} (h : AsSeen env bytes l m)
    (hpar : ∀ x ∈ l, PARENT ∉ comps x.path) : ∀ p n, m p = some n → PARENT ∉ p := by
  intro p n hp hc
  rcases h.only p n hp with ⟨x, hx, _, h1, _⟩ | ⟨_, x, hx, k', h1, h2⟩
  · exact hpar x hx (h1.mem hc).1
  · exact hpar x hx (h1.mem (h2.2.2.subset hc)).1

/-- **C89, archives made from files**, by `arx create` or a Python program, whatever other processes do to the files meanwhile
and however many additions fail: if no path added has a name `..`, extracting any part to a place for untrusted archives changes
nothing outside of it. Symbolic links may lead anywhere. -/
theorem C89_files_partial {env : CEnv} {l : List Attempted} {a : Adder} (h : Adder.Tried env l a) (hpar : ∀ x ∈ l, PARENT ∉ comps x.path)
    {order : List Nat} (ho : IsLayout a.creator order) (hlen : a.creator.store.length < 2 ^ 32)
    {x : ExtractOpts} {xs : CmdSys} {bytes : ContentAddr → GetBytes} (harch : xs.archive = some (writeArchive a.creator order, bytes))
    {depth : Nat} {before : FS} {last : List (Nat × WriteRes)} {w : World} {res : XResult}
    (hd : a.creator.store.length < depth) (hx : x.run xs depth before last = some (w, res))
    (hT : SafeTarget before (x.target xs.cwd)) : OnlyBelow (x.target xs.cwd) before w.fs := by
  obtain ⟨rs, m, g1, g2, _, g3⟩ := h.asSeen
  exact extract_inside g1 g2 ho hlen harch
    (TreeInside.plain (SpecRun.wf g1 g2) (fun p n hp => ⟨g3.noDot p n hp, g3.noParent hpar p n hp⟩) _) hd hx hT

theorem walkBelow_noParent {s : Src} {ls : ReadDir} (hls : ListsNames ls) : ∀ (f : Nat) (text : Bytes) (d : List Bytes) (p : Bytes),
    PARENT ∉ comps text → Except.ok p ∈ walkBelow s ls f text d → PARENT ∉ comps p := by
  intro f
  induction f with
  | zero => intro text d p _ h; cases h
  | succ f ih =>
    intro text d p ht h
    simp only [walkBelow, List.mem_flatMap] at h
    obtain ⟨x, hx, h⟩ := h
    cases x with
    | error u => simp at h
    | ok n =>
      obtain ⟨h1, h2⟩ := hls d n hx
      have hj : PARENT ∉ comps (joinChild text n) := by
        rw [joinChild_comps h1]
        intro hc
        rcases List.mem_append.mp hc with hc | hc
        · exact ht hc
        · exact h2.2.1 (List.mem_singleton.mp hc).symm
      simp only [List.mem_cons, Except.ok.injEq] at h
      rcases h with rfl | h
      · exact hj
      · split at h
        · exact ih _ _ _ hj h
        · cases h

theorem walkItems_noParent {s : Src} {ls : ReadDir} (hls : ListsNames ls) {cwd : List Bytes} {depth : Nat} {root p : Bytes} {rc : Bool}
    (hr : PARENT ∉ comps root) (h : Except.ok p ∈ walkItems cwd s ls depth root rc) : PARENT ∉ comps p := by
  unfold walkItems at h
  repeat' split at h
  all_goals simp only [List.mem_cons, List.not_mem_nil, or_false, Except.ok.injEq, reduceCtorEq] at h
  all_goals first
    | (rw [h]; exact hr)
    | exact h.elim (fun e => e ▸ hr) (walkBelow_noParent hls _ _ _ _ hr)

theorem InputsTried.noParent {sys : CreateSys} {cwd : List Bytes} {pre : RPath} {rc : Bool} {i : Nat} {roots : List Bytes} {l : List Attempted}
    (h : InputsTried sys cwd pre rc i roots l) (hls : ∀ i, ListsNames (sys.walks i).ls) (hr : ∀ f ∈ roots, PARENT ∉ comps f) :
    ∀ x ∈ l, PARENT ∉ comps x.path := by
  induction h with
  | nil => simp
  | @cons i root roots good l l' h1 h2 _ ih =>
    intro x hx
    rcases List.mem_append.mp hx with hx | hx
    · have hm : (x.path, x.follow) ∈ good.map (fun p => (p, decide (stdComps p = stdComps root))) := by
        rw [← (h2.ok rfl).1]; exact List.mem_map.mpr ⟨x, hx, rfl⟩
      obtain ⟨p, hp, e⟩ := List.mem_map.mp hm
      obtain ⟨bad, hb, _⟩ := h1
      have : Except.ok p ∈ walkItems cwd (sys.walks i).src (sys.walks i).ls (sys.walks i).depth root rc := by
        rw [hb]; simp [hp]
      have e1 : p = x.path := congrArg Prod.fst e
      rw [← e1]
      exact walkItems_noParent (hls i) (hr root (by simp)) this
    · exact ih (fun f hf => hr f (by simp [hf])) x hx

/-- **C89, `arx create`.** Let the command write an archive, with any options, whatever other processes do meanwhile. If no input
(or line of the file list) has a name `..`, extracting any part of the archive to a place for untrusted archives changes nothing
outside of it. Missing: such inputs, see `C89_create_counterexample`. -/
theorem C89_create_partial {o : CreateOpts} {sys : CreateSys} {N : List Bytes} {a : Adder} (h : CreateEv.written N a ∈ (o.run sys).1)
    (hls : ∀ i, ListsNames (sys.walks i).ls)
    (hin : o.fileList = none → ∀ f ∈ o.infiles, PARENT ∉ comps f)
    (hlist : ∀ list text lines, o.fileList = some list → sys.text (absFile sys.cwd list) = some text → TextOf lines text →
      ∀ f ∈ lines, PARENT ∉ comps f)
    {order : List Nat} (ho : IsLayout a.creator order) (hlen : a.creator.store.length < 2 ^ 32)
    {x : ExtractOpts} {xs : CmdSys} {bytes : ContentAddr → GetBytes} (harch : xs.archive = some (writeArchive a.creator order, bytes))
    {depth : Nat} {before : FS} {last : List (Nat × WriteRes)} {w : World} {res : XResult}
    (hd : a.creator.store.length < depth) (hx : x.run xs depth before last = some (w, res))
    (hT : SafeTarget before (x.target xs.cwd)) : OnlyBelow (x.target xs.cwd) before w.fs := by
  obtain ⟨cwd, _, l, g1, _, g3, g4⟩ := o.run_tried h
  refine C89_files_partial g1 ?_ ho hlen harch hd hx hT
  cases hfl : o.fileList with
  | none => exact (g4 hfl).noParent hls (hin hfl)
  | some list =>
    obtain ⟨text, lines, h1, h2, h3⟩ := g3 list hfl
    intro x hx
    have hm : (x.path, x.follow) ∈ lines.map (fun p => (p, o.followSymlink)) := by
      rw [← h3]; exact List.mem_map.mpr ⟨x, hx, rfl⟩
    obtain ⟨p, hp, e⟩ := List.mem_map.mp hm
    have e1 : p = x.path := congrArg Prod.fst e
    rw [← e1]
    exact hlist list text lines hfl h1 h2 p hp

/-! ## Counterexamples and examples -/

/-- An empty or missing directory is a place for untrusted archives. -/
theorem EmptyTarget.safe {fs : FS} {base : List Bytes} (h : EmptyTarget fs base) : SafeTarget fs base := by
  refine ⟨fun c hc => ⟨(h.names c hc).1, (h.names c hc).2.1⟩, ?_, ?_, h.inos⟩
  · intro q hq t s hn
    have hw : q <+: base := by
      rcases hq with hq | hq
      · exact hq
      · by_cases he : q = base
        · rw [he]; exact List.prefix_rfl
        · rw [h.below q hq he] at hn; cases hn
    obtain ⟨t', e⟩ := h.way q _ hw hn
    cases e
  · intro q q' i hq _ hn
    by_cases he : q = base
    · subst he
      obtain ⟨t', e⟩ := h.way q _ List.prefix_rfl hn
      cases e
    · rw [h.below q hq he] at hn; cases hn

/-- `arx extract` of what a converter or the creator made, in the empty directory `/t` -/
def insideRun (st : Creator) (order : List Nat) (contents : List Bytes) (root : Option Bytes) : World × XResult :=
  (({ exOpts [] none with rootDir := root } : ExtractOpts).run
    { exCmd with archive := some (writeArchive st order, packBytes contents) } 6 fs0 finish).getD (⟨fs0, [], true, 0⟩, .writes)

/-- **C89 is false for `tar2arx`** when a member has `..` in its path: extracting to `/t` writes `/x`. -/
def outTarConv : Conv :=
  ((tar2arx (some (ascii "a.tar")) none (oneInput [.ok (tarMem (ascii "../x") .regular none (ascii "hello"))])).1.filterMap ConvEv.conv?).headD Conv.new

theorem C89_tar_counterexample :
    (∃ N, ConvEv.written N outTarConv ∈ (tar2arx (some (ascii "a.tar")) none (oneInput [.ok (tarMem (ascii "../x") .regular none (ascii "hello"))])).1) ∧
    IsLayout outTarConv.creator [0, 1] ∧ EmptyTarget fs0 [ascii "t"] ∧
    (insideRun outTarConv.creator [0, 1] outTarConv.contents none).2 = .ok ∧
    (insideRun outTarConv.creator [0, 1] outTarConv.contents none).1.fs.nodes [ascii "x"] = some (.file 0) :=
  ⟨ConvEv.written_of (by decide +kernel), ⟨by decide +kernel, by decide +kernel⟩, exT, by decide +kernel, by decide +kernel⟩

/-- **C89 is false for `arx create`** when an input has `..` in its path: `arx create -o x.arx ../d/f`, extracted to `/t`,
writes `/d/f`. -/
def outAdder : Adder := ((({ exCreate with infiles := [ascii "../d/f"] } : CreateOpts).run exSys).1.filterMap CreateEv.adder?).headD Adder.new

theorem C89_create_counterexample :
    (∃ N, CreateEv.written N outAdder ∈ (({ exCreate with infiles := [ascii "../d/f"] } : CreateOpts).run exSys).1) ∧
    IsLayout outAdder.creator [0, 1, 2] ∧ EmptyTarget fs0 [ascii "t"] ∧
    (insideRun outAdder.creator [0, 1, 2] outAdder.contents none).2 = .ok ∧
    (insideRun outAdder.creator [0, 1, 2] outAdder.contents none).1.fs.nodes [ascii "d", ascii "f"] = some (.file 0) := by
  refine ⟨CreateEv.written_of ?_, ⟨by decide +kernel, by decide +kernel⟩, exT, by decide +kernel, by decide +kernel⟩
  intro h
  have : ((({ exCreate with infiles := [ascii "../d/f"] } : CreateOpts).run exSys).1.filterMap CreateEv.adder?).length = 1 := by
    decide +kernel
  rw [h] at this; cases this

/-- **C89 with `--root-dir` is false even for `zip2arx`**: a member `d/../e/f` is accepted, and extracting the directory `d`
to `/t` writes `/e/f`. -/
def outZipConv : Conv := ((zip2arx (ascii "a.zip") (ascii "a.arx") (oneInput exZip)).1.filterMap ConvEv.conv?).headD Conv.new

theorem outZip_written : ∃ N, ConvEv.written N outZipConv ∈ (zip2arx (ascii "a.zip") (ascii "a.arx") (oneInput exZip)).1 :=
  ConvEv.written_of (by decide +kernel)

theorem outZip_layout : IsLayout outZipConv.creator [0, 1, 2, 3] := ⟨by decide +kernel, by decide +kernel⟩

theorem C89_root_counterexample :
    (∃ N, ConvEv.written N outZipConv ∈ (zip2arx (ascii "a.zip") (ascii "a.arx") (oneInput exZip)).1) ∧
    IsLayout outZipConv.creator [0, 1, 2, 3] ∧ EmptyTarget fs0 [ascii "t"] ∧
    (insideRun outZipConv.creator [0, 1, 2, 3] outZipConv.contents (some (ascii "d"))).2 = .ok ∧
    (insideRun outZipConv.creator [0, 1, 2, 3] outZipConv.contents (some (ascii "d"))).1.fs.nodes [ascii "e", ascii "f"] = some (.file 0) :=
  ⟨outZip_written, outZip_layout, exT, by decide +kernel, by decide +kernel⟩

theorem insideRun_some {st : Creator} {order : List Nat} {contents : List Bytes} {root : Option Bytes}
    (h : (insideRun st order contents root).2 = .ok) :
    ({ exOpts [] none with rootDir := root } : ExtractOpts).run
      { exCmd with archive := some (writeArchive st order, packBytes contents) } 6 fs0 finish =
      some ((insideRun st order contents root).1, (insideRun st order contents root).2) := by
  revert h
  unfold insideRun
  cases ({ exOpts [] none with rootDir := root } : ExtractOpts).run
    { exCmd with archive := some (writeArchive st order, packBytes contents) } 6 fs0 finish with
  | none => intro h; cases h
  | some r => intro _; rfl

/-- the hypotheses of `C89_zip` are met by the same archive, extracted as a whole: `/t/d/../e/f` is `/t/e/f` -/
example : OnlyBelow [ascii "t"] fs0 (insideRun outZipConv.creator [0, 1, 2, 3] outZipConv.contents none).1.fs ∧
    (insideRun outZipConv.creator [0, 1, 2, 3] outZipConv.contents none).1.fs.nodes [ascii "t", ascii "e", ascii "f"] = some (.file 0) := by
  obtain ⟨N, hN⟩ := outZip_written
  refine ⟨?_, by decide +kernel⟩
  exact C89_zip (x := exOpts [] none) (xs := { exCmd with archive := some (writeArchive outZipConv.creator [0, 1, 2, 3], packBytes outZipConv.contents) })
    hN outZip_layout (by decide +kernel) rfl rfl (by decide +kernel : _ < 6) (insideRun_some (by decide +kernel)) exT.safe

/-- those of `C89_zip_root` and `C89_tar_partial`, for the directory `d` … -/
example : OnlyBelow [ascii "t"] fs0 (insideRun tripZipConv.creator [0, 2, 1, 3] tripZipConv.contents (some (ascii "d"))).1.fs := by
  obtain ⟨N, hN⟩ := ConvEv.written_of (evs := (zip2arx (ascii "a.zip") (ascii "a.arx") tripZipSys).1) (by decide +kernel)
  exact C89_zip_root (c := tripZipConv) (x := { exOpts [] none with rootDir := some (ascii "d") }) (ms := tripZip)
    (xs := { exCmd with archive := some (writeArchive tripZipConv.creator [0, 2, 1, 3], packBytes tripZipConv.contents) })
    hN rfl (by decide +kernel) ⟨by decide +kernel, by decide +kernel⟩ (by decide +kernel) rfl (by decide +kernel : _ < 6)
    (insideRun_some (by decide +kernel)) exT.safe

example : OnlyBelow [ascii "t"] fs0 (insideRun tripTarConv.creator [0, 2, 1] tripTarConv.contents (some (ascii "d"))).1.fs := by
  obtain ⟨N, hN⟩ := ConvEv.written_of (evs := (tar2arx (some (ascii "a.tar")) none exConvSys).1) (by decide +kernel)
  have hpar : ∀ e ∈ exTar, PARENT ∉ memberNames e.path := by decide +kernel
  exact C89_tar_partial (c := tripTarConv) (x := { exOpts [] none with rootDir := some (ascii "d") }) (ms := exTar)
    (xs := { exCmd with archive := some (writeArchive tripTarConv.creator [0, 2, 1], packBytes tripTarConv.contents) })
    hN rfl (fun e he _ => hpar e he) ⟨by decide +kernel, by decide +kernel⟩ (by decide +kernel) rfl (by decide +kernel : _ < 6)
    (insideRun_some (by decide +kernel)) exT.safe

/-- … and those of `C89_create_partial`. -/
example : OnlyBelow [ascii "t"] fs0 (insideRun tripAdder.creator tripOrder tripAdder.contents none).1.fs := by
  obtain ⟨N, hN⟩ := tripAdder_written
  refine C89_create_partial (o := exCreate) (sys := exSys) (a := tripAdder) (x := exOpts [] none)
    (xs := { exCmd with archive := some (writeArchive tripAdder.creator tripOrder, packBytes tripAdder.contents) })
    hN ?_ (fun _ => by decide +kernel) (fun _ _ _ h => by cases h) ⟨by decide +kernel, by decide +kernel⟩ (by decide +kernel) rfl
    (by decide +kernel : _ < 6) (insideRun_some (by decide +kernel)) exT.safe
  intro i d n hn
  have hn : Except.ok n ∈ exLs d := hn
  unfold exLs at hn
  repeat' split at hn
  all_goals simp only [List.mem_cons, List.not_mem_nil, or_false, Except.ok.injEq, reduceCtorEq] at hn
  all_goals (rcases hn with rfl | rfl | rfl <;> exact ⟨⟨by decide, by decide⟩, by decide, by decide, by decide⟩)

end Arx
