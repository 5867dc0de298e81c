import Verif.Props.TripMount
import Verif.Props.Reproduce
import Verif.Spec.ShowDirs
/-!
# C79: the attributes of directories
-/
namespace Arx

/-- a directory of the archive, as it was copied -/
theorem copied_dir {cfg : FsCfg} {m : PathMap} {d0 z : List Bytes} {l : List Copied} {i : Meta} (hl : Listing m d0 (l.map (fun x => d0 ++ x.path)))
    (hc : ∀ x ∈ l, CopyOf cfg m d0 x) (hm : m (d0 ++ z) = some ⟨i, .dir⟩) (hz : z ≠ []) :
    ∃ x ∈ l, x.path = z ∧ x.got = .dir ∧ ∃ k n, x.attr = attrSpec k n ⟨i, .dir⟩ := by
  obtain ⟨x, hx, hxp⟩ := List.mem_map.mp ((hl.2 (d0 ++ z)).mpr ⟨⟨_, hm⟩, List.prefix_append _ _, by simpa using hz⟩)
  obtain ⟨⟨n1, ns, g1, _, _, _, g5⟩, n2, g6, g7⟩ := hc x hx
  rw [hxp, hm] at g1 g6
  cases g1; cases g6
  exact ⟨x, hx, by simpa using hxp, g7, _, _, g5⟩

theorem copied_source {s : Src} (F : s.Fits) {cfg : FsCfg} {m : PathMap} {d0 z q : List Bytes} {l : List Copied}
    (hl : Listing m d0 (l.map (fun x => d0 ++ x.path))) (hc : ∀ x ∈ l, CopyOf cfg m d0 x) {b : ContentAddr → GetBytes}
    (hm : Archived s b q (m (d0 ++ z))) (hd : s.DirAt q) (hz : z ≠ []) : ∃ x ∈ l, x.path = z ∧ DirShown s q x := by
  obtain ⟨t, ht⟩ := hd
  unfold Archived at hm
  rw [ht] at hm
  obtain ⟨x, h1, h2, h3, k, n, h4⟩ := copied_dir hl hc hm hz
  obtain ⟨f1, f2⟩ := F.dirTimes _ _ ht
  obtain ⟨i1, i2, _⟩ := seconds_of f1 f2
  obtain ⟨j1, j2⟩ := F.ids q
  refine ⟨x, h1, h2, h3, t, ht, rfl, ?_, ?_, ?_, ?_⟩
  · rw [h4]; exact Nat.mod_eq_of_lt j1
  · rw [h4]; exact Nat.mod_eq_of_lt j2
  · rw [h4]; rfl
  · rw [h4]; exact ⟨i1, i2⟩

theorem copied_implied {cfg : FsCfg} {m : PathMap} {d0 z : List Bytes} {l : List Copied}
    (hl : Listing m d0 (l.map (fun x => d0 ++ x.path))) (hc : ∀ x ∈ l, CopyOf cfg m d0 x)
    (hm : m (d0 ++ z) = some ⟨⟨1000, 1000, 0o755, 0⟩, .dir⟩) (hz : z ≠ []) : ∃ x ∈ l, x.path = z ∧ ImpliedDir x := by
  obtain ⟨x, h1, h2, h3, k, n, h4⟩ := copied_dir hl hc hm hz
  refine ⟨x, h1, h2, h3, ?_⟩
  rw [h4]
  exact ⟨rfl, rfl, rfl, rfl⟩

/-- **C79, directories.** In the setting of `C79_inputs`, also the directories are shown with the attributes of the source: every directory
has those of the first input that makes an entry there; the directories above an input that no earlier input makes have those of
implied directories. -/
theorem C79_dirs {o : CreateOpts} {sys : CreateSys} {s : Src} {cwd N : List Bytes} {a : Adder}
    (hfl : o.fileList = none) (hcwd : StartsIn o sys cwd) (Q : Quiet (sys.cenv cwd) s) (W : s.WF) (F : s.Fits) (hcheck : sys.atCheck = s)
    (hw : ∀ i, (sys.walks i).src = s ∧ FullListing s (sys.walks i).ls ∧ ∀ q, s.fs.nodes q ≠ none → q.length ≤ (sys.walks i).depth)
    (h : CreateEv.written N a ∈ (o.run sys).1)
    (hargs : ∀ f ∈ o.infiles, ∀ c ∈ comps f, c ≠ PARENT ∧ c.length ≤ 255)
    {order : List Nat} (ho : IsLayout a.creator order) (hlen : a.creator.store.length + 2 < 2 ^ 32)
    {mo : MountOpts} {ms : MountSys} {dir : Bytes} {rg : Range} {opts : List MountOption}
    (harch : ms.archive = some (writeArchive a.creator order)) (hserve : .serve dir rg opts ∈ (mountCmd mo ms).1) :
    ∃ B, ∀ (cl : Client) (before : List FReq), cl.Served before → ∀ n ≥ B,
      ∃ l c, cl.copy ⟨writeArchive a.creator order, rg, packBytes a.contents⟩ n
          ((FsState.init.run ⟨writeArchive a.creator order, rg, packBytes a.contents⟩ before).2, 0) [] 1 = (some l, c) ∧
        ShowsDirs s cwd (o.stripPrefix.getD []) o.recursion o.infiles mo.shown l := by
  obtain ⟨rs, m, g1, g2, g3⟩ := CreateOpts.inputs_exact hfl hcwd Q W hcheck hw h
  obtain ⟨_, ht⟩ := CreateOpts.tried hcwd h
  obtain ⟨rs', k1, k2, k3, k4, k5⟩ := ht.readable Q F g1 g2
  have hnames : ∀ p n, m p = some n → ∀ c ∈ p, c ≠ CUR ∧ c ≠ PARENT ∧ c.length ≤ 255 := by
    intro p n hp c hc
    have : ∃ f ∈ o.infiles, TreeMakes s cwd (o.stripPrefix.getD []) o.recursion f p := by
      apply Classical.byContradiction
      intro hno
      have := g3.nothing p (fun f hf hm => hno ⟨f, hf, hm⟩)
      rw [hp] at this; cases this
    obtain ⟨f, hf, _, u, ⟨k, q, z, i1, i2, _, rfl, _⟩, hpre, _⟩ := this
    have hc := hpre.subset hc
    rcases List.mem_append.mp hc with hk | hk
    · obtain ⟨j1, j2⟩ := i1.1.mem hk
      obtain ⟨j3, j4⟩ := hargs f hf c j1
      exact ⟨j2, j3, j4⟩
    · obtain ⟨y, hy⟩ := Option.ne_none_iff_exists'.mp i2
      have := (W.names _ y hy c (by simp [hk])).2
      exact ⟨this.1, this.2.1, F.names _ y hy c (by simp [hk])⟩
  obtain ⟨hM, B, hB⟩ := mounted_shows k1 k2 k3 k4 k5 hnames ho hlen harch hserve
  refine ⟨B, fun cl before hs f hf => ?_⟩
  obtain ⟨l, c, r1, r2, r3, _⟩ := hB cl before hs f hf
  refine ⟨l, c, r1, ?_, ?_⟩
  · intro A f B u z e hu hd hA hz hz0
    have hsp : ¬ s.Special u.2 := by
      rintro ⟨i, hi, _⟩
      obtain ⟨t, ht⟩ := hd
      rw [ht] at hi; cases hi
    have := g3.entry A f B u e hu hsp hA
    rw [hz] at this
    exact copied_source F r2 r3 this hd hz0
  · intro A f B k q y z e hi hy hA hz hz0
    have := g3.above A f B k q y e hi hy hA
    rw [hz] at this
    exact copied_implied r2 r3 this hz0

/-- **C79, directories of a file list.** -/
theorem C79_listed {o : CreateOpts} {sys : CreateSys} {s : Src} {cwd N : List Bytes} {a : Adder} {l text : Bytes} {lines : List Bytes}
    (hfl : o.fileList = some l) (hcwd : StartsIn o sys cwd) (Q : Quiet (sys.cenv cwd) s) (W : s.WF) (F : s.Fits)
    (h : CreateEv.written N a ∈ (o.run sys).1)
    (htext : sys.text (absFile sys.cwd l) = some text) (hlines : TextOf lines text)
    (hargs : ∀ f ∈ lines, ∀ c ∈ comps f, c ≠ PARENT ∧ c.length ≤ 255)
    {order : List Nat} (ho : IsLayout a.creator order) (hlen : a.creator.store.length + 2 < 2 ^ 32)
    {mo : MountOpts} {ms : MountSys} {dir : Bytes} {rg : Range} {opts : List MountOption}
    (harch : ms.archive = some (writeArchive a.creator order)) (hserve : .serve dir rg opts ∈ (mountCmd mo ms).1) :
    ∃ B, ∀ (cl : Client) (before : List FReq), cl.Served before → ∀ n ≥ B,
      ∃ l c, cl.copy ⟨writeArchive a.creator order, rg, packBytes a.contents⟩ n
          ((FsState.init.run ⟨writeArchive a.creator order, rg, packBytes a.contents⟩ before).2, 0) [] 1 = (some l, c) ∧
        ShowsListed s cwd (o.stripPrefix.getD []) (lines.map (fun p => (p, o.followSymlink))) mo.shown l := by
  obtain ⟨text', lines', rs, m, e1, e2, g1, g2, g3, _⟩ := CreateOpts.list_exact' hfl hcwd Q W h
  rw [htext] at e1
  cases e1
  have : lines' = lines := by rw [← e2.lines, hlines.lines]
  subst this
  obtain ⟨_, ht⟩ := CreateOpts.tried hcwd h
  obtain ⟨rs', k1, k2, k3, k4, k5⟩ := ht.readable Q F g1 g2
  have hnames : ∀ p n, m p = some n → ∀ c ∈ p, c ≠ CUR ∧ c ≠ PARENT ∧ c.length ≤ 255 := by
    intro p n hp c hc
    have : ∃ f ∈ lines', Makes s cwd (o.stripPrefix.getD []) (f, o.followSymlink) p := by
      apply Classical.byContradiction
      intro hno
      have := g3.nothing p (fun x hx hm => by
        obtain ⟨f, hf, rfl⟩ := List.mem_map.mp hx
        exact hno ⟨f, hf, hm⟩)
      rw [hp] at this; cases this
    obtain ⟨f, hf, _, u, ⟨i1, _, _⟩, hpre, _⟩ := this
    obtain ⟨j1, j2⟩ := i1.mem (hpre.subset hc)
    obtain ⟨j3, j4⟩ := hargs f hf c j1
    exact ⟨j2, j3, j4⟩
  obtain ⟨hM, B, hB⟩ := mounted_shows k1 k2 k3 k4 k5 hnames ho hlen harch hserve
  refine ⟨B, fun cl before hs f hf => ?_⟩
  obtain ⟨l, c, r1, r2, r3, _⟩ := hB cl before hs f hf
  refine ⟨l, c, r1, ?_, ?_⟩
  · intro A w B u z e hu hd hA hz hz0
    have hsp : ¬ s.Special u.2 := by
      rintro ⟨i, hi, _⟩
      obtain ⟨t, ht⟩ := hd
      rw [ht] at hi; cases hi
    have := g3.entry A w B u e hu hsp hA
    rw [hz] at this
    exact copied_source F r2 r3 this hd hz0
  · intro A w B u y z e hi hy hA hz hz0
    have := g3.above A w B u y e hi hy hA
    rw [hz] at this
    exact copied_implied r2 r3 this hz0

/-- the hypotheses of `C79_dirs` are met, for the whole archive and for a directory of it -/
theorem exShowDirs (rd : Option Bytes) (hrd : rd = none ∨ rd = some (ascii "d")) : ∃ rg B, ∀ n ≥ B,
    ∃ l c, tripClient.copy ⟨writeArchive tripAdder.creator tripOrder, rg, packBytes tripAdder.contents⟩ n
        ((FsState.init.run ⟨writeArchive tripAdder.creator tripOrder, rg, packBytes tripAdder.contents⟩ [.open 5]).2, 0) [] 1 = (some l, c) ∧
      ShowsDirs exSrc [] [] true [ascii "d"] (tripMount rd).shown l := by
  obtain ⟨N, hN⟩ := tripAdder_written
  have hex : ∃ dir rg opts, MountEv.serve dir rg opts ∈ (mountCmd (tripMount rd) tripMountSys).1 := by
    have : ∀ rd, rd = none ∨ rd = some (ascii "d") →
        ((mountCmd (tripMount rd) tripMountSys).1.any fun e => match e with | .serve _ _ _ => true | _ => false) = true := by
      rintro rd (rfl | rfl) <;> decide +kernel
    obtain ⟨e, h1, h2⟩ := List.any_eq_true.mp (this rd hrd)
    cases e with
    | serve dir rg opts => exact ⟨dir, rg, opts, h1⟩
    | _ => cases h2
  obtain ⟨dir, rg, opts, hs⟩ := hex
  have hargs : ∀ f ∈ exCreate.infiles, ∀ c ∈ comps f, c ≠ PARENT ∧ c.length ≤ 255 := by decide +kernel
  obtain ⟨B, hB⟩ := C79_dirs (o := exCreate) (sys := exSys) (N := N) (a := tripAdder) (order := tripOrder)
    rfl rfl exEnv_quiet exSrc_wf exSrc_fits rfl exSys_walks hN hargs
    ⟨by decide +kernel, by decide +kernel⟩ (by decide +kernel) rfl hs
  exact ⟨rg, B, fun n hn => hB tripClient [.open 5] tripClient_served n hn⟩

/-- the hypotheses of `C79_listed` are met -/
example : ∃ rg B, ∀ n ≥ B,
    ∃ l c, tripClient.copy ⟨writeArchive listAdder.creator [0], rg, packBytes listAdder.contents⟩ n
        ((FsState.init.run ⟨writeArchive listAdder.creator [0], rg, packBytes listAdder.contents⟩ [.open 5]).2, 0) [] 1 = (some l, c) ∧
      ShowsListed exSrc [] [] [(ascii "d", false)] [] l := by
  obtain ⟨N, hN⟩ := listAdder_written
  have hs : ∃ dir rg opts, MountEv.serve dir rg opts ∈ (mountCmd (tripMount none) { tripMountSys with archive := some (writeArchive listAdder.creator [0]) }).1 :=
    ⟨_, _, _, List.mem_singleton.mpr rfl⟩
  obtain ⟨dir, rg, opts, hs⟩ := hs
  have hargs : ∀ f ∈ [ascii "d"], ∀ c ∈ comps f, c ≠ PARENT ∧ c.length ≤ 255 := by decide +kernel
  obtain ⟨B, hB⟩ := C79_listed (o := exListOpts) (sys := exSys) (N := N) (a := listAdder) (order := [0]) (text := ascii "d\n")
    (lines := [ascii "d"]) rfl rfl exEnv_quiet exSrc_wf exSrc_fits hN (by decide +kernel)
    (.line (t := []) (by decide +kernel) (by decide +kernel) .empty) hargs
    ⟨by decide +kernel, by decide +kernel⟩ (by decide +kernel) rfl hs
  exact ⟨rg, B, fun n hn => hB tripClient [.open 5] tripClient_served n hn⟩

/-- the directories `d` and `d/s` as they were copied, with owner, group, permissions and time -/
example : ((tripClient.copy ⟨writeArchive tripAdder.creator tripOrder, (writeArchive tripAdder.creator tripOrder).root, packBytes tripAdder.contents⟩ 20
      (FsState.init, 0) [] 1).1.map (fun l => (l.filter (fun x => x.got == .dir)).map (fun x => (x.path, x.attr.uid, x.attr.gid, x.attr.perm, x.attr.mtime)))) =
    some [([ascii "d"], 1, 2, 0o100444, 1), ([ascii "d", ascii "s"], 1, 2, 0o100444, 2)] := by decide +kernel

end Arx
