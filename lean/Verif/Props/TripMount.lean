import Verif.Props.Trip
import Verif.Props.CreateOk
import Verif.Props.Views
import Verif.Props.MountCmd
import Verif.Props.Extract4
import Verif.Spec.TripMount
/-!
# C79: create, then read
-/
namespace Arx

theorem asU64_of {i : Int} (h0 : 0 ≤ i) (h1 : i < 2 ^ 63) : (asU64 i : Int) = i ∧ asU64 i < 2 ^ 63 := by
  have : i % 2 ^ 64 = i := Int.emod_eq_of_lt h0 (by omega)
  unfold asU64
  rw [this]
  omega

theorem seconds_of {t : Int} (h0 : 0 ≤ t) (h1 : t < 2 ^ 63 * 1000000000) :
    (asU64 (seconds t) : Int) * 1000000000 ≤ t ∧ t < ((asU64 (seconds t) : Int) + 1) * 1000000000 ∧ asU64 (seconds t) < 2 ^ 63 := by
  have hs : seconds t = t / 1000000000 := by
    unfold seconds
    rw [Int.fdiv_eq_ediv_of_nonneg _ (by omega)]
  have a1 : 0 ≤ seconds t := by omega
  have a2 : seconds t < 2 ^ 63 := by omega
  obtain ⟨b1, b2⟩ := asU64_of a1 a2
  rw [b1]
  omega

/-- the time of an entry, as `lstat` gives it, fits -/
theorem Src.Fits.stat {s : Src} (F : s.Fits) {p : List Bytes} {st : Stat} (h : s.lstat p = .ok st) :
    asU64 st.mtime < 2 ^ 63 ∧ ∃ q, s.fs.resolve false p = .ok (.found q) ∧
      match st.kind with
      | .file size => ∃ i, s.fs.nodes q = some (.file i) ∧ size = (s.fs.data i).bytes.length
      | .link => ∃ x t, s.fs.nodes q = some (.link x t)
      | _ => True := by
  unfold Src.lstat at h
  cases hr : s.fs.resolve false p with
  | error e => rw [hr] at h; cases h
  | ok loc =>
    rw [hr] at h
    cases loc with
    | missing u v => cases h
    | found q =>
      simp only [Src.statAt] at h
      cases hn : s.fs.nodes q with
      | none => rw [hn] at h; cases h
      | some y =>
        rw [hn] at h
        cases y with
        | dir t =>
          simp only [Except.ok.injEq] at h
          subst h
          obtain ⟨f1, f2⟩ := F.dirTimes q t hn
          exact ⟨(seconds_of f1 f2).2.2, q, rfl, trivial⟩
        | link x t =>
          simp only [Except.ok.injEq] at h
          subst h
          obtain ⟨f1, f2, _⟩ := F.linkTimes q x t hn
          exact ⟨(seconds_of f1 f2).2.2, q, rfl, x, t, hn⟩
        | file i =>
          simp only [Except.ok.injEq] at h
          obtain ⟨f1, f2, _⟩ := F.fileTimes q i hn
          subst h
          by_cases hsp : s.special i = true
          · simp only [hsp, if_true]
            exact ⟨(seconds_of f1 f2).2.2, q, rfl, trivial⟩
          · simp only [hsp]
            exact ⟨(seconds_of f1 f2).2.2, q, rfl, i, hn, rfl⟩

/-- What is archived from a source that does not change and fits can be read. -/
theorem Adder.Tried.readable {env : CEnv} {s : Src} {tried : List Attempted} {a : Adder}
    (g1 : Adder.Tried env tried a) (Q : Quiet env s) (F : s.Fits)
    {rs : List AddReq} {m : PathMap} (hrun : Creator.new.run rs = some a.creator) (hm : SpecRun PathMap.empty rs m) :
    ∃ rs', Creator.new.run rs' = some a.creator ∧ SpecRun PathMap.empty rs' m ∧ (∀ r ∈ rs', validUtf8 r.path = true) ∧
      AttrsFit m ∧
      ∀ p n size ca, m p = some n → n.kind = .file size ca → ∃ b, packBytes a.contents ca = .found b ∧ b.length = size := by
  obtain ⟨rs', m', k1, k2, k3, k4⟩ := g1.asSeen
  have e : m' = m := SpecRun.same_creator k1 hrun k2 hm
  subst e
  have hst : ∀ {x : Attempted} {p : List Bytes} {st : Stat}, Looked env x p st → s.lstat p = .ok st := by
    intro x p st hL
    rcases hL with ⟨_, h1, _⟩ | ⟨_, _, _, _, _, h1⟩ <;> rw [Q.call] at h1 <;> exact h1
  refine ⟨rs', k1, k2, k3, ?_, ?_⟩
  · intro p n hp
    rcases k4.only p n hp with ⟨x, _, _, _, q, st, hL, h2, h3⟩ | ⟨e, _⟩
    · obtain ⟨f1, q', f2, f3⟩ := F.stat (hst hL)
      refine ⟨by rw [h2]; exact f1, ?_⟩
      cases hk : n.kind with
      | dir => trivial
      | file size c =>
        rw [hk] at h3
        obtain ⟨h4, _⟩ := h3
        rw [h4] at f3
        obtain ⟨i, f4, f5⟩ := f3
        simp only
        rw [f5]; exact (F.fileTimes q' i f4).2.2
      | link target =>
        rw [hk] at h3
        obtain ⟨h4, h5⟩ := h3
        rw [h4] at f3
        obtain ⟨y, t, f4⟩ := f3
        rw [Q.call] at h5
        unfold Src.readLink at h5
        rw [f2] at h5
        simp only [f4, Except.ok.injEq] at h5
        subst h5
        exact (F.linkTimes q' y t f4).2.2
    · rw [e]; exact ⟨by decide, trivial⟩
  · intro p n size ca hp hk
    rcases k4.only p n hp with ⟨x, _, _, _, q, st, hL, h2, h3⟩ | ⟨e, _⟩
    · obtain ⟨_, q', f2, f3⟩ := F.stat (hst hL)
      rw [hk] at h3
      obtain ⟨h4, b, h5, h6⟩ := h3
      rw [h4] at f3
      obtain ⟨i, f4, f5⟩ := f3
      refine ⟨b, h6, ?_⟩
      rw [Q.call] at h5
      unfold Src.readFile at h5
      rw [FS.resolve_follow (by rw [f4]; simp) f2] at h5
      simp only [f4] at h5
      split at h5
      · cases h5
      · simp only [Except.ok.injEq] at h5
        rw [← h5, f5]
    · rw [e] at hk; cases hk

theorem direntSize_le {c : Bytes} (h : c.length ≤ 255) : direntSize c ≤ 280 := by
  unfold direntSize; omega

theorem Client.Served.fair {cl : Client} {before : List FReq} {m : PathMap} (h : cl.Served before)
    (hn : ∀ p n, m p = some n → ∀ c ∈ p, c.length ≤ 255) : cl.Fair m before :=
  ⟨h.others, fun t => ⟨by have := h.buf t; omega, fun p n c hp => by
    have := direntSize_le (hn _ n hp c (by simp)); have := h.buf t; omega⟩, h.chunk⟩

/-- what is copied of an archive that holds what was offered -/
theorem ShowsSource.of {s : Src} (F : s.Fits) {rs : List AddReq} {m : PathMap} {cfg : FsCfg} {d0 : List Bytes} (hM : Mounted rs m cfg d0)
    {offered : List Bytes × List Bytes → Prop}
    (hheld : ∀ u, offered u → ¬ s.Special u.2 → Held s cfg.bytes u.2 (m u.1))
    (honly : ∀ z n, m z = some n → ∃ u, offered u ∧ z <+: u.1 ∧ (z = u.1 → ¬ s.Special u.2))
    {l : List Copied} (hl : Listing m d0 (l.map (fun x => d0 ++ x.path))) (hc : ∀ x ∈ l, CopyOf cfg m d0 x) : ShowsSource s offered d0 l := by
  refine ⟨?_, ?_, ?_⟩
  · have h1 : (l.map (fun x => d0 ++ x.path)).Nodup := hl.1.imp (fun {x y} hxy e => by
      subst e; exact lexLt_irrefl _ hxy)
    have h2 : l.map (fun x => d0 ++ x.path) = (l.map (fun x => x.path)).map (fun p => d0 ++ p) := by simp
    rw [h2] at h1
    exact (List.pairwise_map.mp h1).imp (fun h e => h (by rw [e]))
  · intro u hu hsp z hz hz0
    have hh := hheld u hu hsp
    have hsome : ∃ n, m u.1 = some n := by
      rcases hh with h | ⟨_, n, _, h, _⟩
      · unfold Archived at h
        cases hn : s.fs.nodes u.2 with
        | none => rw [hn] at h; exact h.elim
        | some y =>
          rw [hn] at h
          cases y with
          | dir t => exact ⟨_, h⟩
          | link x t => exact ⟨_, h⟩
          | file i =>
            have hs : s.special i = false := by
              cases e : s.special i with
              | false => rfl
              | true => exact absurd ⟨i, hn, e⟩ hsp
            simp only [hs, Bool.false_eq_true, if_false] at h
            obtain ⟨a, h, _⟩ := h
            exact ⟨_, h⟩
      · exact ⟨n, h⟩
    obtain ⟨n, hn⟩ := hsome
    have hmem := (hl.2 u.1).mpr ⟨⟨n, hn⟩, by rw [hz]; exact List.prefix_append _ _, by rw [hz]; simpa using hz0⟩
    obtain ⟨x, hx, hxp⟩ := List.mem_map.mp hmem
    have hxz : x.path = z := by
      have := hxp; rw [hz] at this; simpa using this
    refine ⟨x, hx, hxz, ?_⟩
    obtain ⟨⟨n1, ns, g1, _, _, _, g5⟩, n2, g6, g7⟩ := hc x hx
    rw [hxp] at g1 g6
    rw [hn] at g1 g6
    cases g1; cases g6
    unfold ShownAs
    rcases hh with h | ⟨t, n', h1, h2, h3⟩
    · unfold Archived at h
      cases hk : s.fs.nodes u.2 with
      | none => rw [hk] at h; exact h.elim
      | some y =>
        rw [hk] at h
        cases y with
        | dir t =>
          simp only at h ⊢
          rw [hn] at h
          cases h
          exact g7
        | link target t =>
          simp only at h ⊢
          rw [hn] at h
          cases h
          obtain ⟨f1, f2, _⟩ := F.linkTimes _ _ _ hk
          obtain ⟨i1, i2, _⟩ := seconds_of f1 f2
          obtain ⟨j1, j2⟩ := F.ids u.2
          refine ⟨g7, ?_⟩
          rw [g5]
          refine ⟨rfl, ?_, ?_, rfl, i1, i2⟩
          · exact Nat.mod_eq_of_lt j1
          · exact Nat.mod_eq_of_lt j2
        | file i =>
          have hs : s.special i = false := by
            cases e : s.special i with
            | false => rfl
            | true => exact absurd ⟨i, hk, e⟩ hsp
          simp only [hs, Bool.false_eq_true, if_false] at h ⊢
          obtain ⟨ca, h, hb⟩ := h
          rw [hn] at h
          cases h
          obtain ⟨f1, f2, _⟩ := F.fileTimes _ _ hk
          obtain ⟨i1, i2, _⟩ := seconds_of f1 f2
          obtain ⟨j1, j2⟩ := F.ids u.2
          obtain ⟨b, hb', hg⟩ := g7
          rw [hb] at hb'
          cases hb'
          refine ⟨hg, ?_⟩
          rw [g5]
          refine ⟨rfl, ?_, ?_, rfl, i1, i2⟩
          · exact Nat.mod_eq_of_lt j1
          · exact Nat.mod_eq_of_lt j2
    · rw [h1]
      simp only
      rw [hn] at h2
      cases h2
      cases hk : n.kind with
      | dir => rw [hk] at g7; exact g7
      | file a b => simp [Node.isDir, Kind.isDir, hk] at h3
      | link a => simp [Node.isDir, Kind.isDir, hk] at h3
  · intro x hx
    obtain ⟨⟨n, hn⟩, _, hne⟩ := (hl.2 (d0 ++ x.path)).mp (List.mem_map_of_mem hx)
    refine ⟨?_, honly _ n hn⟩
    intro e; rw [e] at hne; simp at hne

/-- What programs get of a mounted archive whose names are plain, whose attributes can be represented and whose contents
are there. -/
theorem mounted_shows {rs : List AddReq} {m : PathMap} {st : Creator} (hrun : Creator.new.run rs = some st) (hm : SpecRun PathMap.empty rs m)
    (hu : ∀ r ∈ rs, validUtf8 r.path = true) (hfit : AttrsFit m) {bytes : ContentAddr → GetBytes}
    (hbytes : ∀ p n size ca, m p = some n → n.kind = .file size ca → ∃ b, bytes ca = .found b ∧ b.length = size)
    (hnames : ∀ p n, m p = some n → ∀ c ∈ p, c ≠ CUR ∧ c ≠ PARENT ∧ c.length ≤ 255)
    {order : List Nat} (ho : IsLayout st order) (hlen : st.store.length + 2 < 2 ^ 32)
    {mo : MountOpts} {ms : MountSys} {dir : Bytes} {rg : Range} {opts : List MountOption}
    (harch : ms.archive = some (writeArchive st order)) (hserve : .serve dir rg opts ∈ (mountCmd mo ms).1) :
    Mounted rs m ⟨writeArchive st order, rg, bytes⟩ mo.shown ∧
    ∃ B, ∀ (cl : Client) (before : List FReq), cl.Served before → ∀ f ≥ B,
      ∃ l c, cl.copy ⟨writeArchive st order, rg, bytes⟩ f
          ((FsState.init.run ⟨writeArchive st order, rg, bytes⟩ before).2, 0) [] 1 = (some l, c) ∧
        Listing m mo.shown (l.map (fun x => mo.shown ++ x.path)) ∧ (∀ x ∈ l, CopyOf ⟨writeArchive st order, rg, bytes⟩ m mo.shown x) ∧
        (mo.rootDir = none → OtherReaders (writeArchive st order) bytes l) := by
  have hwr : Written rs (writeArchive st order) := ⟨_, order, hrun, ho, rfl, by omega⟩
  have hroot : mountRoot (writeArchive st order) mo.rootDir = some rg := by
    obtain ⟨_, ⟨a', d, h1, h2, _⟩, _⟩ := C65_mounted mo ms hserve
    rw [harch] at h1
    cases h1; exact h2
  have hM : Mounted rs m ⟨writeArchive st order, rg, bytes⟩ mo.shown := by
    refine ⟨hwr, hm, ?_⟩
    cases hr : mo.rootDir with
    | none =>
      rw [hr] at hroot
      left
      exact ⟨by simp [MountOpts.shown, hr], (Option.some.inj hroot).symm⟩
    | some rd =>
      right
      exact ⟨rd, by simp [MountOpts.shown, hr], by rw [hr] at hroot; exact hroot⟩
  refine ⟨hM, ?_⟩
  have hsz : Listable ⟨writeArchive st order, rg, bytes⟩ := by
    have : (writeArchive st order).entries.length ≤ order.length := by
      simp only [writeArchive]; exact List.length_filterMap_le _ _
    have := ho.1.length_eq
    simp only [List.length_range] at this
    show (writeArchive st order).entries.length + 2 < _
    omega
  obtain ⟨B, hB⟩ := C67_copy hM hfit hsz
    (fun p n hp c hc => by
      obtain ⟨e1, e2, _⟩ := hnames _ n (PathMap.sub_some hp).2 c (by simp [hc])
      exact ⟨e1, e2⟩)
    (fun p n size ca hp hk => hbytes _ n size ca (PathMap.sub_some hp).2 hk)
  cases hr : mo.rootDir with
  | some rd =>
    refine ⟨B, fun cl before hs f hf => ?_⟩
    obtain ⟨l, c, g1, g2, g3⟩ := hB cl before
      (hs.fair fun p n hp c hc => (hnames _ n (PathMap.sub_some hp).2 c (by simp [hc])).2.2) f hf
    exact ⟨l, c, g1, g2, g3, fun e => by cases e⟩
  | none =>
    have hd0 : mo.shown = [] := by simp [MountOpts.shown, hr]
    have hM0 := hM
    rw [hd0] at hM0
    obtain ⟨B', hB'⟩ := C76_readers hM0 hfit hsz hu
      (fun p n hp c hc => by
        obtain ⟨e1, e2, _⟩ := hnames p n hp c hc
        exact ⟨e1, e2, hm.utf8_names hu p n hp c hc⟩)
      (fun p n size ca hp hk => hbytes p n size ca hp hk)
    refine ⟨max B B', fun cl before hs f hf => ?_⟩
    have hfair := fun (d0 : List Bytes) => hs.fair (m := m.sub d0) fun p n hp c hc => (hnames _ n (PathMap.sub_some hp).2 c (by simp [hc])).2.2
    obtain ⟨l, c, g1, g2, g3⟩ := hB cl before (hfair _) f (by omega)
    obtain ⟨l', c', r1, r2, r3, r4, r5⟩ := hB' cl before (hfair _) f (by omega)
    rw [g1] at r1
    obtain ⟨e1, _⟩ := Prod.mk.inj r1
    cases e1
    exact ⟨l, c, g1, g2, g3, fun _ => ⟨r2, r3, r4, r5⟩⟩

/-- archiving something offered, then reading -/
theorem Adder.Tried.shows {env : CEnv} {s : Src} {tried : List Attempted} {a : Adder}
    (h : Adder.Tried env tried a) (Q : Quiet env s) (F : s.Fits)
    {rs : List AddReq} {m : PathMap} (hrun : Creator.new.run rs = some a.creator) (hm : SpecRun PathMap.empty rs m)
    {offered : List Bytes × List Bytes → Prop}
    (hheld : ∀ u, offered u → ¬ s.Special u.2 → Held s (packBytes a.contents) u.2 (m u.1))
    (honly : ∀ z n, m z = some n → ∃ u, offered u ∧ z <+: u.1 ∧ (z = u.1 → ¬ s.Special u.2))
    (hplain : ∀ u, offered u → ∀ c ∈ u.1, c ≠ CUR ∧ c ≠ PARENT ∧ c.length ≤ 255)
    {order : List Nat} (ho : IsLayout a.creator order) (hlen : a.creator.store.length + 2 < 2 ^ 32)
    {mo : MountOpts} {ms : MountSys} {dir : Bytes} {rg : Range} {opts : List MountOption}
    (harch : ms.archive = some (writeArchive a.creator order)) (hserve : .serve dir rg opts ∈ (mountCmd mo ms).1) :
    ∃ B, ∀ (cl : Client) (before : List FReq), cl.Served before → ∀ f ≥ B,
      ∃ l c, cl.copy ⟨writeArchive a.creator order, rg, packBytes a.contents⟩ f
          ((FsState.init.run ⟨writeArchive a.creator order, rg, packBytes a.contents⟩ before).2, 0) [] 1 = (some l, c) ∧
        ShowsSource s offered mo.shown l ∧ (mo.rootDir = none → OtherReaders (writeArchive a.creator order) (packBytes a.contents) l) := by
  obtain ⟨rs', k1, k2, k3, k4, k5⟩ := h.readable Q F hrun hm
  have hnames : ∀ p n, m p = some n → ∀ c ∈ p, c ≠ CUR ∧ c ≠ PARENT ∧ c.length ≤ 255 := by
    intro p n hp c hc
    obtain ⟨u, hu, hz, _⟩ := honly p n hp
    exact hplain u hu c (hz.subset hc)
  obtain ⟨hM, B, hB⟩ := mounted_shows k1 k2 k3 k4 k5 hnames ho hlen harch hserve
  refine ⟨B, fun cl before hs f hf => ?_⟩
  obtain ⟨l, c, g1, g2, g3, g4⟩ := hB cl before hs f hf
  exact ⟨l, c, g1, ShowsSource.of F hM hheld honly g2 g3, g4⟩

/-- **C79, input files.** Let `arx create` with input files write an archive of a source that does not change meanwhile, with any
options and any interleaving of its threads, and let `arx mount` mount it, or a directory of it. Any program that copies the
mount, whatever others ask, gets exactly the entries of the source that were asked for, with their kinds, contents, link targets and attributes, and the
directories above. If the whole archive is mounted, all other readers show the same. (For inputs without `..`, and a source
whose attributes can be represented.) -/
theorem C79_inputs {o : CreateOpts} {sys : CreateSys} {s : Src} {cwd N : List Bytes} {a : Adder} (hacc : o.Accepted)
    (hfl : o.fileList = none) (hcwd : StartsIn o sys cwd) (Q : Quiet (sys.cenv cwd) s) (W : s.WF) (F : s.Fits) (hcheck : sys.atCheck = s)
    (hw : ∀ i, (sys.walks i).src = s ∧ FullListing s (sys.walks i).ls ∧ ∀ q, s.fs.nodes q ≠ none → q.length ≤ (sys.walks i).depth)
    (h : CreateEv.written N a ∈ (o.run sys).1)
    (hargs : ∀ f ∈ o.infiles, ∀ c ∈ comps f, c ≠ PARENT ∧ c.length ≤ 255)
    {order : List Nat} (ho : IsLayout a.creator order) (hlen : a.creator.store.length + 2 < 2 ^ 32)
    {mo : MountOpts} {ms : MountSys} {dir : Bytes} {rg : Range} {opts : List MountOption}
    (harch : ms.archive = some (writeArchive a.creator order)) (hserve : .serve dir rg opts ∈ (mountCmd mo ms).1) :
    (∀ f ∈ o.infiles, ∃ k q, InputAt s cwd (o.stripPrefix.getD []) f k q) ∧
    ∃ B, ∀ (cl : Client) (before : List FReq), cl.Served before → ∀ n ≥ B,
      ∃ l c, cl.copy ⟨writeArchive a.creator order, rg, packBytes a.contents⟩ n
          ((FsState.init.run ⟨writeArchive a.creator order, rg, packBytes a.contents⟩ before).2, 0) [] 1 = (some l, c) ∧
        ShowsSource s (fun u => ∃ f ∈ o.infiles, OffersTree s cwd (o.stripPrefix.getD []) (!o.noRecurse) f u) mo.shown l ∧
        (mo.rootDir = none → OtherReaders (writeArchive a.creator order) (packBytes a.contents) l) := by
  obtain ⟨rs, m, g1, g2, g3⟩ := CreateOpts.inputs_spec hacc hfl hcwd Q W hcheck hw h
  have hrec : o.Recurses ↔ (!o.noRecurse) = true := by unfold CreateOpts.Recurses; rw [hfl]; simp
  refine ⟨fun f hf => ?_, ?_⟩
  · obtain ⟨k, q, h1, _⟩ := g3.all f hf
    exact ⟨k, q, h1⟩
  · obtain ⟨_, ht⟩ := CreateOpts.tried hcwd h
    refine ht.shows Q F g1 g2 ?_ ?_ ?_ ho hlen harch hserve
    · rintro _ ⟨f, hf, k, q, p, i1, i2, i3, rfl, i5⟩ hsp
      obtain ⟨k', q', j1, j2⟩ := g3.all f hf
      have e1 := i1.1.unique j1.1
      subst e1
      have e2 := i1.2.1
      rw [j1.2.1] at e2
      cases e2
      exact j2 p i2 (i3.imp id hrec.mpr) i5 hsp
    · intro z n hz
      obtain ⟨f, hf, k, q, p, i1, i2, i3, i4, i5, i6⟩ := g3.only z n hz
      refine ⟨(k ++ p, q ++ p), ⟨f, hf, k, q, p, i1, i2, i3.imp id hrec.mp, rfl, ?_⟩, i5, i6⟩
      intro e
      simp only at e
      rw [e] at i5
      exact i4 (List.prefix_nil.mp i5)
    · rintro _ ⟨f, hf, k, q, p, i1, i2, _, rfl, _⟩ c hc
      rcases List.mem_append.mp hc with hk | hk
      · obtain ⟨j1, j2⟩ := i1.1.mem hk
        obtain ⟨j3, j4⟩ := hargs f hf c j1
        exact ⟨j2, j3, j4⟩
      · obtain ⟨y, hy⟩ := Option.ne_none_iff_exists'.mp i2
        have := (W.names _ y hy c (by simp [hk])).2
        exact ⟨this.1, this.2.1, F.names _ y hy c (by simp [hk])⟩

/-- **C79, file list.** The same for a file list: the entries named by its lines. -/
theorem C79_list {o : CreateOpts} {sys : CreateSys} {s : Src} {cwd N : List Bytes} {a : Adder} {l text : Bytes} {lines : List Bytes}
    (hfl : o.fileList = some l) (hcwd : StartsIn o sys cwd) (Q : Quiet (sys.cenv cwd) s) (W : s.WF) (F : s.Fits)
    (h : CreateEv.written N a ∈ (o.run sys).1)
    (htext : sys.text (absFile sys.cwd l) = some text) (hlines : TextOf lines text)
    (hargs : ∀ f ∈ lines, ∀ c ∈ comps f, c ≠ PARENT ∧ c.length ≤ 255)
    {order : List Nat} (ho : IsLayout a.creator order) (hlen : a.creator.store.length + 2 < 2 ^ 32)
    {mo : MountOpts} {ms : MountSys} {dir : Bytes} {rg : Range} {opts : List MountOption}
    (harch : ms.archive = some (writeArchive a.creator order)) (hserve : .serve dir rg opts ∈ (mountCmd mo ms).1) :
    ∃ B, ∀ (cl : Client) (before : List FReq), cl.Served before → ∀ n ≥ B,
      ∃ l c, cl.copy ⟨writeArchive a.creator order, rg, packBytes a.contents⟩ n
          ((FsState.init.run ⟨writeArchive a.creator order, rg, packBytes a.contents⟩ before).2, 0) [] 1 = (some l, c) ∧
        ShowsSource s (fun u => ∃ f ∈ lines, OffersOne s cwd (o.stripPrefix.getD []) (f, o.followSymlink) u) mo.shown l ∧
        (mo.rootDir = none → OtherReaders (writeArchive a.creator order) (packBytes a.contents) l) := by
  obtain ⟨text', lines', rs, m, e1, e2, g1, g2, g3⟩ := CreateOpts.list_spec hfl hcwd Q W h
  rw [htext] at e1
  cases e1
  have : lines' = lines := by rw [← e2.lines, hlines.lines]
  subst this
  obtain ⟨_, ht⟩ := CreateOpts.tried hcwd h
  obtain ⟨o1, o2⟩ := offers_list g3
  refine ht.shows Q F g1 g2 o1 o2 ?_ ho hlen harch hserve
  rintro u ⟨f, hf, i1, _, _⟩ c hc
  obtain ⟨j1, j2⟩ := i1.mem hc
  obtain ⟨j3, j4⟩ := hargs f hf c j1
  exact ⟨j2, j3, j4⟩

/-! ### Example: `arx create -o x.arx d`, then `arx mount x.arx /mnt`, or only its directory `d` -/

def tripMount (rootDir : Option Bytes) : MountOpts := ⟨ascii "x.arx", some (ascii "/mnt"), rootDir, true⟩
def tripMountSys : MountSys := ⟨ascii "/home", some (writeArchive tripAdder.creator tripOrder), none, true, true⟩

/-- a program that copies with small buffers, while another one reads file 5 -/
def tripClient : Client := { exClient with buf := fun t => 280 + t }

theorem tripClient_served : tripClient.Served [.open 5] := by
  obtain ⟨h1, _, h3⟩ := exFair PathMap.empty (by intro p n c h; cases h)
  exact ⟨h1, fun t => by simp [tripClient], h3⟩

theorem exSrc_fits : exSrc.Fits := by
  refine ⟨?_, ?_, ?_, ?_, ?_⟩
  · intro q t h
    have := exSrc_nodes h
    simp only [List.mem_cons, Prod.mk.injEq, List.not_mem_nil, or_false] at this
    rcases this with ⟨_, e⟩ | ⟨_, e⟩ | ⟨_, e⟩ | ⟨_, e⟩ | ⟨_, e⟩ | ⟨_, e⟩ <;> cases e <;> decide
  · intro q x t h
    have := exSrc_nodes h
    simp only [List.mem_cons, Prod.mk.injEq, List.not_mem_nil, or_false] at this
    rcases this with ⟨_, e⟩ | ⟨_, e⟩ | ⟨_, e⟩ | ⟨_, e⟩ | ⟨_, e⟩ | ⟨_, e⟩ <;> cases e <;> decide
  · intro q i h
    have := exSrc_nodes h
    simp only [List.mem_cons, Prod.mk.injEq, List.not_mem_nil, or_false] at this
    rcases this with ⟨_, e⟩ | ⟨_, e⟩ | ⟨_, e⟩ | ⟨_, e⟩ | ⟨_, e⟩ | ⟨_, e⟩ <;> cases e <;> decide
  · intro q; simp only [exSrc]; decide
  · intro q x h
    have := exSrc_nodes h
    simp only [List.mem_cons, Prod.mk.injEq, List.not_mem_nil, or_false] at this
    rcases this with ⟨e, _⟩ | ⟨e, _⟩ | ⟨e, _⟩ | ⟨e, _⟩ | ⟨e, _⟩ | ⟨e, _⟩ <;> rw [e] <;> decide

/-- the hypotheses of `C79_inputs` are met, for the whole archive and for a directory of it -/
theorem exTripMount (rd : Option Bytes) (hrd : rd = none ∨ rd = some (ascii "d")) : ∃ rg B, ∀ n ≥ B,
    ∃ l c, tripClient.copy ⟨writeArchive tripAdder.creator tripOrder, rg, packBytes tripAdder.contents⟩ n
        ((FsState.init.run ⟨writeArchive tripAdder.creator tripOrder, rg, packBytes tripAdder.contents⟩ [.open 5]).2, 0) [] 1 = (some l, c) ∧
      ShowsSource exSrc (fun u => ∃ f ∈ [ascii "d"], OffersTree exSrc [] [] true f u) (tripMount rd).shown l ∧
      (rd = none → OtherReaders (writeArchive tripAdder.creator tripOrder) (packBytes tripAdder.contents) l) := by
  obtain ⟨N, hN⟩ := tripAdder_written
  have hex : ∃ dir rg opts, MountEv.serve dir rg opts ∈ (mountCmd (tripMount rd) tripMountSys).1 := by
    have : ∀ rd, rd = none ∨ rd = some (ascii "d") →
        ((mountCmd (tripMount rd) tripMountSys).1.any fun e => match e with | .serve _ _ _ => true | _ => false) = true := by
      rintro rd (rfl | rfl) <;> decide +kernel
    obtain ⟨e, h1, h2⟩ := List.any_eq_true.mp (this rd hrd)
    cases e with
    | serve dir rg opts => exact ⟨dir, rg, opts, h1⟩
    | _ => cases h2
  obtain ⟨dir, rg, opts, hs⟩ := hex
  have hargs : ∀ f ∈ exCreate.infiles, ∀ c ∈ comps f, c ≠ PARENT ∧ c.length ≤ 255 := by decide +kernel
  obtain ⟨_, B, hB⟩ := C79_inputs (o := exCreate) (sys := exSys) (N := N) (a := tripAdder) (order := tripOrder)
    ⟨by decide, by decide, by decide⟩ rfl rfl exEnv_quiet exSrc_wf exSrc_fits rfl exSys_walks hN hargs
    ⟨by decide +kernel, by decide +kernel⟩ (by decide +kernel) rfl hs
  exact ⟨rg, B, fun n hn => hB tripClient [.open 5] tripClient_served n hn⟩

/-- what was copied, with the attributes: the special file `d/p` is not there -/
example : ((tripClient.copy ⟨writeArchive tripAdder.creator tripOrder, (writeArchive tripAdder.creator tripOrder).root, packBytes tripAdder.contents⟩ 20
      (FsState.init, 0) [] 1).1.map (fun l => l.map (fun x => (x.path, x.got, x.attr.mtime)))) =
    some [([ascii "d"], .dir, 1), ([ascii "d", ascii "f"], .file (ascii "hi"), 7), ([ascii "d", ascii "s"], .dir, 2),
      ([ascii "d", ascii "s", ascii "l"], .link (ascii "../f"), 3)] := by decide +kernel

/-- the hypotheses of `C79_list` are met -/
example : ∃ rg B, ∀ n ≥ B,
    ∃ l c, tripClient.copy ⟨writeArchive listAdder.creator [0], rg, packBytes listAdder.contents⟩ n
        ((FsState.init.run ⟨writeArchive listAdder.creator [0], rg, packBytes listAdder.contents⟩ [.open 5]).2, 0) [] 1 = (some l, c) ∧
      ShowsSource exSrc (fun u => ∃ f ∈ [ascii "d"], OffersOne exSrc [] [] (f, false) u) [] l ∧
      OtherReaders (writeArchive listAdder.creator [0]) (packBytes listAdder.contents) l := by
  obtain ⟨N, hN⟩ := listAdder_written
  have hs : ∃ dir rg opts, MountEv.serve dir rg opts ∈ (mountCmd (tripMount none) { tripMountSys with archive := some (writeArchive listAdder.creator [0]) }).1 :=
    ⟨_, _, _, List.mem_singleton.mpr rfl⟩
  obtain ⟨dir, rg, opts, hs⟩ := hs
  have hargs : ∀ f ∈ [ascii "d"], ∀ c ∈ comps f, c ≠ PARENT ∧ c.length ≤ 255 := by decide +kernel
  obtain ⟨B, hB⟩ := C79_list (o := exListOpts) (sys := exSys) (N := N) (a := listAdder) (order := [0]) (text := ascii "d\n")
    (lines := [ascii "d"]) rfl rfl exEnv_quiet exSrc_wf exSrc_fits hN (by decide +kernel)
    (.line (t := []) (by decide +kernel) (by decide +kernel) .empty) hargs
    ⟨by decide +kernel, by decide +kernel⟩ (by decide +kernel) rfl hs
  refine ⟨rg, B, fun n hn => ?_⟩
  obtain ⟨l, c, h1, h2, h3⟩ := hB tripClient [.open 5] tripClient_served n hn
  exact ⟨l, c, h1, h2, h3 rfl⟩

end Arx
