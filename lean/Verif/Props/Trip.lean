import Verif.Props.Create2
import Verif.Spec.CreateOk
import Verif.Props.Seen
import Verif.Props.Exact3
import Verif.Spec.Trip
/-!
# C71: create, then extract
-/
namespace Arx

/-- The entries a creator holds determine the map. -/
theorem Rel.map_unique {st : Creator} {m m' : PathMap} {paths paths' : List (List Bytes)} (R : Rel st m paths) (R' : Rel st m' paths') :
    m = m' := by
  have hp : ∀ (n i : Nat), i < n → paths[i]? = paths'[i]? := by
    intro n
    induction n with
    | zero => intro i hi; omega
    | succ n ih =>
      intro i hi
      cases he : st.store[i]? with
      | none =>
        have h1 : paths.length ≤ i := by rw [R.len]; exact List.getElem?_eq_none_iff.mp he
        have h2 : paths'.length ≤ i := by rw [R'.len]; exact List.getElem?_eq_none_iff.mp he
        rw [List.getElem?_eq_none h1, List.getElem?_eq_none h2]
      | some e =>
        rw [R.path i e he, R'.path i e he]
        have : curPath paths e.parent = curPath paths' e.parent := by
          cases hpar : e.parent with
          | none => rfl
          | some p =>
            have hlt := (R.parent i e p he hpar).1
            have := ih p (by omega)
            simp only [curPath, this]
        rw [this]
  have hpaths : paths = paths' := List.ext_getElem? fun i => hp (i + 1) i (by omega)
  subst hpaths
  have sub : ∀ {m m' : PathMap}, Rel st m paths → Rel st m' paths → ∀ p n, m p = some n → m' p = some n := by
    intro m m' R R' p n h
    obtain ⟨i, hi⟩ := List.mem_iff_getElem?.mp (R.dom p n h)
    cases he : st.store[i]? with
    | none =>
      have h1 : paths.length ≤ i := by rw [R.len]; exact List.getElem?_eq_none_iff.mp he
      rw [List.getElem?_eq_none h1] at hi; cases hi
    | some e =>
      have h1 := R.path i e he
      rw [hi] at h1
      have h2 := R.node i e he
      have h3 := R'.node i e he
      rw [← Option.some.inj h1] at h2 h3
      rw [h] at h2
      rw [h3, h2]
  funext p
  cases h : m p with
  | some n => rw [sub R R' p n h]
  | none =>
    cases h' : m' p with
    | none => rfl
    | some n => rw [sub R' R p n h'] at h; cases h

theorem SpecRun.same_creator {rs rs' : List AddReq} {st : Creator} {m m' : PathMap} (h : Creator.new.run rs = some st)
    (h' : Creator.new.run rs' = some st) (hm : SpecRun PathMap.empty rs m) (hm' : SpecRun PathMap.empty rs' m') : m = m' := by
  obtain ⟨m1, p1, k1, R1⟩ := run_rel h
  obtain ⟨m2, p2, k2, R2⟩ := run_rel h'
  rw [hm.det k1, hm'.det k2]
  exact R1.map_unique R2

/-- Nothing stands in the way of extracting to an empty place. -/
theorem EmptyTarget.noObstacle {cfg : XCfg} {before : FS} {m : PathMap} (hT : EmptyTarget before cfg.base) (hE : Extractable m cfg.bytes)
    (hne : m [] = none) (hfault : ∀ n, cfg.env.fault n = false) : NoObstacle cfg before m := by
  refine NoObstacle.of hfault ?_ ?_ ?_ hE.utf8 (fun p n t h1 h2 => (hE.targets p n t h1 h2).1)
    (fun p n t h1 _ h2 => (hE.targets p n t h1 h2).2)
  · intro q i hq e
    obtain ⟨u, hu⟩ := hT.way q _ hq e
    cases hu
  · intro p n x hp _ e
    have hp0 : p ≠ [] := by rintro rfl; rw [hne] at hp; cases hp
    rw [hT.below _ (List.prefix_append _ _) (by simpa using hp0)] at e; cases e
  · intro p n s c hp _ hk e
    obtain ⟨b, hb⟩ := hE.content p n s c hp hk
    rw [hb] at e; cases e

theorem StoredAs.mem {path pre : Bytes} {k : List Bytes} (h : StoredAs path pre k) {c : Bytes} (hc : c ∈ k) : c ∈ comps path ∧ c ≠ CUR := by
  have : c ∈ (comps path).filter (· ≠ CUR) := by rw [h]; simp [hc]
  obtain ⟨h1, h2⟩ := List.mem_filter.mp this
  exact ⟨h1, by simpa using h2⟩


/-- what `arx create` writes was tried -/
theorem CreateOpts.tried {o : CreateOpts} {sys : CreateSys} {cwd N : List Bytes} {a : Adder}
    (hcwd : StartsIn o sys cwd) (h : CreateEv.written N a ∈ (o.run sys).1) : ∃ l, Adder.Tried (sys.cenv cwd) l a := by
  obtain ⟨cwd', hcwd', l, g1, _⟩ := o.run_tried h
  have : cwd' = cwd := by
    have h1 := StartsIn.iff.mp hcwd'
    rw [StartsIn.iff.mp hcwd] at h1
    exact (Option.some.inj h1).symm
  subst this
  exact ⟨l, g1⟩

/-- What is archived from a source that does not change can be extracted. -/
theorem Adder.Tried.extractable {env : CEnv} {s : Src} {tried : List Attempted} {a : Adder}
    (g1 : Adder.Tried env tried a) (Q : Quiet env s) (W : s.WF)
    {rs : List AddReq} {m : PathMap} (hrun : Creator.new.run rs = some a.creator) (hm : SpecRun PathMap.empty rs m)
    (hnames : ∀ p n, m p = some n → ∀ c ∈ p, PlainName c)
    (htargets : ∀ q t u, s.fs.nodes q = some (.link t u) → validUtf8 t = true) : Extractable m (packBytes a.contents) := by
  obtain ⟨rs', m', k1, k2, k3, k4⟩ := g1.asSeen
  have e : m' = m := SpecRun.same_creator k1 hrun k2 hm
  subst e
  refine ⟨hnames, k2.utf8_names k3, ?_, ?_⟩
  · intro p n t hp hk
    rcases k4.only p n hp with ⟨x, _, _, _, q, st, _, _, h3⟩ | ⟨e, _⟩
    · rw [hk] at h3
      have h4 := h3.2
      rw [Q.call] at h4
      unfold Src.readLink at h4
      cases hr : s.fs.resolve false q with
      | error e => rw [hr] at h4; cases h4
      | ok loc =>
        rw [hr] at h4
        cases loc with
        | missing u v => cases h4
        | found q' =>
          simp only at h4
          cases hn : s.fs.nodes q' with
          | none => rw [hn] at h4; cases h4
          | some y =>
            rw [hn] at h4
            cases y with
            | dir u => cases h4
            | file i => cases h4
            | link t' u =>
              simp only [Except.ok.injEq] at h4
              subst h4
              obtain ⟨w1, w2⟩ := W.targets q' t' u hn
              exact ⟨htargets q' t' u hn, w1, w2⟩
    · rw [e] at hk; cases hk
  · intro p n sz c hp hk
    rcases k4.only p n hp with ⟨x, _, _, _, q, st, _, _, h3⟩ | ⟨e, _⟩
    · rw [hk] at h3
      obtain ⟨_, b, _, hb⟩ := h3
      exact ⟨b, hb⟩
    · rw [e] at hk; cases hk

/-- archiving something offered, then extracting -/
theorem Adder.Tried.restores {env : CEnv} {s : Src} {tried : List Attempted} {a : Adder}
    (ht : Adder.Tried env tried a) (Q : Quiet env s) (W : s.WF)
    {rs : List AddReq} {m : PathMap} (g1 : Creator.new.run rs = some a.creator) (g2 : SpecRun PathMap.empty rs m)
    {offered : List Bytes × List Bytes → Prop}
    (hheld : ∀ u, offered u → ¬ s.Special u.2 → Held s (packBytes a.contents) u.2 (m u.1))
    (honly : ∀ z n, m z = some n → ∃ u, offered u ∧ z <+: u.1 ∧ (z = u.1 → ¬ s.Special u.2))
    (hplain : ∀ u, offered u → ∀ c ∈ u.1, PlainName c)
    (htargets : ∀ q t u, s.fs.nodes q = some (.link t u) → validUtf8 t = true)
    {order : List Nat} (ho : IsLayout a.creator order) (hlen : a.creator.store.length < 2 ^ 32)
    {x : ExtractOpts} {xs : CmdSys} {lines : List Bytes} (hxa : x.Accepted) (hl : x.Lines xs lines) (hne : x.fileList ≠ none → lines ≠ [])
    (harch : xs.archive = some (writeArchive a.creator order, packBytes a.contents))
    {depth : Nat} {before : FS} {last : List (Nat × WriteRes)} {w : World} {res : XResult}
    (hd : a.creator.store.length < depth) (hrun : x.run xs depth before last = some (w, res)) (hfin : w.finished)
    (hfault : ∀ n, xs.env.fault n = false) (hns : ∀ n, NoErr (xs.env.sched n)) (hnl : NoErr last)
    (hT : EmptyTarget before (x.target xs.cwd)) :
    res = .ok ∧ Restores s offered x.rootOf (Wanted x lines) w.fs (x.target xs.cwd) := by
  have hwr : Written rs (writeArchive a.creator order) := ⟨_, order, g1, ho, rfl, hlen⟩
  have hnames : ∀ p n, m p = some n → ∀ c ∈ p, PlainName c := by
    intro z n hz c hc
    obtain ⟨u, hu, i5, _⟩ := honly z n hz
    exact hplain u hu c (i5.subset hc)
  have hE := ht.extractable Q W g1 g2 hnames htargets
  have hEs : Extractable (m.sub x.rootOf) (packBytes a.contents) := by
    have sub : ∀ {p : List Bytes} {n : Node}, m.sub x.rootOf p = some n → m (x.rootOf ++ p) = some n := fun hp => (PathMap.sub_some hp).2
    exact ⟨fun p n hp c hc => hE.names _ n (sub hp) c (by simp [hc]), fun p n hp c hc => hE.utf8 _ n (sub hp) c (by simp [hc]),
      fun p n t hp => hE.targets _ n t (sub hp), fun p n sz c hp => hE.content _ n sz c (sub hp)⟩
  obtain ⟨files, rg, hf, hs, hx⟩ := ExtractOpts.run_source hwr g2 harch hrun
  have hsel := ExtractOpts.selected_iff hxa hl hne hf
  have hd' : (writeArchive a.creator order).entries.length < depth := by
    have : (writeArchive a.creator order).entries.length ≤ order.length := by
      simp only [writeArchive]; exact List.length_filterMap_le _ _
    have := ho.1.length_eq
    simp only [List.length_range] at this
    omega
  have hX : Extraction (x.cfg xs (writeArchive a.creator order) (packBytes a.contents) files) rg before w.fs res :=
    ⟨depth, last, w, hd', hx, hfin, rfl⟩
  have hC : CleanExtraction (x.cfg xs (writeArchive a.creator order) (packBytes a.contents) files) rg before w.fs res :=
    ⟨hfault, hns, depth, last, w, hd', hx, hfin, rfl, hnl⟩
  have hT' : EmptyTarget before (x.cfg xs (writeArchive a.creator order) (packBytes a.contents) files).base := hT
  have T : PlainTarget before (x.cfg xs (writeArchive a.creator order) (packBytes a.contents) files).base (m.sub x.rootOf) :=
    hT'.plain (bytes := packBytes a.contents) hEs.names
  have hok : res = .ok := hC.ok hs T (hT'.noObstacle hEs rfl hfault)
  obtain ⟨k1, _, k3⟩ := hX.main hs T
  obtain ⟨_, k4⟩ := k3 hok
  have hnone : ∀ p, p ≠ [] → before.nodes (x.target xs.cwd ++ p) = none := fun p hp =>
    hT.below _ (List.prefix_append _ _) (by simpa using hp)
  refine ⟨hok, ?_, ?_⟩
  · intro u hu z b e hz hb hwant
    by_cases hsp : s.Special u.2
    · obtain ⟨i, hi, hspec⟩ := hsp
      unfold SameAt
      rw [hi]
      simp [hspec]
    · have hheld := hheld u hu hsp
      obtain ⟨y, hy⟩ : ∃ y, s.fs.nodes u.2 = some y := by
        cases hn : s.fs.nodes u.2 with
        | some y => exact ⟨y, rfl⟩
        | none =>
          rcases hheld with h | ⟨t, n, h, _⟩
          · unfold Archived at h; rw [hn] at h; exact h.elim
          · rw [hn] at h; cases h
      rw [e] at hheld
      have sub : ∀ n, m (x.rootOf ++ z) = some n → m.sub x.rootOf z = some n := by
        intro n hn; simp only [PathMap.sub, if_neg hz]; exact hn
      unfold SameAt
      rw [hy]
      cases y with
      | dir t =>
        simp only
        have hb' : b = true := hb.mpr ⟨t, hy⟩
        have : ∃ n, m (x.rootOf ++ z) = some n ∧ n.kind = .dir := by
          rcases hheld with h | ⟨_, n, _, h, hn⟩
          · unfold Archived at h; rw [hy] at h; exact ⟨_, h, rfl⟩
          · refine ⟨n, h, ?_⟩
            cases hk : n.kind with
            | dir => rfl
            | file a b => simp [Node.isDir, Kind.isDir, hk] at hn
            | link a => simp [Node.isDir, Kind.isDir, hk] at hn
        obtain ⟨n, hn, hk⟩ := this
        have := k4 z n (sub n hn) ((hsel z n.isDir).mpr (by
          have : n.isDir = b := by rw [hb']; simp [Node.isDir, Kind.isDir, hk]
          rw [this]; exact hwant))
        simp only [Extracted, hk] at this
        exact this.1
      | link t u =>
        simp only
        have hb' : b = false := by
          cases b with
          | false => rfl
          | true => obtain ⟨t', ht'⟩ := hb.mp rfl; rw [hy] at ht'; cases ht'
        rcases hheld with h | ⟨t', n, h, _⟩
        · unfold Archived at h
          rw [hy] at h
          have := k4 z _ (sub _ h) ((hsel z _).mpr (by
            simp only [Node.isDir, Kind.isDir]; rw [← hb']; exact hwant))
          have hnz : before.nodes ((x.cfg xs (writeArchive a.creator order) (packBytes a.contents) files).base ++ z) = none := hnone z hz
          simp only [Extracted, hnz] at this
          exact this.2
        · rw [hy] at h; cases h
      | file i =>
        simp only
        have hb' : b = false := by
          cases b with
          | false => rfl
          | true => obtain ⟨t', ht'⟩ := hb.mp rfl; rw [hy] at ht'; cases ht'
        intro hspec
        rcases hheld with h | ⟨t', n, h, _⟩
        · unfold Archived at h
          rw [hy] at h
          simp only [hspec] at h
          obtain ⟨c, h, hc⟩ := h
          have := k4 z _ (sub _ h) ((hsel z _).mpr (by
            simp only [Node.isDir, Kind.isDir]; rw [← hb']; exact hwant))
          have hnz : before.nodes ((x.cfg xs (writeArchive a.creator order) (packBytes a.contents) files).base ++ z) = none := hnone z hz
          have hc' : (x.cfg xs (writeArchive a.creator order) (packBytes a.contents) files).bytes c = .found (s.fs.data i).bytes := hc
          simp only [Extracted, hnz, hc'] at this
          obtain ⟨j, j1, _, j2⟩ := this
          exact ⟨j, j1, j2⟩
        · rw [hy] at h; cases h
  · intro z y hz hy
    have htgt : IsTarget files x.recursion (x.target xs.cwd) (m.sub x.rootOf) (x.target xs.cwd ++ z) := by
      refine Classical.byContradiction fun hno => ?_
      have := k1.nodes (x.target xs.cwd ++ z) (not_prefix_base hz) hno
      rw [hy, hnone z hz] at this
      cases this
    obtain ⟨p, n, e, hp, hsl⟩ := htgt
    rw [List.append_cancel_left_eq] at e
    subst e
    obtain ⟨hz0, hm⟩ := PathMap.sub_some hp
    obtain ⟨u, hu, i5, i6⟩ := honly _ n hm
    refine ⟨u, hu, i5, i6, n.isDir, ?_, (hsel _ _).mp hsl⟩
    have := k4 z n hp hsl
    have hnz : before.nodes ((x.cfg xs (writeArchive a.creator order) (packBytes a.contents) files).base ++ z) = none := hnone z hz
    have hyz : w.fs.nodes ((x.cfg xs (writeArchive a.creator order) (packBytes a.contents) files).base ++ z) = some y := hy
    cases hk : n.kind with
    | dir =>
      simp only [Extracted, hk] at this
      obtain ⟨⟨t, ht⟩, _⟩ := this
      rw [hyz] at ht
      simp only [Node.isDir, Kind.isDir, hk]
      exact ⟨fun _ => ⟨t, Option.some.inj ht⟩, fun _ => trivial⟩
    | file sz c =>
      obtain ⟨b, hb⟩ := hEs.content z n sz c hp hk
      have hb' : (x.cfg xs (writeArchive a.creator order) (packBytes a.contents) files).bytes c = .found b := hb
      simp only [Extracted, hk, hnz, hb'] at this
      obtain ⟨i, ht, _⟩ := this
      rw [hyz] at ht
      simp only [Node.isDir, Kind.isDir, hk]
      constructor
      · intro e; cases e
      · rintro ⟨t, rfl⟩; cases ht
    | link tg =>
      simp only [Extracted, hk, hnz] at this
      obtain ⟨_, t, ht⟩ := this
      rw [hyz] at ht
      simp only [Node.isDir, Kind.isDir, hk]
      constructor
      · intro e; cases e
      · rintro ⟨t, rfl⟩; cases ht

/-- What a file list offers is what is archived. -/
theorem offers_list {s : Src} {cwd : List Bytes} {pre : RPath} {bytes : ContentAddr → GetBytes} {lines : List Bytes} {follow : Bool} {m : PathMap}
    (g3 : AfterAdding s cwd pre bytes (lines.map (fun p => (p, follow))) PathMap.empty m) :
    (∀ u, (∃ f ∈ lines, OffersOne s cwd pre (f, follow) u) → ¬ s.Special u.2 → Held s bytes u.2 (m u.1)) ∧
    ∀ z n, m z = some n → ∃ u, (∃ f ∈ lines, OffersOne s cwd pre (f, follow) u) ∧ z <+: u.1 ∧ (z = u.1 → ¬ s.Special u.2) := by
  constructor
  · rintro u ⟨f, hf, i1, i2, i3⟩ hsp
    obtain ⟨k, j1, j2⟩ := g3.held (f, follow) (List.mem_map_of_mem hf)
    have e1 := i1.unique j1
    obtain ⟨q, j3, _, j4, _⟩ := j2 (by rw [← e1]; exact i2)
    simp only at i3 j3
    rw [i3] at j3
    cases j3
    rw [e1]
    exact j4 hsp
  · intro z n hz
    rcases g3.only z n hz with e | ⟨x, hx, k, q, j1, j2, j3⟩
    · cases e
    · obtain ⟨f, hf, rfl⟩ := List.mem_map.mp hx
      rcases j3 with ⟨j0, j3, j4⟩ | ⟨j3, j4, j5⟩
      · refine ⟨(k, q), ⟨f, hf, j1, ?_, j2⟩, j4, fun e => absurd e j3⟩
        intro e
        simp only at e
        rw [e] at j4
        exact j0 (List.prefix_nil.mp j4)
      · exact ⟨(k, q), ⟨f, hf, j1, j4, j2⟩, by rw [j3]; exact List.prefix_refl _, fun _ => j5⟩

/-- **C71.** `arx create` with input files, then `arx extract`. Let the first write an archive from a source that does not change
meanwhile, with any options, and let the second extract any part of it (paths, list, `--root-dir`, with or without recursion, any
overwrite mode) to an empty or missing directory, no call failing, with any interleaving of all threads. If the inputs do not
contain `..`, and link targets are UTF-8, the extraction succeeds and brings back what was archived and asked for, with the
same kinds, file contents and link targets, and nothing else. -/
theorem C71_create_extract {o : CreateOpts} {sys : CreateSys} {s : Src} {cwd N : List Bytes} {a : Adder} (hacc : o.Accepted)
    (hfl : o.fileList = none) (hcwd : StartsIn o sys cwd) (Q : Quiet (sys.cenv cwd) s) (W : s.WF) (hcheck : sys.atCheck = s)
    (hw : ∀ i, (sys.walks i).src = s ∧ FullListing s (sys.walks i).ls ∧ ∀ q, s.fs.nodes q ≠ none → q.length ≤ (sys.walks i).depth)
    (h : CreateEv.written N a ∈ (o.run sys).1)
    (hargs : ∀ f ∈ o.infiles, ∀ c ∈ comps f, c ≠ PARENT ∧ (0 : UInt8) ∉ c)
    (htargets : ∀ q t u, s.fs.nodes q = some (.link t u) → validUtf8 t = true)
    {order : List Nat} (ho : IsLayout a.creator order) (hlen : a.creator.store.length < 2 ^ 32)
    {x : ExtractOpts} {xs : CmdSys} {lines : List Bytes} (hxa : x.Accepted) (hl : x.Lines xs lines) (hne : x.fileList ≠ none → lines ≠ [])
    (harch : xs.archive = some (writeArchive a.creator order, packBytes a.contents))
    {depth : Nat} {before : FS} {last : List (Nat × WriteRes)} {w : World} {res : XResult}
    (hd : a.creator.store.length < depth) (hrun : x.run xs depth before last = some (w, res)) (hfin : w.finished)
    (hfault : ∀ n, xs.env.fault n = false) (hns : ∀ n, NoErr (xs.env.sched n)) (hnl : NoErr last)
    (hT : EmptyTarget before (x.target xs.cwd)) :
    res = .ok ∧ BroughtBack s cwd (o.stripPrefix.getD []) o.infiles o.Recurses x.rootOf (Wanted x lines) w.fs (x.target xs.cwd) := by
  obtain ⟨rs, m, g1, g2, g3⟩ := CreateOpts.inputs_spec hacc hfl hcwd Q W hcheck hw h
  obtain ⟨_, ht⟩ := CreateOpts.tried hcwd h
  have hoff : ∀ {f : Bytes}, f ∈ o.infiles → ∀ {k q p : List Bytes}, InputAt s cwd (o.stripPrefix.getD []) f k q → s.Has q p →
      (p = [] ∨ o.Recurses) → k ++ p ≠ [] → (¬ s.Special (q ++ p)) → Held s (packBytes a.contents) (q ++ p) (m (k ++ p)) := by
    intro f hf k q p i1 i2 i3 i4 hsp
    obtain ⟨k', q', j1, j2⟩ := g3.all f hf
    have e1 := i1.1.unique j1.1
    subst e1
    have e2 := i1.2.1
    rw [j1.2.1] at e2
    cases e2
    exact j2 p i2 i3 i4 hsp
  obtain ⟨r1, r2⟩ := ht.restores Q W g1 g2
    (offered := fun u => ∃ f ∈ o.infiles, ∃ k q p, InputAt s cwd (o.stripPrefix.getD []) f k q ∧ s.Has q p ∧ (p = [] ∨ o.Recurses) ∧
      u = (k ++ p, q ++ p) ∧ u.1 ≠ [])
    (by
      rintro _ ⟨f, hf, k, q, p, i1, i2, i3, rfl, i5⟩ hsp
      exact hoff hf i1 i2 i3 i5 hsp)
    (by
      intro z n hz
      obtain ⟨f, hf, k, q, p, i1, i2, i3, i4, i5, i6⟩ := g3.only z n hz
      refine ⟨(k ++ p, q ++ p), ⟨f, hf, k, q, p, i1, i2, i3, rfl, ?_⟩, i5, i6⟩
      intro e
      simp only at e
      rw [e] at i5
      exact i4 (List.prefix_nil.mp i5))
    (by
      rintro _ ⟨f, hf, k, q, p, i1, i2, _, rfl, _⟩ c hc
      rcases List.mem_append.mp hc with hk | hk
      · obtain ⟨j1, j2⟩ := i1.1.mem hk
        obtain ⟨j3, j4⟩ := hargs f hf c j1
        exact ⟨j2, j3, j4⟩
      · obtain ⟨y, hy⟩ := Option.ne_none_iff_exists'.mp i2
        exact (W.names _ y hy c (by simp [hk])).2)
    htargets ho hlen hxa hl hne harch hd hrun hfin hfault hns hnl hT
  refine ⟨r1, ?_, ?_⟩
  · intro root hroot
    obtain ⟨k, q, j1, _⟩ := g3.all root hroot
    refine ⟨k, q, j1, fun p hp hrec z b e hz hb hwant => ?_⟩
    exact r2.all (k ++ p, q ++ p) ⟨root, hroot, k, q, p, j1, hp, hrec, rfl, by simp only; rw [e]; simp [hz]⟩ z b e hz hb hwant
  · intro z y hz hy
    obtain ⟨_, ⟨f, hf, k, q, p, i1, i2, i3, rfl, _⟩, i5, i6, i7⟩ := r2.only z y hz hy
    exact ⟨f, hf, k, q, p, i1, i2, i3, i5, i6, i7⟩

/-- **C71, file list.** The same for a file list: the entries named by its lines. -/
theorem C71_list {o : CreateOpts} {sys : CreateSys} {s : Src} {cwd N : List Bytes} {a : Adder} {l text : Bytes} {cLines : List Bytes}
    (hfl : o.fileList = some l) (hcwd : StartsIn o sys cwd) (Q : Quiet (sys.cenv cwd) s) (W : s.WF)
    (h : CreateEv.written N a ∈ (o.run sys).1)
    (htext : sys.text (absFile sys.cwd l) = some text) (hlines : TextOf cLines text)
    (hargs : ∀ f ∈ cLines, ∀ c ∈ comps f, c ≠ PARENT ∧ (0 : UInt8) ∉ c)
    (htargets : ∀ q t u, s.fs.nodes q = some (.link t u) → validUtf8 t = true)
    {order : List Nat} (ho : IsLayout a.creator order) (hlen : a.creator.store.length < 2 ^ 32)
    {x : ExtractOpts} {xs : CmdSys} {lines : List Bytes} (hxa : x.Accepted) (hl : x.Lines xs lines) (hne : x.fileList ≠ none → lines ≠ [])
    (harch : xs.archive = some (writeArchive a.creator order, packBytes a.contents))
    {depth : Nat} {before : FS} {last : List (Nat × WriteRes)} {w : World} {res : XResult}
    (hd : a.creator.store.length < depth) (hrun : x.run xs depth before last = some (w, res)) (hfin : w.finished)
    (hfault : ∀ n, xs.env.fault n = false) (hns : ∀ n, NoErr (xs.env.sched n)) (hnl : NoErr last)
    (hT : EmptyTarget before (x.target xs.cwd)) :
    res = .ok ∧ Restores s (fun u => ∃ f ∈ cLines, OffersOne s cwd (o.stripPrefix.getD []) (f, o.followSymlink) u) x.rootOf (Wanted x lines)
      w.fs (x.target xs.cwd) := by
  obtain ⟨text', lines', rs, m, e1, e2, g1, g2, g3⟩ := CreateOpts.list_spec hfl hcwd Q W h
  rw [htext] at e1
  cases e1
  have : lines' = cLines := by rw [← e2.lines, hlines.lines]
  subst this
  obtain ⟨_, ht⟩ := CreateOpts.tried hcwd h
  obtain ⟨o1, o2⟩ := offers_list g3
  refine ht.restores Q W g1 g2 o1 o2 ?_ htargets ho hlen hxa hl hne harch hd hrun hfin hfault hns hnl hT
  rintro u ⟨f, hf, i1, _, _⟩ c hc
  obtain ⟨j1, j2⟩ := i1.mem hc
  obtain ⟨j3, j4⟩ := hargs f hf c j1
  exact ⟨j2, j3, j4⟩

/-! ### Example: `arx create -o x.arx d`, then `arx extract` in `/t` -/

def CreateEv.adder? : CreateEv → Option Adder
  | .written _ a => some a
  | _ => none

/-- what the command of `exCreate` has collected when it writes the archive -/
def tripAdder : Adder := ((exCreate.run exSys).1.filterMap CreateEv.adder?).headD Adder.new

def tripOrder : List Nat := [0, 3, 1, 2]

def tripCmd : CmdSys := { exCmd with archive := some (writeArchive tripAdder.creator tripOrder, packBytes tripAdder.contents) }

def tripRun : World × XResult := ((exOpts [] none).run tripCmd 5 fs0 finish).getD (⟨fs0, [], true, 0⟩, .writes)

theorem CreateEv.written_of {evs : List CreateEv} (h : evs.filterMap CreateEv.adder? ≠ []) :
    ∃ N, CreateEv.written N ((evs.filterMap CreateEv.adder?).headD Adder.new) ∈ evs := by
  have hm : (evs.filterMap CreateEv.adder?).headD Adder.new ∈ evs.filterMap CreateEv.adder? := by
    cases hl : evs.filterMap CreateEv.adder? with
    | nil => exact absurd hl h
    | cons x l => simp
  obtain ⟨e, he, hl⟩ := List.mem_filterMap.mp hm
  cases e with
  | written N a => exact ⟨N, by rw [← Option.some.inj hl]; exact he⟩
  | _ => cases hl

theorem tripAdder_written : ∃ N, CreateEv.written N tripAdder ∈ (exCreate.run exSys).1 :=
  CreateEv.written_of (by
    intro h
    have : ((exCreate.run exSys).1.filterMap CreateEv.adder?).length = 1 := by decide +kernel
    rw [h] at this; cases this)

/-- the hypotheses of `C71_create_extract` are met -/
theorem exTrip : tripRun.2 = .ok ∧
    BroughtBack exSrc [] [] [ascii "d"] exCreate.Recurses [] (Wanted (exOpts [] none) []) tripRun.1.fs [ascii "t"] := by
  obtain ⟨N, hN⟩ := tripAdder_written
  refine C71_create_extract (o := exCreate) (sys := exSys) (N := N) (a := tripAdder) (order := tripOrder) (xs := tripCmd)
    (x := exOpts [] none) (w := tripRun.1) (res := tripRun.2)
    (depth := 5) (before := fs0) (last := finish) ⟨by decide, by decide, by decide⟩ rfl rfl exEnv_quiet exSrc_wf rfl
    (fun i => ⟨rfl, exLs_full, ?_⟩) hN ?_ ?_ ⟨by decide +kernel, by decide +kernel⟩ (by decide +kernel) ⟨by decide, by decide⟩ ?_ ?_ rfl
    (by decide +kernel) ?_ ?_ (fun _ => rfl) (fun _ x h => by cases h) ?_ exT
  · intro q hq
    have := exSrc_paths hq
    simp only [List.mem_cons, List.not_mem_nil, or_false] at this
    rcases this with e | e | e | e | e | e <;> rw [e] <;> simp [exSys]
  · decide +kernel
  · intro q t u h
    have := exSrc_nodes h
    simp only [List.mem_cons, Prod.mk.injEq, List.not_mem_nil, or_false] at this
    rcases this with ⟨_, e⟩ | ⟨_, e⟩ | ⟨_, e⟩ | ⟨_, e⟩ | ⟨_, e⟩ | ⟨_, e⟩ <;> cases e
    decide
  · intro l h; cases h
  · intro h; exact absurd rfl h
  · unfold tripRun
    cases hr : (exOpts [] none).run tripCmd 5 fs0 finish with
    | none =>
      have : ((exOpts [] none).run tripCmd 5 fs0 finish).isSome = true := by decide +kernel
      rw [hr] at this; cases this
    | some r => rfl
  · decide +kernel
  · intro x hx; revert x; decide

/-- and the conclusion can be seen -/
example : tripRun.1.fs.nodes [ascii "t", ascii "d", ascii "s", ascii "l"] = some (.link (ascii "../f") fs0.now) ∧
    tripRun.1.fs.nodes [ascii "t", ascii "d", ascii "p"] = none ∧ (tripRun.1.fs.data 0).bytes = ascii "hi" := by decide +kernel

/-- what the command with the list collects -/
def listAdder : Adder := ((exListOpts.run exSys).1.filterMap CreateEv.adder?).headD Adder.new

theorem listAdder_written : ∃ N, CreateEv.written N listAdder ∈ (exListOpts.run exSys).1 := CreateEv.written_of (by
  intro h
  have : ((exListOpts.run exSys).1.filterMap CreateEv.adder?).length = 1 := by decide +kernel
  rw [h] at this; cases this)

def listCmd2 : CmdSys := { exCmd with archive := some (writeArchive listAdder.creator [0], packBytes listAdder.contents) }
def listRun : World × XResult := ((exOpts [] none).run listCmd2 5 fs0 finish).getD (⟨fs0, [], true, 0⟩, .writes)

/-- the hypotheses of `C71_list` are met -/
example : listRun.2 = .ok ∧ Restores exSrc (fun u => ∃ f ∈ [ascii "d"], OffersOne exSrc [] [] (f, false) u) []
    (Wanted (exOpts [] none) []) listRun.1.fs [ascii "t"] := by
  obtain ⟨N, hN⟩ := listAdder_written
  refine C71_list (o := exListOpts) (sys := exSys) (N := N) (a := listAdder) (order := [0]) (xs := listCmd2) (text := ascii "d\n")
    (cLines := [ascii "d"]) (x := exOpts [] none) (w := listRun.1) (res := listRun.2)
    (depth := 5) (before := fs0) (last := finish) rfl rfl exEnv_quiet exSrc_wf hN (by decide +kernel)
    (.line (t := []) (by decide +kernel) (by decide +kernel) .empty) ?_ ?_ ⟨by decide +kernel, by decide +kernel⟩ (by decide +kernel)
    ⟨by decide, by decide⟩ ?_ ?_ rfl (by decide +kernel) ?_ ?_ (fun _ => rfl) (fun _ x h => by cases h) ?_ exT
  · decide +kernel
  · intro q t u h
    have := exSrc_nodes h
    simp only [List.mem_cons, Prod.mk.injEq, List.not_mem_nil, or_false] at this
    rcases this with ⟨_, e⟩ | ⟨_, e⟩ | ⟨_, e⟩ | ⟨_, e⟩ | ⟨_, e⟩ | ⟨_, e⟩ <;> cases e
    decide
  · intro l h; cases h
  · intro h; exact absurd rfl h
  · unfold listRun
    cases hr : (exOpts [] none).run listCmd2 5 fs0 finish with
    | none =>
      have : ((exOpts [] none).run listCmd2 5 fs0 finish).isSome = true := by decide +kernel
      rw [hr] at this; cases this
    | some r => rfl
  · decide +kernel
  · intro x hx; revert x; decide

end Arx
