import Verif.Props.TripConv
import Verif.Props.TripMount
import Verif.Props.History
import Verif.Spec.ConvMount
/-!
# C81: convert, then read
-/
namespace Arx

theorem dropTrailingCur_mem {l : List Bytes} {c : Bytes} (h : c ∈ l) : c ∈ dropTrailingCur l ∨ c = CUR := by
  rcases dropTrailingCur_spec l with ⟨_, h2⟩ | ⟨r, d, t, h1, _, h3, h4⟩
  · exact Or.inr (h2 c h)
  · rw [h3] at h
    rw [h1]
    rcases List.mem_append.mp h with h | h
    · exact Or.inl (by simp [h])
    · rcases List.mem_cons.mp h with rfl | h
      · exact Or.inl (by simp)
      · exact Or.inr (h4 c h)

theorem entryPath_utf8 {p : RPath} (h : ∀ c ∈ entryPath p, validUtf8 c = true) : validUtf8 p = true := by
  rw [validUtf8_comps]
  intro c hc
  rcases dropTrailingCur_mem hc with h1 | rfl
  · exact h c h1
  · decide +kernel

/-- every entry is that of a request, or a directory above one -/
theorem SpecRun.sources {rs : List AddReq} {st : Creator} {m : PathMap} (h : Creator.new.run rs = some st)
    (hm : SpecRun PathMap.empty rs m) {p : List Bytes} {n : Node} (hp : m p = some n) :
    ∃ r ∈ rs, (p = entryPath r.path ∧ r.kind = .ok (some n.kind) ∧ n.info = r.info) ∨
      (ProperAncestor p (entryPath r.path) ∧ n = ⟨⟨1000, 1000, 0o755, 0⟩, .dir⟩) := by
  obtain ⟨rs1, r, rs2, st', rfl, _, h3, _⟩ := (SpecRun.first h hm p n).mp hp
  refine ⟨r, by simp, ?_⟩
  cases h3 with
  | entry k _ hk => exact Or.inl ⟨rfl, hk, rfl⟩
  | parent p _ hp' => exact Or.inr ⟨hp', rfl⟩

/-- a listing has every path once -/
theorem Listing.once {m : PathMap} {d0 : List Bytes} {l : List Copied} (hl : Listing m d0 (l.map (fun x => d0 ++ x.path))) :
    (l.map (fun x => x.path)).Nodup := by
  have h1 : (l.map (fun x => d0 ++ x.path)).Nodup := hl.1.imp (fun {x y} hxy e => by
    subst e; exact lexLt_irrefl _ hxy)
  have h2 : l.map (fun x => d0 ++ x.path) = (l.map (fun x => x.path)).map (fun p => d0 ++ p) := by simp
  rw [h2] at h1
  exact (List.pairwise_map.mp h1).imp (fun h e => h (by rw [e]))

/-- a copied entry, by its path -/
theorem Listing.shown {m : PathMap} {d0 : List Bytes} {l : List Copied} {cfg : FsCfg} (hl : Listing m d0 (l.map (fun x => d0 ++ x.path)))
    (hc : ∀ x ∈ l, CopyOf cfg m d0 x) {p z : List Bytes} {n : Node} (hp : m p = some n) (hz : p = d0 ++ z) (hz0 : z ≠ []) :
    ∃ x ∈ l, x.path = z ∧ (∃ k, x.attr = attrSpec x.attr.ino k n) ∧
      match n.kind with
      | .dir => x.got = .dir
      | .file _ a => ∃ b, cfg.bytes a = .found b ∧ x.got = .file b
      | .link t => x.got = .link t := by
  have hmem := (hl.2 p).mpr ⟨⟨n, hp⟩, by rw [hz]; exact List.prefix_append _ _, by rw [hz]; simpa using hz0⟩
  obtain ⟨x, hx, hxp⟩ := List.mem_map.mp hmem
  have hxz : x.path = z := by
    have := hxp; rw [hz] at this; simpa using this
  refine ⟨x, hx, hxz, ?_⟩
  obtain ⟨⟨n1, ns, g1, _, _, _, g5⟩, n2, g6, g7⟩ := hc x hx
  rw [hxp] at g1 g6
  rw [hp] at g1 g6
  cases g1; cases g6
  exact ⟨⟨_, g5⟩, g7⟩

theorem TarMember.HasMeta.attrs {e : TarMember} {n : Node} (h : e.HasMeta n.info) {a : Attr} {k : Nat} (ha : a = attrSpec a.ino k n) :
    e.AttrsAre a := by
  obtain ⟨h1, h2, h3, h4⟩ := h
  refine ⟨_, _, _, _, h1, h2, h3, h4, ?_, ?_, ?_, ?_⟩ <;> rw [ha] <;> rfl

theorem kind_of_isDir {n : Node} (h : n.isDir = true) : n.kind = .dir := by
  cases hk : n.kind with
  | dir => rfl
  | file a b => simp [Node.isDir, Kind.isDir, hk] at h
  | link a => simp [Node.isDir, Kind.isDir, hk] at h

theorem okMap_inj {α : Type} {ms ms' : List α} (h : ms.map (Except.ok (ε := Unit)) = ms'.map .ok) : ms = ms' := by
  have h2 := congrArg (List.filterMap (fun x : Except Unit α => match x with | .ok e => some e | .error _ => none)) h
  simpa [List.filterMap_map, Function.comp_def] using h2

/-- **C81, tar.** Convert a tar archive with `tar2arx` and mount the result, or a directory of it. Any program that copies the mount, whatever
others ask, gets exactly the members of the tar archive with their kinds, data, link targets and attributes, and the directories above. If the
whole archive is mounted, all other readers show the same. (For members without `..` whose attributes can be represented.) -/
theorem C81_tar {tarFile outfile : Option Bytes} {sys : ConvSys TarMember} {out : Bytes} {c : Conv}
    (hw : ConvEv.written out c ∈ (tar2arx tarFile outfile sys).1) {ms : List TarMember}
    (hin : sys.input (TarInput tarFile) = .ok (ms.map .ok)) (hshow : ∀ e ∈ ms, ¬ e.Ignored → e.Showable)
    {order : List Nat} (ho : IsLayout c.creator order) (hlen : c.creator.store.length + 2 < 2 ^ 32)
    {mo : MountOpts} {msys : MountSys} {dir : Bytes} {rg : Range} {opts : List MountOption}
    (harch : msys.archive = some (writeArchive c.creator order)) (hserve : .serve dir rg opts ∈ (mountCmd mo msys).1) :
    ∃ B, ∀ (cl : Client) (before : List FReq), cl.Served before → ∀ n ≥ B,
      ∃ l st, cl.copy ⟨writeArchive c.creator order, rg, packBytes c.contents⟩ n
          ((FsState.init.run ⟨writeArchive c.creator order, rg, packBytes c.contents⟩ before).2, 0) [] 1 = (some l, st) ∧
        ShowsTar ms mo.shown l ∧ (mo.rootDir = none → OtherReaders (writeArchive c.creator order) (packBytes c.contents) l) := by
  obtain ⟨i, hi⟩ := List.mem_iff_getElem?.mp hw
  obtain ⟨_, out', c', items, _, e1, e2, e3⟩ := (C61_tar tarFile outfile sys).1 i _ hi rfl
  cases e1
  rw [hin] at e2; cases e2
  obtain ⟨ms', em, hv, _⟩ := (C41_accepts_iff (ms.map .ok)).mp (by rw [e3])
  have := okMap_inj em
  subst this
  obtain ⟨rs0, m, g1, g2, g3, g4⟩ := C41_tar_partial e3
  obtain ⟨_, rs, hacc, hfrom, _⟩ := Conv.tarRun_ok _ _ _ e3
  have hrun : Creator.new.run rs = some c.creator := hacc.run
  obtain ⟨m', _, hm', _⟩ := run_rel hrun
  have := SpecRun.same_creator hrun g1 hm' g2
  subst this
  have hmem : ∀ e, Except.ok e ∈ ms.map (Except.ok (ε := Unit)) ↔ e ∈ ms := by
    intro e; simp
  have hu : ∀ r ∈ rs, validUtf8 r.path = true := by
    intro r hr
    obtain ⟨e, h1, _, h3⟩ := hfrom r hr
    refine entryPath_utf8 fun x hx => ?_
    rw [h3.1] at hx
    exact (hv e ((hmem e).mp h1)).utf8 x (memberNames_mem hx).1
  have hat : ∀ e ∈ ms, ¬ e.Ignored → ∀ k : Kind, (e.Directory → k = .dir) ∧ (e.type = .symlink → ∃ t, e.linkName = some t ∧ k = .link t) ∧
      (e.FileLike → ∃ d a, e.data = .ok d ∧ k = .file d.length a ∧ packBytes c.contents a = .found d) →
      match k with
      | .dir => True
      | .link t => t.length ≤ 2 ^ 64 - 4096
      | .file size a => size ≤ 2 ^ 64 - 4096 ∧ ∃ b, packBytes c.contents a = .found b ∧ b.length = size := by
    rintro e he hig k ⟨h4, h5, h6⟩
    rcases e.sort hig with hd | hl | hf
    · rw [h4 hd]; trivial
    · obtain ⟨t, ht, rfl⟩ := h5 hl
      exact (hshow e he hig).target t ht
    · obtain ⟨d, a, hd, rfl, hb⟩ := h6 hf
      exact ⟨(hshow e he hig).size d hd, d, hb, rfl⟩
  have hfit : AttrsFit m' := by
    intro p n hp
    obtain ⟨r, hr, ⟨_, h2, h3⟩ | ⟨_, h2⟩⟩ := SpecRun.sources hrun hm' hp
    · obtain ⟨e, f1, f2, f3, f4, k, f5, f6⟩ := hfrom r hr
      rw [f5] at h2
      have hk : k = n.kind := by injection h2 with h2; exact Option.some.inj h2
      subst hk
      rw [← h3] at f4
      have := hat e ((hmem e).mp f1) f2 _ f6
      refine ⟨(hshow e ((hmem e).mp f1) f2).time _ f4.2.2.2, ?_⟩
      cases hk : n.kind with
      | dir => trivial
      | file a b => rw [hk] at this; exact this.1
      | link t => rw [hk] at this; exact this
    · rw [h2]; exact ⟨by decide, trivial⟩
  have hbytes : ∀ p n size ca, m' p = some n → n.kind = .file size ca → ∃ b, packBytes c.contents ca = .found b ∧ b.length = size := by
    intro p n size ca hp hk
    obtain ⟨r, hr, ⟨_, h2, h3⟩ | ⟨_, h2⟩⟩ := SpecRun.sources hrun hm' hp
    · obtain ⟨e, f1, f2, f3, f4, k, f5, f6⟩ := hfrom r hr
      rw [f5, hk] at h2
      have hk : k = .file size ca := by injection h2 with h2; exact Option.some.inj h2
      subst hk
      exact (hat e ((hmem e).mp f1) f2 _ f6).2
    · rw [h2] at hk; cases hk
  have hnames : ∀ p n, m' p = some n → ∀ x ∈ p, x ≠ CUR ∧ x ≠ PARENT ∧ x.length ≤ 255 := by
    intro p n hp x hx
    obtain ⟨e, h1, h2, h3⟩ := g4 p n hp
    have hx' := h3.subset hx
    exact ⟨(memberNames_mem hx').2, (hshow e ((hmem e).mp h1) h2).names x hx'⟩
  obtain ⟨hM, B, hB⟩ := mounted_shows hrun hm' hu hfit hbytes hnames ho hlen harch hserve
  refine ⟨B, fun cl before hs f hf => ?_⟩
  obtain ⟨l, st, r1, r2, r3, r4⟩ := hB cl before hs f hf
  refine ⟨l, st, r1, ⟨Listing.once r2, ?_, ?_, ?_, ?_⟩, r4⟩
  · rintro A e B' rfl hd z hz hz0
    have hig : ¬ e.Ignored := by
      unfold TarMember.Ignored; unfold TarMember.Directory at hd
      rcases hd with hd | ⟨hd | hd | hd, _⟩ <;> simp [hd]
    obtain ⟨info, h1, _, _, _, h5⟩ := g3 (A.map .ok) e (B'.map .ok) (by simp) hig
    obtain ⟨n, h6, h7, h8⟩ := h5 hd
    obtain ⟨x, hx, i1, ⟨k, i2⟩, i3⟩ := Listing.shown r2 r3 h6 hz hz0
    rw [kind_of_isDir h7] at i3
    refine ⟨x, hx, i1, i3, fun hA => ?_⟩
    have := h8 (fun e' he' hig' => hA e' (by simpa using he') hig')
    exact (show e.HasMeta n.info by rw [this]; exact h1).attrs i2
  · intro e he hl z hz hz0
    obtain ⟨A, B', hAB⟩ := List.append_of_mem ((hmem e).mpr he)
    obtain ⟨info, h1, _, h3, _⟩ := g3 A e B' hAB (by unfold TarMember.Ignored; simp [hl])
    obtain ⟨t, ht, h4⟩ := h3 hl
    obtain ⟨x, hx, i1, ⟨k, i2⟩, i3⟩ := Listing.shown r2 r3 h4 hz hz0
    exact ⟨t, ht, x, hx, i1, i3, by rw [i2]; rfl, TarMember.HasMeta.attrs (n := ⟨info, .link t⟩) h1 i2⟩
  · intro e he hf z hz hz0
    have hig : ¬ e.Ignored := by
      unfold TarMember.Ignored
      obtain ⟨hd, _⟩ := hf
      rcases hd with hd | hd | hd <;> simp [hd]
    obtain ⟨A, B', hAB⟩ := List.append_of_mem ((hmem e).mpr he)
    obtain ⟨info, h1, _, _, h4, _⟩ := g3 A e B' hAB hig
    obtain ⟨d, a, hd, hb, h5⟩ := h4 hf
    obtain ⟨x, hx, i1, ⟨k, i2⟩, b, i3, i4⟩ := Listing.shown r2 r3 h5 hz hz0
    simp only at i3
    rw [hb] at i3
    cases i3
    exact ⟨d, hd, x, hx, i1, i4, by rw [i2]; rfl, TarMember.HasMeta.attrs (n := ⟨info, .file d.length a⟩) h1 i2⟩
  · intro x hx
    obtain ⟨⟨n, hn⟩, _, hne⟩ := (r2.2 (mo.shown ++ x.path)).mp (List.mem_map_of_mem hx)
    refine ⟨fun e => by rw [e] at hne; simp at hne, ?_⟩
    obtain ⟨_, n2, g6, g7⟩ := r3 x hx
    rw [hn] at g6; cases g6
    obtain ⟨r, hr, h1⟩ := SpecRun.sources hrun hm' hn
    obtain ⟨e, f1, f2, f3, _⟩ := hfrom r hr
    refine ⟨e, (hmem e).mp f1, f2, ?_, ?_⟩
    · rw [← f3]
      rcases h1 with ⟨h1, _⟩ | ⟨h1, _⟩
      · exact h1 ▸ List.prefix_rfl
      · exact h1.2.2
    · intro hne'
      rcases h1 with ⟨h1, _⟩ | ⟨h1, h2⟩
      · exact absurd (h1.trans f3) hne'
      · rw [h2] at g7; exact g7

/-- **C81, zip.** The same for `zip2arx`. -/
theorem C81_zip {zipFile outfile out : Bytes} {sys : ConvSys ZipMember} {c : Conv}
    (hw : ConvEv.written out c ∈ (zip2arx zipFile outfile sys).1) {ms : List ZipMember}
    (hin : sys.input (some zipFile) = .ok (ms.map .ok)) (hshow : ∀ e ∈ ms, e.Showable)
    {order : List Nat} (ho : IsLayout c.creator order) (hlen : c.creator.store.length + 2 < 2 ^ 32)
    {mo : MountOpts} {msys : MountSys} {dir : Bytes} {rg : Range} {opts : List MountOption}
    (harch : msys.archive = some (writeArchive c.creator order)) (hserve : .serve dir rg opts ∈ (mountCmd mo msys).1) :
    ∃ B, ∀ (cl : Client) (before : List FReq), cl.Served before → ∀ n ≥ B,
      ∃ l st, cl.copy ⟨writeArchive c.creator order, rg, packBytes c.contents⟩ n
          ((FsState.init.run ⟨writeArchive c.creator order, rg, packBytes c.contents⟩ before).2, 0) [] 1 = (some l, st) ∧
        ShowsZip ms mo.shown l ∧ (mo.rootDir = none → OtherReaders (writeArchive c.creator order) (packBytes c.contents) l) := by
  obtain ⟨i, hi⟩ := List.mem_iff_getElem?.mp hw
  obtain ⟨_, c', items, e1, e2, e3⟩ := (C61_zip zipFile outfile sys).1 i _ hi rfl
  cases e1
  rw [hin] at e2; cases e2
  obtain ⟨ms', em, hv, _⟩ := (C42_accepts_iff (ms.map .ok)).mp (by rw [e3])
  have := okMap_inj em
  subst this
  obtain ⟨rs0, m, g1, g2, g3, g4⟩ := C42_zip_partial e3
  obtain ⟨_, rs, hacc, hfrom, _⟩ := Conv.zipRun_ok _ _ _ e3
  have hrun : Creator.new.run rs = some c.creator := hacc.run
  obtain ⟨m', _, hm', _⟩ := run_rel hrun
  have := SpecRun.same_creator hrun g1 hm' g2
  subst this
  have hmem : ∀ e, Except.ok e ∈ ms.map (Except.ok (ε := Unit)) ↔ e ∈ ms := by
    intro e; simp
  have hu : ∀ r ∈ rs, validUtf8 r.path = true := by
    intro r hr
    obtain ⟨e, h1, h3⟩ := hfrom r hr
    refine entryPath_utf8 fun x hx => ?_
    rw [h3.1] at hx
    exact (hv e ((hmem e).mp h1)).utf8 x (memberNames_mem hx).1
  have hat : ∀ e ∈ ms, ∀ k : Kind, (e.isDir = true → k = .dir) ∧
      (e.isDir = false → ∃ d a, e.content = .ok d ∧ k = .file e.size a ∧ packBytes c.contents a = .found d) →
      match k with
      | .dir => True
      | .link _ => False
      | .file size a => size ≤ 2 ^ 64 - 4096 ∧ ∃ b, packBytes c.contents a = .found b ∧ b.length = size := by
    rintro e he k ⟨h4, h6⟩
    cases hd : e.isDir with
    | true => rw [h4 hd]; trivial
    | false =>
      obtain ⟨d, a, hc, rfl, hb⟩ := h6 hd
      obtain ⟨h7, h8⟩ := (hshow e he).size hd d hc
      exact ⟨by omega, d, hb, h7⟩
  have hfit : AttrsFit m' := by
    intro p n hp
    obtain ⟨r, hr, ⟨_, h2, h3⟩ | ⟨_, h2⟩⟩ := SpecRun.sources hrun hm' hp
    · obtain ⟨e, f1, f3, _, ⟨t, f4, f4'⟩, k, f5, f6⟩ := hfrom r hr
      rw [f5] at h2
      have hk : k = n.kind := by injection h2 with h2; exact Option.some.inj h2
      subst hk
      have := hat e ((hmem e).mp f1) _ f6
      refine ⟨by rw [h3, f4']; exact (hshow e ((hmem e).mp f1)).time _ f4, ?_⟩
      cases hk : n.kind with
      | dir => trivial
      | file a b => rw [hk] at this; exact this.1
      | link t => rw [hk] at this; exact this.elim
    · rw [h2]; exact ⟨by decide, trivial⟩
  have hbytes : ∀ p n size ca, m' p = some n → n.kind = .file size ca → ∃ b, packBytes c.contents ca = .found b ∧ b.length = size := by
    intro p n size ca hp hk
    obtain ⟨r, hr, ⟨_, h2, h3⟩ | ⟨_, h2⟩⟩ := SpecRun.sources hrun hm' hp
    · obtain ⟨e, f1, f3, _, _, k, f5, f6⟩ := hfrom r hr
      rw [f5, hk] at h2
      have hk : k = .file size ca := by injection h2 with h2; exact Option.some.inj h2
      subst hk
      exact (hat e ((hmem e).mp f1) _ f6).2
    · rw [h2] at hk; cases hk
  have hnames : ∀ p n, m' p = some n → ∀ x ∈ p, x ≠ CUR ∧ x ≠ PARENT ∧ x.length ≤ 255 := by
    intro p n hp x hx
    obtain ⟨_, e, h1, h3⟩ := g4 p n hp
    have hx' := h3.subset hx
    exact ⟨(memberNames_mem hx').2, (hshow e ((hmem e).mp h1)).names x hx'⟩
  obtain ⟨hM, B, hB⟩ := mounted_shows hrun hm' hu hfit hbytes hnames ho hlen harch hserve
  refine ⟨B, fun cl before hs f hf => ?_⟩
  obtain ⟨l, st, r1, r2, r3, r4⟩ := hB cl before hs f hf
  have hattr : ∀ {e : ZipMember} {t k : Nat} {n : Node} {a : Attr}, e.HasTime t → n.info = ⟨0, 0, e.unixMode.getD 0o644, t⟩ →
      a = attrSpec a.ino k n → e.AttrsAre a := by
    intro e t k n a ht hn ha
    have e1 : a.mtime = n.info.mtime := by rw [ha]; rfl
    refine ⟨?_, ?_, ?_, ?_⟩
    · rw [ha]; show asU32 n.info.owner = 0; rw [hn]; rfl
    · rw [ha]; show asU32 n.info.group = 0; rw [hn]; rfl
    · rw [ha]; show (n.info.rights % 2 ^ 16) &&& _ = _; rw [hn]
    · rw [e1, hn]; exact ht
  refine ⟨l, st, r1, ⟨Listing.once r2, ?_, ?_, ?_⟩, r4⟩
  · rintro A e B' rfl hd z hz hz0
    obtain ⟨t, h1, _, _, h5⟩ := g3 (A.map .ok) e (B'.map .ok) (by simp)
    obtain ⟨n, h6, h7, h8⟩ := h5 hd
    obtain ⟨x, hx, i1, ⟨k, i2⟩, i3⟩ := Listing.shown r2 r3 h6 hz hz0
    rw [kind_of_isDir h7] at i3
    exact ⟨x, hx, i1, i3, fun hA => hattr h1 (h8 (fun e' he' => hA e' (by simpa using he'))) i2⟩
  · intro e he hf z hz hz0
    obtain ⟨A, B', hAB⟩ := List.append_of_mem ((hmem e).mpr he)
    obtain ⟨t, h1, _, h4, _⟩ := g3 A e B' hAB
    obtain ⟨d, a, hd, hb, h5⟩ := h4 hf
    obtain ⟨x, hx, i1, ⟨k, i2⟩, b, i3, i4⟩ := Listing.shown r2 r3 h5 hz hz0
    simp only at i3
    rw [hb] at i3
    cases i3
    exact ⟨d, hd, x, hx, i1, i4, by rw [i2]; exact ((hshow e he).size hf d hd).1.symm, hattr (n := ⟨_, .file e.size a⟩) h1 rfl i2⟩
  · intro x hx
    obtain ⟨⟨n, hn⟩, _, hne⟩ := (r2.2 (mo.shown ++ x.path)).mp (List.mem_map_of_mem hx)
    refine ⟨fun e => by rw [e] at hne; simp at hne, ?_⟩
    obtain ⟨_, n2, g6, g7⟩ := r3 x hx
    rw [hn] at g6; cases g6
    obtain ⟨r, hr, h1⟩ := SpecRun.sources hrun hm' hn
    obtain ⟨e, f1, f3, _⟩ := hfrom r hr
    refine ⟨e, (hmem e).mp f1, ?_, ?_⟩
    · rw [← f3]
      rcases h1 with ⟨h1, _⟩ | ⟨h1, _⟩
      · exact h1 ▸ List.prefix_rfl
      · exact h1.2.2
    · intro hne'
      rcases h1 with ⟨h1, _⟩ | ⟨h1, h2⟩
      · exact absurd (h1.trans f3) hne'
      · rw [h2] at g7; exact g7

/-! ### Examples: `tar2arx a.tar`, `zip2arx a.zip a.arx`, then `arx mount` -/

def convMountSys (c : Conv) (order : List Nat) : MountSys := ⟨ascii "/home", some (writeArchive c.creator order), none, true, true⟩

/-- the hypotheses of `C81_tar` are met, … -/
theorem exShowTar : ∃ rg B, ∀ n ≥ B,
    ∃ l st, tripClient.copy ⟨writeArchive tripTarConv.creator [0, 2, 1], rg, packBytes tripTarConv.contents⟩ n
        ((FsState.init.run ⟨writeArchive tripTarConv.creator [0, 2, 1], rg, packBytes tripTarConv.contents⟩ [.open 5]).2, 0) [] 1 = (some l, st) ∧
      ShowsTar exTar [] l ∧ OtherReaders (writeArchive tripTarConv.creator [0, 2, 1]) (packBytes tripTarConv.contents) l := by
  obtain ⟨N, hN⟩ := ConvEv.written_of (evs := (tar2arx (some (ascii "a.tar")) none exConvSys).1) (by decide +kernel)
  have hs : ∃ dir rg opts, MountEv.serve dir rg opts ∈ (mountCmd (tripMount none) (convMountSys tripTarConv [0, 2, 1])).1 :=
    ⟨_, _, _, List.mem_singleton.mpr rfl⟩
  obtain ⟨dir, rg, opts, hs⟩ := hs
  have hshow : ∀ e ∈ exTar, ¬ e.Ignored → e.Showable := by
    intro e he _
    simp only [exTar, List.mem_cons, List.not_mem_nil, or_false] at he
    rcases he with rfl | rfl | rfl | rfl <;>
      exact ⟨by decide +kernel, fun t ht => by cases ht; decide, fun t ht => by cases ht <;> decide, fun d hd => by cases hd; decide⟩
  obtain ⟨B, hB⟩ := C81_tar (tarFile := some (ascii "a.tar")) (outfile := none) (sys := exConvSys) (out := N) (c := tripTarConv)
    (order := [0, 2, 1]) (ms := exTar) hN rfl hshow ⟨by decide +kernel, by decide +kernel⟩ (by decide +kernel) rfl hs
  refine ⟨rg, B, fun n hn => ?_⟩
  obtain ⟨l, st, h1, h2, h3⟩ := hB tripClient [.open 5] tripClient_served n hn
  exact ⟨l, st, h1, h2, h3 rfl⟩

/-- … and those of `C81_zip`, also for a directory of the archive. -/
theorem exShowZip (rd : Option Bytes) (hrd : rd = none ∨ rd = some (ascii "d")) : ∃ rg B, ∀ n ≥ B,
    ∃ l st, tripClient.copy ⟨writeArchive tripZipConv.creator [0, 2, 1, 3], rg, packBytes tripZipConv.contents⟩ n
        ((FsState.init.run ⟨writeArchive tripZipConv.creator [0, 2, 1, 3], rg, packBytes tripZipConv.contents⟩ [.open 5]).2, 0) [] 1 = (some l, st) ∧
      ShowsZip tripZip (tripMount rd).shown l := by
  obtain ⟨N, hN⟩ := ConvEv.written_of (evs := (zip2arx (ascii "a.zip") (ascii "a.arx") tripZipSys).1) (by decide +kernel)
  have hex : ∃ dir rg opts, MountEv.serve dir rg opts ∈ (mountCmd (tripMount rd) (convMountSys tripZipConv [0, 2, 1, 3])).1 := by
    have : ∀ rd, rd = none ∨ rd = some (ascii "d") →
        ((mountCmd (tripMount rd) (convMountSys tripZipConv [0, 2, 1, 3])).1.any fun e => match e with | .serve _ _ _ => true | _ => false) = true := by
      rintro rd (rfl | rfl) <;> decide +kernel
    obtain ⟨e, h1, h2⟩ := List.any_eq_true.mp (this rd hrd)
    cases e with
    | serve dir rg opts => exact ⟨dir, rg, opts, h1⟩
    | _ => cases h2
  obtain ⟨dir, rg, opts, hs⟩ := hex
  have hshow : ∀ e ∈ tripZip, e.Showable := by
    intro e he
    simp only [tripZip, List.mem_cons, List.not_mem_nil, or_false] at he
    rcases he with rfl | rfl | rfl
    · exact ⟨by decide +kernel, fun t ht => by rcases ht with ht | ⟨_, ht | ⟨_, rfl⟩⟩ <;> (try cases ht) <;> decide,
        fun hd => by cases hd⟩
    · exact ⟨by decide +kernel, fun t ht => by rcases ht with ht | ⟨_, ht | ⟨_, rfl⟩⟩ <;> (try cases ht) <;> decide,
        fun _ d hd => by cases hd; decide⟩
    · exact ⟨by decide +kernel, fun t ht => by rcases ht with ht | ⟨_, ht | ⟨_, rfl⟩⟩ <;> (try cases ht) <;> decide,
        fun _ d hd => by cases hd; decide⟩
  obtain ⟨B, hB⟩ := C81_zip (zipFile := ascii "a.zip") (outfile := ascii "a.arx") (sys := tripZipSys) (out := N) (c := tripZipConv)
    (order := [0, 2, 1, 3]) (ms := tripZip) hN rfl hshow ⟨by decide +kernel, by decide +kernel⟩ (by decide +kernel) rfl hs
  refine ⟨rg, B, fun n hn => ?_⟩
  obtain ⟨l, st, h1, h2, h3⟩ := hB tripClient [.open 5] tripClient_served n hn
  exact ⟨l, st, h1, h2⟩

/-- What was copied of the converted zip archive. The directory `e` is no member. -/
example : ((tripClient.copy ⟨writeArchive tripZipConv.creator [0, 2, 1, 3], (writeArchive tripZipConv.creator [0, 2, 1, 3]).root, packBytes tripZipConv.contents⟩ 20
      ((FsState.init.run ⟨writeArchive tripZipConv.creator [0, 2, 1, 3], (writeArchive tripZipConv.creator [0, 2, 1, 3]).root, packBytes tripZipConv.contents⟩ [.open 5]).2, 0) [] 1).1.map (fun l => l.map (fun x => (x.path, x.got, x.attr.perm)))) =
    some [([ascii "d"], .dir, 0o555), ([ascii "d", ascii "f"], .file (ascii "hello"), 0o444), ([ascii "e"], .dir, 0o555),
      ([ascii "e", ascii "g"], .file [], 0o444)] := by decide +kernel

end Arx
