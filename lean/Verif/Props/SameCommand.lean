import Verif.Spec.SameCommand
import Verif.Props.Reproduce
import Verif.Props.Extract4
import Verif.Proof.ResolveTwice
/-!
# C83: different commands that ask for the same archive
-/
namespace Arx

variable {s : Src} {cwd : List Bytes} {pre : RPath}

/-! ## A file list and input files -/

/-- two ways to name something that leads to the same entry -/
structure SameOffer (s : Src) (cwd : List Bytes) (x y : Bytes × Bool) : Prop where
  path : x.1 = y.1
  leads : s.fs.resolve x.2 (namesOf cwd x.1) = s.fs.resolve y.2 (namesOf cwd y.1)

theorem SameOffer.one {x y : Bytes × Bool} (h : SameOffer s cwd x y) (u : List Bytes × List Bytes) : OffersOne s cwd pre x u ↔ OffersOne s cwd pre y u := by
  unfold OffersOne
  rw [h.leads, h.path]

theorem SameOffer.makes {x y : Bytes × Bool} (h : SameOffer s cwd x y) (z : List Bytes) : Makes s cwd pre x z ↔ Makes s cwd pre y z := by
  unfold Makes
  simp only [h.one]

theorem SameOffer.archivable {x y : Bytes × Bool} (h : SameOffer s cwd x y) : Archivable s cwd pre x ↔ Archivable s cwd pre y := by
  constructor
  · rintro ⟨h1, h2, h3⟩
    rw [h.path] at h1 h2
    rw [h.leads, h.path] at h3
    exact ⟨h1, h2, h3⟩
  · rintro ⟨h1, h2, h3⟩
    rw [← h.path] at h1 h2
    rw [← h.leads, ← h.path] at h3
    exact ⟨h1, h2, h3⟩

theorem FindPrints.walked {rc : Bool} {roots lines : List Bytes} (h : FindPrints s cwd rc roots lines) :
    ∃ L, WalkedAs s cwd rc roots L ∧ L.map Prod.fst = lines ∧ ∀ x ∈ L, SameOffer s cwd x (x.1, false) := by
  induction h with
  | nil => exact ⟨[], .nil, rfl, by simp⟩
  | @cons root q order roots lines h1 h2 h3 h4 h5 h6 _ ih =>
    obtain ⟨L, hL, hmap, hsame⟩ := ih
    have h2' := FS.resolve_follow h3 h2
    refine ⟨_, WalkedEach.cons h1 h2' h4 h5 h6 hL, ?_, ?_⟩
    · rw [List.map_append, hmap, List.map_map]; rfl
    · intro x hx
      rcases List.mem_append.mp hx with hx | hx
      · obtain ⟨p, _, rfl⟩ := List.mem_map.mp hx
        refine ⟨rfl, ?_⟩
        by_cases e : p = []
        · subst e
          simp only [List.foldl_nil, decide_true]
          rw [h2, h2']
        · simp [e]
      · exact hsame x hx

theorem FirstPath.sameOffers {bytes : ContentAddr → GetBytes} {L : List (Bytes × Bool)} (f : Bytes × Bool → Bytes × Bool)
    (hf : ∀ x ∈ L, SameOffer s cwd x (f x)) {m : PathMap} (h : FirstPath s cwd pre bytes (L.map f) m) : FirstPath s cwd pre bytes L m := by
  refine ⟨fun z hz => h.nothing z ?_, ?_, ?_⟩
  · intro y hy
    obtain ⟨x, hx, rfl⟩ := List.mem_map.mp hy
    rw [← (hf x hx).makes]; exact hz x hx
  · rintro A x B u rfl hu hsp hA
    refine h.entry (A.map f) (f x) (B.map f) u (by simp) ((hf x (by simp)).one u |>.mp hu) hsp ?_
    intro y hy
    obtain ⟨y, hy', rfl⟩ := List.mem_map.mp hy
    rw [← (hf y (by simp [hy'])).makes]; exact hA y hy'
  · rintro A x B u z rfl hu hp hA
    refine h.above (A.map f) (f x) (B.map f) u z (by simp) ((hf x (by simp)).one u |>.mp hu) hp ?_
    intro y hy
    obtain ⟨y, hy', rfl⟩ := List.mem_map.mp hy
    rw [← (hf y (by simp [hy'])).makes]; exact hA y hy'

theorem FindPrints.firstInput (W : s.WF) {rc : Bool} {roots lines : List Bytes} (h : FindPrints s cwd rc roots lines) {bytes : ContentAddr → GetBytes} {m : PathMap}
    (hm : FirstPath s cwd pre bytes (lines.map (fun p => (p, false))) m) (hall : ∀ p ∈ lines, Archivable s cwd pre (p, false)) :
    FirstInput s cwd pre bytes rc roots m := by
  obtain ⟨L, hL, rfl, hsame⟩ := h.walked
  have hm' : FirstPath s cwd pre bytes L m := by
    refine FirstPath.sameOffers (fun x => (x.1, false)) hsame ?_
    rwa [List.map_map] at hm
  refine hm'.toInput W hL fun x hx => ?_
  rw [(hsame x hx).archivable]
  exact hall _ (List.mem_map.mpr ⟨x, hx, rfl⟩)

/-- **C83, a file list.** One command is given input files, the other a file list with what `find` prints for these files (which are no
symbolic links); both run in the same directory with the same strip prefix on a source that does not change, the second without
`--follow-symlink`. If both write an archive, the archives are the same row by row but for the numbers of the contents, which lead
to the same bytes; and both listings are the same, byte by byte. -/
theorem C83_find {o o' : CreateOpts} {sys sys' : CreateSys} {N N' : List Bytes} {a a' : Adder} {l text : Bytes} {lines : List Bytes}
    (hfl : o.fileList = none) (hfl' : o'.fileList = some l) (hpre : o'.stripPrefix = o.stripPrefix) (hns : o'.followSymlink = false)
    (htext : sys'.text (absFile sys'.cwd l) = some text) (hlines : TextOf lines text) (hfind : FindPrints s cwd o.recursion o.infiles lines) (W : s.WF)
    (hcwd : StartsIn o sys cwd) (Q : Quiet (sys.cenv cwd) s) (hcheck : sys.atCheck = s)
    (hw : ∀ i, (sys.walks i).src = s ∧ FullListing s (sys.walks i).ls ∧ ∀ q, s.fs.nodes q ≠ none → q.length ≤ (sys.walks i).depth)
    (h : CreateEv.written N a ∈ (o.run sys).1)
    (hcwd' : StartsIn o' sys' cwd) (Q' : Quiet (sys'.cenv cwd) s) (h' : CreateEv.written N' a' ∈ (o'.run sys').1)
    {order order' : List Nat} (ho : IsLayout a.creator order) (ho' : IsLayout a'.creator order')
    (hlen : a.creator.store.length < 2 ^ 32) (hlen' : a'.creator.store.length < 2 ^ 32)
    {depth depth' : Nat} (hd : a.creator.store.length < depth) (hd' : a'.creator.store.length < depth') :
    SameArchive (writeArchive a.creator order) (writeArchive a'.creator order') (packBytes a.contents) (packBytes a'.contents) ∧
      listCmd (writeArchive a.creator order) none depth = listCmd (writeArchive a'.creator order') none depth' ∧
      listCmd (writeArchive a.creator order) (some 1) depth = listCmd (writeArchive a'.creator order') (some 1) depth' := by
  obtain ⟨rs, m, h1, h2, h3⟩ := CreateOpts.inputs_exact hfl hcwd Q W hcheck hw h
  obtain ⟨text', lines', rs', m', t1, t2, g1, g2, g3, gall⟩ := CreateOpts.list_exact' hfl' hcwd' Q' W h'
  rw [htext] at t1; cases t1
  have : lines = lines' := by rw [← TextOf.lines hlines, ← TextOf.lines t2]
  subst this
  rw [hns, hpre] at g3 gall
  obtain ⟨l, hl⟩ := CreateOpts.tried hcwd h
  obtain ⟨l', hl'⟩ := CreateOpts.tried hcwd' h'
  exact (h3.same W (hfind.firstInput W g3 gall)).shown hl hl' h1 g1 h2 g2 ho ho' hlen hlen' hd hd'

/-- **C83, when.** The two commands succeed in the same cases (with the same output). -/
theorem C83_find_ok {o o' : CreateOpts} {sys : CreateSys} {l text : Bytes} {lines : List Bytes} (hl : o.listCompressions = false)
    (hl' : o'.listCompressions = false) (hfl : o.fileList = none) (hfl' : o'.fileList = some l) (hne : l ≠ []) (hpre : o'.stripPrefix = o.stripPrefix)
    (hns : o'.followSymlink = false) (hbase : o'.baseDir = o.baseDir) (hout : o'.outfile = o.outfile) (hforce : o'.force = o.force)
    (htext : sys.text (absFile sys.cwd l) = some text) (hlines : TextOf lines text)
    (hfind : ∀ cwd, StartsIn o sys cwd → FindPrints s cwd o.recursion o.infiles lines)
    (Q : ∀ cwd, Quiet (sys.cenv cwd) s) (W : s.WF) (hcheck : sys.atCheck = s)
    (hw : ∀ i, (sys.walks i).src = s ∧ FullListing s (sys.walks i).ls ∧ ∀ q, s.fs.nodes q ≠ none → q.length ≤ (sys.walks i).depth)
    (hret : ∀ cwd, StartsIn o sys cwd → Returns o sys s cwd) :
    (o.run sys).2 = .ok ↔ (o'.run sys).2 = .ok := by
  rw [C77_inputs hl hfl Q W hcheck hw hret, C77_list hl' hfl' Q W]
  have e1 : OutputFree o' sys ↔ OutputFree o sys := by unfold OutputFree; rw [hout, hforce]
  rw [e1]
  refine and_congr_right fun _ => ?_
  have e2 : ∀ X : Prop, (l ≠ [] ∧ X) ↔ X := fun X => ⟨fun h => h.2, fun h => ⟨hne, h⟩⟩
  rw [e2]
  refine and_congr_right fun _ => and_congr_right fun _ => exists_congr fun cwd => ?_
  have e3 : StartsIn o' sys cwd ↔ StartsIn o sys cwd := by unfold StartsIn; rw [hbase]
  have hiff : StartsIn o sys cwd → ((((∀ f ∈ o.infiles, ArchivableTree s cwd (o.stripPrefix.getD []) o.recursion f) ∧
      o.infiles.Pairwise (fun f g => ∀ u v, OffersTree s cwd (o.stripPrefix.getD []) o.recursion f u →
        OffersTree s cwd (o.stripPrefix.getD []) o.recursion g v → ¬ Clash s u v ∧ ¬ Clash s v u)) ↔
      (∀ x ∈ lines, Archivable s cwd (o.stripPrefix.getD []) (x, false)) ∧
      lines.Pairwise (fun x y => ∀ u v, OffersOne s cwd (o.stripPrefix.getD []) (x, false) u →
        OffersOne s cwd (o.stripPrefix.getD []) (y, false) v → ¬ Clash s u v ∧ ¬ Clash s v u))) := by
    intro hst
    obtain ⟨L, hL, hmap, hsame⟩ := (hfind cwd hst).walked
    obtain ⟨⟨k1, k2⟩, _⟩ := hL.iff (pre := o.stripPrefix.getD []) W
    have a1 : (∀ x ∈ lines, Archivable s cwd (o.stripPrefix.getD []) (x, false)) ↔ ∀ x ∈ L, Archivable s cwd (o.stripPrefix.getD []) x := by
      rw [← hmap]
      simp only [List.mem_map, forall_exists_index, and_imp, forall_apply_eq_imp_iff₂]
      exact forall_congr' fun x => forall_congr' fun hx => ((hsame x hx).archivable).symm
    have a2 : lines.Pairwise (fun x y => ∀ u v, OffersOne s cwd (o.stripPrefix.getD []) (x, false) u →
        OffersOne s cwd (o.stripPrefix.getD []) (y, false) v → ¬ Clash s u v ∧ ¬ Clash s v u) ↔ L.Pairwise (NoClash s cwd (o.stripPrefix.getD [])) := by
      rw [← hmap, List.pairwise_map]
      constructor
      · intro h
        refine h.imp_of_mem fun {x y} hx hy h u v hu hv => h u v ((hsame x hx).one u |>.mp hu) ((hsame y hy).one v |>.mp hv)
      · intro h
        refine h.imp_of_mem fun {x y} hx hy h u v hu hv => h u v ((hsame x hx).one u |>.mpr hu) ((hsame y hy).one v |>.mpr hv)
    rw [a1, a2]
    constructor
    · rintro ⟨a, b⟩; exact ⟨k1.mpr a, (k2 (k1.mpr a)).mpr b⟩
    · rintro ⟨a, b⟩; exact ⟨k1.mp a, (k2 a).mp b⟩
  constructor
  · rintro ⟨hst, h⟩
    have := (hiff hst).mp h
    refine ⟨text, lines, e3.mpr hst, htext, hlines, fun x hx => (validUtf8_comps x).mpr (this.1 x hx).utf8, ?_⟩
    rw [hns, hpre]; exact this
  · rintro ⟨text', lines', hst, ht, hl2, _, h⟩
    rw [htext] at ht; cases ht
    have : lines = lines' := by rw [← TextOf.lines hlines, ← TextOf.lines hl2]
    subst this
    rw [hns, hpre] at h
    exact ⟨e3.mp hst, (hiff (e3.mp hst)).mpr h⟩

/-! ## `-C` and `--strip-prefix` -/

theorem comps_joinChild {d f : Bytes} (hf : f.head? ≠ some SEP) : comps (joinChild d f) = comps d ++ comps f := by
  unfold joinChild
  split
  · rename_i h
    rcases h with rfl | h
    · simp [comps, splitSep]
    · obtain ⟨e, c, rfl⟩ := (nil_or_snoc d).resolve_left (fun e => by rw [e] at h; cases h)
      simp only [List.getLast?_append, List.getLast?_singleton, Option.some_or, Option.some.injEq] at h
      subst h
      rw [List.append_assoc, List.singleton_append, comps_append, comps_append_sep]
  · rw [comps_append]

theorem head_joinChild {d f : Bytes} (hd : d ≠ []) : (joinChild d f).head? = d.head? := by
  unfold joinChild
  cases d with
  | nil => exact absurd rfl hd
  | cons c d => split <;> rfl

/-- an input named from the base directory, and from the directory the command is called in -/
theorem storedAs_below {d f : Bytes} (hf : f.head? ≠ some SEP) (hcur : CUR ∉ comps d) (k : List Bytes) :
    StoredAs f [] k ↔ StoredAs (joinChild d f) d k := by
  unfold StoredAs
  rw [comps_joinChild hf, List.filter_append]
  have : (comps d).filter (· ≠ CUR) = comps d := by
    rw [List.filter_eq_self]
    intro c hc
    simp only [ne_eq, decide_eq_true_eq]
    exact fun e => hcur (e ▸ hc)
  rw [this, List.append_cancel_left_eq]
  simp [comps, splitSep]

theorem namesOf_below {d f : Bytes} (hd : d.head? ≠ some SEP) (hf : f.head? ≠ some SEP) (hne : d ≠ []) :
    baseNames cwd (joinChild d f) = baseNames cwd d ++ comps f := by
  unfold baseNames
  rw [if_neg (by rw [head_joinChild hne]; exact hd), if_neg hd, comps_joinChild hf, List.append_assoc]

theorem comps_eq_nil {f : Bytes} (hf : f.head? ≠ some SEP) (h : comps f = []) : f = [] := by
  cases f with
  | nil => rfl
  | cons b t =>
    exfalso
    have hb : b ≠ SEP := fun e => hf (by rw [e]; rfl)
    unfold comps at h
    rw [splitSep] at h
    simp only [hb, if_false] at h
    split at h <;> simp at h

theorem trailing_below {d f : Bytes} (hf : f ≠ []) : trailing (joinChild d f) = trailing f := by
  obtain ⟨b, t, rfl⟩ := List.exists_cons_of_ne_nil hf
  unfold trailing joinChild
  split <;> simp [List.getLast?_append, List.getLast?_cons]

theorem resolve_below_text (fs : FS) (fl : Bool) {d f : Bytes} (hd : d.head? ≠ some SEP) (hf : f.head? ≠ some SEP) (hne : d ≠ [])
    (hc : comps f ≠ []) : fs.resolve fl (namesOf cwd (joinChild d f)) = fs.resolve fl (namesOf cwd d ++ (comps f ++ trailing f)) := by
  have hfn : f ≠ [] := by rintro rfl; exact hc rfl
  rw [fs.resolve_names fl cwd d (by simp [hc]), namesOf, namesOf_below hd hf hne, trailing_below hfn, List.append_assoc]

theorem FirstInput.transfer {bytes : ContentAddr → GetBytes} {cwd' : List Bytes} {pre' : RPath} {rc : Bool} {roots : List Bytes} (g : Bytes → Bytes)
    (hg : ∀ f ∈ roots, ∀ k q, InputAt s cwd pre f k q ↔ InputAt s cwd' pre' (g f) k q) {m : PathMap}
    (h : FirstInput s cwd' pre' bytes rc (roots.map g) m) : FirstInput s cwd pre bytes rc roots m := by
  have hT : ∀ f ∈ roots, ∀ u, OffersTree s cwd pre rc f u ↔ OffersTree s cwd' pre' rc (g f) u := by
    intro f hf u
    unfold OffersTree
    simp only [hg f hf]
  have hM : ∀ f ∈ roots, ∀ z, TreeMakes s cwd pre rc f z ↔ TreeMakes s cwd' pre' rc (g f) z := by
    intro f hf z
    unfold TreeMakes
    simp only [hT f hf]
  refine ⟨fun z hz => h.nothing z ?_, ?_, ?_⟩
  · intro y hy
    obtain ⟨x, hx, rfl⟩ := List.mem_map.mp hy
    rw [← hM x hx]; exact hz x hx
  · rintro A x B u rfl hu hsp hA
    refine h.entry (A.map g) (g x) (B.map g) u (by simp) ((hT x (by simp) u).mp hu) hsp ?_
    intro y hy
    obtain ⟨y, hy', rfl⟩ := List.mem_map.mp hy
    rw [← hM y (by simp [hy'])]; exact hA y hy'
  · rintro A x B k q z rfl hu hp hA
    refine h.above (A.map g) (g x) (B.map g) k q z (by simp) ((hg x (by simp) k q).mp hu) hp ?_
    intro y hy
    obtain ⟨y, hy', rfl⟩ := List.mem_map.mp hy
    rw [← hM y (by simp [hy'])]; exact hA y hy'

theorem FirstPath.transfer {bytes : ContentAddr → GetBytes} {cwd' : List Bytes} {pre' : RPath} {L : List (Bytes × Bool)} (g : Bytes × Bool → Bytes × Bool)
    (hg : ∀ x ∈ L, ∀ u, OffersOne s cwd pre x u ↔ OffersOne s cwd' pre' (g x) u) {m : PathMap}
    (h : FirstPath s cwd' pre' bytes (L.map g) m) : FirstPath s cwd pre bytes L m := by
  have hM : ∀ x ∈ L, ∀ z, Makes s cwd pre x z ↔ Makes s cwd' pre' (g x) z := by
    intro f hf z
    unfold Makes
    simp only [hg f hf]
  refine ⟨fun z hz => h.nothing z ?_, ?_, ?_⟩
  · intro y hy
    obtain ⟨x, hx, rfl⟩ := List.mem_map.mp hy
    rw [← hM x hx]; exact hz x hx
  · rintro A x B u rfl hu hsp hA
    refine h.entry (A.map g) (g x) (B.map g) u (by simp) ((hg x (by simp) u).mp hu) hsp ?_
    intro y hy
    obtain ⟨y, hy', rfl⟩ := List.mem_map.mp hy
    rw [← hM y (by simp [hy'])]; exact hA y hy'
  · rintro A x B u z rfl hu hp hA
    refine h.above (A.map g) (g x) (B.map g) u z (by simp) ((hg x (by simp) u).mp hu) hp ?_
    intro y hy
    obtain ⟨y, hy', rfl⟩ := List.mem_map.mp hy
    rw [← hM y (by simp [hy'])]; exact hA y hy'

/-- **C83, base directory and prefix.** One command is given `-C d` and input files; the other is given `--strip-prefix d` and the same files
named from the directory it is called in, `d/f` (`d` is relative and has no component `.`). Both are called in the same directory on a source that
does not change. If both write an archive, the archives are the same as in `C83_find`. -/
theorem C83_base_dir {o o' : CreateOpts} {sys sys' : CreateSys} {cwd' N N' : List Bytes} {a a' : Adder} {d : Bytes}
    (hfl : o.fileList = none) (hfl' : o'.fileList = none) (hbase : o.baseDir = some d) (hbase' : o'.baseDir = none)
    (hpre : o.stripPrefix = none) (hpre' : o'.stripPrefix = some d) (hd : d.head? ≠ some SEP) (hcur : CUR ∉ comps d)
    (hin : o'.infiles = o.infiles.map (joinChild d)) (hrc : o'.recursion = o.recursion) (W : s.WF)
    (hsys : sys.cwd = cwd) (hsys' : sys'.cwd = cwd) (hchdir : sys.atChdir = s)
    (hcwd : StartsIn o sys cwd') (Q : Quiet (sys.cenv cwd') s) (hcheck : sys.atCheck = s)
    (hw : ∀ i, (sys.walks i).src = s ∧ FullListing s (sys.walks i).ls ∧ ∀ q, s.fs.nodes q ≠ none → q.length ≤ (sys.walks i).depth)
    (h : CreateEv.written N a ∈ (o.run sys).1)
    (Q' : Quiet (sys'.cenv cwd) s) (hcheck' : sys'.atCheck = s)
    (hw' : ∀ i, (sys'.walks i).src = s ∧ FullListing s (sys'.walks i).ls ∧ ∀ q, s.fs.nodes q ≠ none → q.length ≤ (sys'.walks i).depth)
    (h' : CreateEv.written N' a' ∈ (o'.run sys').1)
    {order order' : List Nat} (ho : IsLayout a.creator order) (ho' : IsLayout a'.creator order')
    (hlen : a.creator.store.length < 2 ^ 32) (hlen' : a'.creator.store.length < 2 ^ 32)
    {depth depth' : Nat} (hd1 : a.creator.store.length < depth) (hd2 : a'.creator.store.length < depth') :
    SameArchive (writeArchive a.creator order) (writeArchive a'.creator order') (packBytes a.contents) (packBytes a'.contents) ∧
      listCmd (writeArchive a.creator order) none depth = listCmd (writeArchive a'.creator order') none depth' ∧
      listCmd (writeArchive a.creator order) (some 1) depth = listCmd (writeArchive a'.creator order') (some 1) depth' := by
  have hcwd2 : StartsIn o' sys' cwd := by unfold StartsIn; rw [hbase']; exact hsys'.symm
  have hlead : LeadsTo s cwd d cwd' := by
    have := hcwd
    unfold StartsIn at this
    rw [hbase, hchdir, hsys] at this
    exact this
  obtain ⟨hne, hres, hdir⟩ := hlead
  obtain ⟨rs, m, h1, h2, h3⟩ := CreateOpts.inputs_exact hfl hcwd Q W hcheck hw h
  obtain ⟨rs', m', g1, g2, g3⟩ := CreateOpts.inputs_exact hfl' hcwd2 Q' W hcheck' hw' h'
  have hp1 := (CreateOpts.inputs_added hfl hcwd hcheck h).1
  have hp2 := (CreateOpts.inputs_added hfl' hcwd2 hcheck' h').1
  have hrel := CreateOpts.inputs_relative hfl h
  rw [hpre] at h3
  rw [hpre', hin, hrc] at g3
  simp only [Option.getD_none, Option.getD_some] at h3 g3
  have g4 : FirstInput s cwd' [] (packBytes a'.contents) o.recursion o.infiles m' := by
    refine FirstInput.transfer (joinChild d) (fun f hf k q => ?_) g3
    obtain ⟨hfn, q1, hq1⟩ := hp1 f hf
    obtain ⟨_, q2, hq2⟩ := hp2 (joinChild d f) (by rw [hin]; exact List.mem_map.mpr ⟨f, hf, rfl⟩)
    have hn1 : namesOf cwd' f = cwd' ++ (comps f ++ trailing f) := by unfold namesOf baseNames; rw [if_neg (hrel f hf), List.append_assoc]
    have hcf : comps f ≠ [] := fun e => absurd (comps_eq_nil (hrel f hf) e) hfn
    have : Loc.found q2 = Loc.found q1 := W.resolve_twice hres hdir (Or.inr rfl)
      (by rw [← resolve_below_text _ _ hd (hrel f hf) hne hcf]; exact hq2) (by rw [← hn1]; exact hq1)
    cases this
    unfold InputAt
    rw [storedAs_below (hrel f hf) hcur, hq1, hq2]
  obtain ⟨l, hl⟩ := CreateOpts.tried hcwd h
  obtain ⟨l', hl'⟩ := CreateOpts.tried hcwd2 h'
  exact (h3.same W g4).shown hl hl' h1 g1 h2 g2 ho ho' hlen hlen' hd1 hd2

/-- **C83, base directory and prefix, file list.** The same for file lists: the lines of the second list are those of the first, named from the
directory the command is called in. -/
theorem C83_base_dir_list {o o' : CreateOpts} {sys sys' : CreateSys} {cwd' N N' : List Bytes} {a a' : Adder} {d l l' text text' : Bytes} {lines : List Bytes}
    (hfl : o.fileList = some l) (hfl' : o'.fileList = some l') (hbase : o.baseDir = some d) (hbase' : o'.baseDir = none)
    (hpre : o.stripPrefix = none) (hpre' : o'.stripPrefix = some d) (hd : d.head? ≠ some SEP) (hcur : CUR ∉ comps d)
    (htext : sys.text (absFile sys.cwd l) = some text) (hlines : TextOf lines text)
    (htext' : sys'.text (absFile sys'.cwd l') = some text') (hlines' : TextOf (lines.map (joinChild d)) text')
    (hfollow : o'.followSymlink = o.followSymlink) (W : s.WF)
    (hsys : sys.cwd = cwd) (hsys' : sys'.cwd = cwd) (hchdir : sys.atChdir = s)
    (hcwd : StartsIn o sys cwd') (Q : Quiet (sys.cenv cwd') s) (h : CreateEv.written N a ∈ (o.run sys).1)
    (Q' : Quiet (sys'.cenv cwd) s) (h' : CreateEv.written N' a' ∈ (o'.run sys').1)
    {order order' : List Nat} (ho : IsLayout a.creator order) (ho' : IsLayout a'.creator order')
    (hlen : a.creator.store.length < 2 ^ 32) (hlen' : a'.creator.store.length < 2 ^ 32)
    {depth depth' : Nat} (hd1 : a.creator.store.length < depth) (hd2 : a'.creator.store.length < depth') :
    SameArchive (writeArchive a.creator order) (writeArchive a'.creator order') (packBytes a.contents) (packBytes a'.contents) ∧
      listCmd (writeArchive a.creator order) none depth = listCmd (writeArchive a'.creator order') none depth' ∧
      listCmd (writeArchive a.creator order) (some 1) depth = listCmd (writeArchive a'.creator order') (some 1) depth' := by
  have hcwd2 : StartsIn o' sys' cwd := by unfold StartsIn; rw [hbase']; exact hsys'.symm
  have hlead : LeadsTo s cwd d cwd' := by
    have := hcwd
    unfold StartsIn at this
    rw [hbase, hchdir, hsys] at this
    exact this
  obtain ⟨hne, hres, hdir⟩ := hlead
  obtain ⟨t1, l1, rs, m, e1, e2, h1, h2, h3, hall1⟩ := CreateOpts.list_exact' hfl hcwd Q W h
  obtain ⟨t2, l2, rs', m', e3, e4, g1, g2, g3, hall2⟩ := CreateOpts.list_exact' hfl' hcwd2 Q' W h'
  rw [htext] at e1; cases e1
  rw [htext'] at e3; cases e3
  have i1 : l1 = lines := by rw [← TextOf.lines e2, ← TextOf.lines hlines]
  have i2 : l2 = lines.map (joinChild d) := by rw [← TextOf.lines e4, ← TextOf.lines hlines']
  subst i1; subst i2
  rw [hpre] at h3 hall1
  rw [hpre', hfollow] at g3 hall2
  simp only [Option.getD_none, Option.getD_some] at h3 g3 hall1 hall2
  have g4 : FirstPath s cwd' [] (packBytes a'.contents) (l1.map (fun p => (p, o.followSymlink))) m' := by
    refine FirstPath.transfer (fun x => (joinChild d x.1, x.2)) (fun x hx u => ?_) (by simpa [List.map_map, Function.comp_def] using g3)
    obtain ⟨f, hf, rfl⟩ := List.mem_map.mp hx
    have A1 := hall1 f hf
    have A2 := hall2 (joinChild d f) (List.mem_map.mpr ⟨f, hf, rfl⟩)
    have hrel := A1.relative
    simp only at hrel
    unfold OffersOne
    simp only
    rw [← storedAs_below hrel hcur]
    refine and_congr_right fun hk => and_congr_right fun hk0 => ?_
    obtain ⟨k1, hk1, hr1⟩ := A1.stored
    obtain ⟨k2, hk2, hr2⟩ := A2.stored
    have hkk : k1 = u.1 := by
      have a1 := hk; have a2 := hk1
      unfold StoredAs at a1 a2
      simp only at a1 a2
      rw [a1] at a2
      exact (List.append_cancel_left a2).symm
    have hkk2 : k2 = u.1 := by
      have a1 := (storedAs_below hrel hcur u.1).mp hk; have a2 := hk2
      unfold StoredAs at a1 a2
      simp only at a1 a2
      rw [a1] at a2
      exact (List.append_cancel_left a2).symm
    obtain ⟨q1, hq1, _⟩ := hr1 (hkk ▸ hk0)
    obtain ⟨q2, hq2, _⟩ := hr2 (hkk2 ▸ hk0)
    simp only at hq1 hq2
    have hn1 : namesOf cwd' f = cwd' ++ (comps f ++ trailing f) := by unfold namesOf baseNames; rw [if_neg hrel, List.append_assoc]
    have hcf : comps f ≠ [] := by
      intro e
      unfold StoredAs at hk
      rw [e] at hk
      simp [comps, splitSep] at hk
      exact hk0 hk
    have : Loc.found q2 = Loc.found q1 := W.resolve_twice hres hdir (Or.inl (fun e => hcf (List.append_eq_nil_iff.mp e).1))
      (by rw [← resolve_below_text _ _ hd hrel hne hcf]; exact hq2) (by rw [← hn1]; exact hq1)
    cases this
    rw [hq1, hq2]
  obtain ⟨l, hl⟩ := CreateOpts.tried hcwd h
  obtain ⟨l', hl'⟩ := CreateOpts.tried hcwd2 h'
  exact (h3.same g4).shown hl hl' h1 g1 h2 g2 ho ho' hlen hlen' hd1 hd2

/-! ## Examples -/

/-- `find d > list; arx create -o x.arx -L list` -/
def findSys : CreateSys := { exSys with text := fun p => if p = [ascii "list"] then some (ascii "d\nd/f\nd/p\nd/s\nd/s/l\n") else none }
def findOpts : CreateOpts := { exListOpts with recurse := false }
def findLines : List Bytes := [ascii "d", ascii "d/f", ascii "d/p", ascii "d/s", ascii "d/s/l"]
def findAdder : Adder := ((findOpts.run findSys).1.filterMap CreateEv.adder?).headD Adder.new

theorem findAdder_written : ∃ N, CreateEv.written N findAdder ∈ (findOpts.run findSys).1 :=
  CreateEv.written_of (by
    intro h
    have : ((findOpts.run findSys).1.filterMap CreateEv.adder?).length = 1 := by decide +kernel
    rw [h] at this; cases this)

theorem findLines_text : TextOf findLines (ascii "d\nd/f\nd/p\nd/s\nd/s/l\n") :=
  .line (l := ascii "d") (by decide) (by decide) (.line (l := ascii "d/f") (by decide) (by decide) (.line (l := ascii "d/p") (by decide) (by decide)
    (.line (l := ascii "d/s") (by decide) (by decide) (.line (l := ascii "d/s/l") (by decide) (by decide) .empty))))

def findOrder : List (List Bytes) := [[], [ascii "f"], [ascii "p"], [ascii "s"], [ascii "s", ascii "l"]]

theorem findLines_find : FindPrints exSrc [] true [ascii "d"] findLines := by
  refine FindPrints.cons (root := ascii "d") (q := [ascii "d"]) (order := findOrder) (lines := []) (by decide) (by decide)
    (fun target t e => by cases e) rfl (by decide) ?_ .nil
  intro p
  constructor
  · intro h
    refine ⟨?_, Or.inr rfl⟩
    have : ∀ p ∈ findOrder, exSrc.Has [ascii "d"] p := by unfold Src.Has; decide
    exact this p h
  · rintro ⟨h, _⟩
    obtain ⟨x, hx⟩ := Option.ne_none_iff_exists'.mp h
    have := exSrc_nodes hx
    simp only [List.mem_cons, Prod.mk.injEq, List.not_mem_nil, or_false, List.cons_append, List.nil_append, List.cons.injEq, reduceCtorEq, false_and, true_and, false_or] at this
    rcases this with h | h | h | h | h <;> rw [h.1] <;> decide

/-- the hypotheses of `C83_find` are met -/
example : SameArchive (writeArchive tripAdder.creator tripOrder) (writeArchive findAdder.creator [0, 1, 2, 3]) (packBytes tripAdder.contents)
    (packBytes findAdder.contents) := by
  obtain ⟨N, hN⟩ := tripAdder_written
  obtain ⟨N', hN'⟩ := findAdder_written
  exact (C83_find (o := exCreate) (o' := findOpts) (sys := exSys) (sys' := findSys) (s := exSrc) (cwd := []) rfl rfl rfl rfl rfl findLines_text findLines_find
    exSrc_wf rfl exEnv_quiet rfl exSys_walks hN rfl exEnv_quiet hN'
    ⟨by decide +kernel, by decide +kernel⟩ ⟨by decide +kernel, by decide +kernel⟩ (by decide +kernel) (by decide +kernel)
    (depth := 5) (depth' := 5) (by decide +kernel) (by decide +kernel)).1

/-- the hypotheses of `C83_find_ok` are met -/
example : (exCreate.run findSys).2 = .ok ↔ (findOpts.run findSys).2 = .ok :=
  C83_find_ok (s := exSrc) rfl rfl rfl rfl (by decide) rfl rfl rfl rfl rfl rfl findLines_text
    (fun cwd h => by have : cwd = [] := h; subst this; exact findLines_find) (fun _ => ⟨fun _ => rfl, fun _ => rfl⟩) exSrc_wf rfl exSys_walks exSys_returns

/-- `arx create -o x.arx -C d s f` and `arx create -o x.arx --strip-prefix d d/s d/f` -/
def baseOpts : CreateOpts := { exCreate with baseDir := some (ascii "d"), infiles := [ascii "s", ascii "f"] }
def prefixOpts : CreateOpts := { exCreate with stripPrefix := some (ascii "d"), infiles := [ascii "d/s", ascii "d/f"] }
def baseAdder : Adder := ((baseOpts.run exSys).1.filterMap CreateEv.adder?).headD Adder.new
def prefixAdder : Adder := ((prefixOpts.run exSys).1.filterMap CreateEv.adder?).headD Adder.new

theorem baseAdder_written : ∃ N, CreateEv.written N baseAdder ∈ (baseOpts.run exSys).1 :=
  CreateEv.written_of (by
    intro h
    have : ((baseOpts.run exSys).1.filterMap CreateEv.adder?).length = 1 := by decide +kernel
    rw [h] at this; cases this)

theorem prefixAdder_written : ∃ N, CreateEv.written N prefixAdder ∈ (prefixOpts.run exSys).1 :=
  CreateEv.written_of (by
    intro h
    have : ((prefixOpts.run exSys).1.filterMap CreateEv.adder?).length = 1 := by decide +kernel
    rw [h] at this; cases this)

example : baseAdder.creator.store.map (fun e => e.name) = [ascii "s", ascii "l", ascii "f"] := by decide +kernel

/-- the hypotheses of `C83_base_dir` are met -/
example : SameArchive (writeArchive baseAdder.creator [2, 0, 1]) (writeArchive prefixAdder.creator [2, 0, 1]) (packBytes baseAdder.contents)
    (packBytes prefixAdder.contents) := by
  obtain ⟨N, hN⟩ := baseAdder_written
  obtain ⟨N', hN'⟩ := prefixAdder_written
  exact (C83_base_dir (o := baseOpts) (o' := prefixOpts) (sys := exSys) (sys' := exSys) (s := exSrc) (cwd := []) (cwd' := [ascii "d"]) (d := ascii "d")
    rfl rfl rfl rfl rfl rfl (by decide) (by decide) rfl rfl exSrc_wf rfl rfl rfl exLeads ⟨fun _ => rfl, fun _ => rfl⟩ rfl exSys_walks hN exEnv_quiet rfl exSys_walks hN'
    ⟨by decide +kernel, by decide +kernel⟩ ⟨by decide +kernel, by decide +kernel⟩ (by decide +kernel) (by decide +kernel)
    (depth := 5) (depth' := 5) (by decide +kernel) (by decide +kernel)).1

/-- the same with lists -/
def baseSys : CreateSys := { exSys with text := fun p => if p = [ascii "list"] then some (ascii "s\ns/l\n") else some (ascii "d/s\nd/s/l\n") }
def baseListOpts : CreateOpts := { findOpts with baseDir := some (ascii "d") }
def prefixListOpts : CreateOpts := { findOpts with stripPrefix := some (ascii "d"), fileList := some (ascii "list2") }
def baseListAdder : Adder := ((baseListOpts.run baseSys).1.filterMap CreateEv.adder?).headD Adder.new
def prefixListAdder : Adder := ((prefixListOpts.run baseSys).1.filterMap CreateEv.adder?).headD Adder.new

theorem baseListAdder_written : ∃ N, CreateEv.written N baseListAdder ∈ (baseListOpts.run baseSys).1 :=
  CreateEv.written_of (by
    intro h
    have : ((baseListOpts.run baseSys).1.filterMap CreateEv.adder?).length = 1 := by decide +kernel
    rw [h] at this; cases this)

theorem prefixListAdder_written : ∃ N, CreateEv.written N prefixListAdder ∈ (prefixListOpts.run baseSys).1 :=
  CreateEv.written_of (by
    intro h
    have : ((prefixListOpts.run baseSys).1.filterMap CreateEv.adder?).length = 1 := by decide +kernel
    rw [h] at this; cases this)

/-- the hypotheses of `C83_base_dir_list` are met -/
example : SameArchive (writeArchive baseListAdder.creator [0, 1]) (writeArchive prefixListAdder.creator [0, 1]) (packBytes baseListAdder.contents)
    (packBytes prefixListAdder.contents) := by
  obtain ⟨N, hN⟩ := baseListAdder_written
  obtain ⟨N', hN'⟩ := prefixListAdder_written
  exact (C83_base_dir_list (o := baseListOpts) (o' := prefixListOpts) (sys := baseSys) (sys' := baseSys) (s := exSrc) (cwd := []) (cwd' := [ascii "d"]) (d := ascii "d")
    (lines := [ascii "s", ascii "s/l"]) rfl rfl rfl rfl rfl rfl (by decide) (by decide) rfl
    (.line (l := ascii "s") (by decide) (by decide) (.line (l := ascii "s/l") (by decide) (by decide) .empty)) rfl
    (.line (l := ascii "d/s") (by decide) (by decide) (.line (l := ascii "d/s/l") (by decide) (by decide) .empty))
    rfl exSrc_wf rfl rfl rfl exLeads ⟨fun _ => rfl, fun _ => rfl⟩ hN exEnv_quiet hN'
    ⟨by decide +kernel, by decide +kernel⟩ ⟨by decide +kernel, by decide +kernel⟩ (by decide +kernel) (by decide +kernel)
    (depth := 5) (depth' := 5) (by decide +kernel) (by decide +kernel)).1

end Arx
