import Verif.Proof.MountList
import Verif.Props.Creation
/-!
# Properties of the mounted archive (C21–C31)
-/
namespace Arx

/-! ## A concrete mount -/

def exBytes : ContentAddr → GetBytes := fun c => if c = ⟨1, 0⟩ then .found (ascii "xyz") else .missing

/-- the example archive of `Props/Creation`, mounted whole -/
def exFs : FsCfg := ⟨exArchive, exArchive.root, exBytes⟩

/-- the specification map of the example (any one satisfying the relation) -/
theorem exSpec : ∃ m, SpecRun PathMap.empty exReqs m := (spec_exists exWritten).imp (fun _ h => h.1)

noncomputable def exMap : PathMap := exSpec.choose
theorem exMap_spec : SpecRun PathMap.empty exReqs exMap := exSpec.choose_spec

theorem exMounted : Mounted exReqs exMap exFs [] := ⟨exWritten, exMap_spec, Or.inl ⟨rfl, rfl⟩⟩

/-- the same archive with directory `b` as root -/
def exFsB : FsCfg := ⟨exArchive, ⟨3, 1⟩, exBytes⟩
theorem exMountedB : Mounted exReqs exMap exFsB [ascii "b"] :=
  ⟨exWritten, exMap_spec, Or.inr ⟨ascii "b", by decide, by decide⟩⟩

/-! ## From the mount to its table -/

theorem fromPathRef_eq {p q : Bytes} (h : RPath.fromPathRef p = .ok q) : q = p := by
  simp only [RPath.fromPathRef] at h
  split at h
  · cases h
  · split at h
    · cases h
    · split at h
      · cases h; rfl
      · cases h

def dummyBuilder : Builder Unit Unit Unit := ⟨fun _ _ => .ok (), fun _ _ => .ok (), fun _ _ => .ok ()⟩

theorem dummy_total (a : Archive) : DirTotal a dummyBuilder := by
  intro i r h
  exact ⟨(), rfl⟩

theorem Good.dummy {a : Archive} {m : PathMap} {P : List (List Bytes)} (G : Good a m P) {p : RPath} {r : Range} {u : Unit}
    (h : a.getEntry dummyBuilder p = .ok (.dir r u)) :
    RangeIs P (comps p) r.offset r.count ∧ ∃ n, m (comps p) = some n ∧ n.isDir = true := by
  simp only [Archive.getEntry] at h
  by_cases hc : comps p = []
  · rw [hc] at h; simp [Archive.getLoop] at h
  have hroot : RangeIs P [] a.root.offset a.root.count := by rw [G.root.1]; exact G.root.2
  rcases G.getLoop (dummy_total a) (comps p) [] a.root hc hroot with ⟨i, hi, he⟩ | ⟨_, he⟩ | ⟨_, _, _, _, _, _, _, _, _, _, he⟩
  · rw [he] at h
    simp only [List.nil_append] at hi
    obtain ⟨row, n, h1, h2, h3, h4⟩ := G.create_spec dummyBuilder hi
    rw [h4] at h
    cases hk : n.kind with
    | dir =>
      rw [hk] at h
      simp [dummyBuilder, Except.map] at h
      rw [← h]
      exact ⟨(G.rowRange hi h1 h2 hk).1, n, h2, by simp [Node.isDir, hk, Kind.isDir]⟩
    | file => rw [hk] at h; simp [dummyBuilder, Except.map] at h
    | link => rw [hk] at h; simp [dummyBuilder, Except.map] at h
  · rw [he] at h; cases h
  · rw [he] at h; cases h

theorem zip_filter_dot (cs : List Bytes) : ((cs.filter (· ≠ CUR)).zip cs).all (fun x => x.1 = x.2) = true ↔
    ∃ a b, cs = a ++ b ∧ CUR ∉ a ∧ ∀ c ∈ b, c = CUR := by
  induction cs with
  | nil => exact ⟨fun _ => ⟨[], [], rfl, by simp, by simp⟩, fun _ => rfl⟩
  | cons c cs ih =>
    by_cases hc : c = CUR
    · subst hc
      rw [List.filter_cons_of_neg (by simp)]
      constructor
      · intro h
        refine ⟨[], CUR :: cs, rfl, by simp, ?_⟩
        cases hf : cs.filter (· ≠ CUR) with
        | nil =>
          intro x hx
          rcases List.mem_cons.mp hx with rfl | hx
          · rfl
          · exact Classical.byContradiction (fun hne => by
              have : x ∈ cs.filter (· ≠ CUR) := List.mem_filter.mpr ⟨hx, by simpa using hne⟩
              rw [hf] at this; cases this)
        | cons d t =>
          have hd : d ∈ cs.filter (· ≠ CUR) := by rw [hf]; simp
          rw [hf] at h
          simp only [List.zip_cons_cons, List.all_cons, Bool.and_eq_true, decide_eq_true_eq] at h
          have := (List.mem_filter.mp hd).2
          rw [h.1] at this; simp at this
      · rintro ⟨a, b, e, ha, hb⟩
        have : cs.filter (· ≠ CUR) = [] := by
          cases a with
          | nil =>
            refine List.filter_eq_nil_iff.mpr (fun x hx => ?_)
            simp only [List.nil_append] at e
            simp [hb x (by rw [← e]; simp [hx])]
          | cons x a => simp only [List.cons_append, List.cons.injEq] at e; exact absurd (by rw [e.1]; simp) ha
        rw [this]; rfl
    · rw [List.filter_cons_of_pos (by simpa using hc)]
      simp only [List.zip_cons_cons, List.all_cons, decide_true, Bool.true_and]
      rw [ih]
      constructor
      · rintro ⟨a, b, e, ha, hb⟩
        exact ⟨c :: a, b, by rw [e]; rfl, by simp [ha, Ne.symm hc], hb⟩
      · rintro ⟨a, b, e, ha, hb⟩
        cases a with
        | nil =>
          simp only [List.nil_append] at e
          exact absurd (hb c (by rw [← e]; simp)) hc
        | cons x a =>
          simp only [List.cons_append, List.cons.injEq] at e
          exact ⟨a, b, e.2, fun h => ha (by simp [h]), hb⟩

/-- `RelativePath::from_path` accepts exactly the texts of `RootName`. -/
theorem fromPathRef_iff (p : Bytes) : RPath.fromPathRef p = .ok p ↔ RootName p := by
  have key : ((stdComps p).zip (comps p)).all (fun x => x.1 = x.2) = true ↔ ∃ a b, comps p = a ++ b ∧ CUR ∉ a.tail ∧ ∀ c ∈ b, c = CUR := by
    unfold stdComps
    cases hp : comps p with
    | nil => exact ⟨fun _ => ⟨[], [], rfl, by simp, by simp⟩, fun _ => rfl⟩
    | cons c cs =>
      simp only [List.zip_cons_cons, List.all_cons, decide_true, Bool.true_and]
      rw [zip_filter_dot]
      constructor
      · rintro ⟨a, b, e, ha, hb⟩; exact ⟨c :: a, b, by rw [e]; rfl, ha, hb⟩
      · rintro ⟨a, b, e, ha, hb⟩
        cases a with
        | nil => simp only [List.nil_append] at e; exact ⟨[], cs, rfl, by simp, fun x hx => hb x (by rw [← e]; simp [hx])⟩
        | cons x a => simp only [List.cons_append, List.cons.injEq] at e; exact ⟨a, b, e.2, ha, hb⟩
  unfold RPath.fromPathRef RootName
  cases hv : validUtf8 p with
  | false => simp
  | true =>
    simp only [Bool.not_true, Bool.false_eq_true, if_false, true_and]
    by_cases hs : p.head? = some SEP
    · rw [if_pos hs]
      constructor
      · intro h; cases h
      · rintro ⟨h, _⟩; exact absurd hs h
    · rw [if_neg hs]
      by_cases hz : ((stdComps p).zip (comps p)).all (fun x => x.1 = x.2) = true
      · rw [if_pos hz]; exact ⟨fun _ => ⟨hs, key.mp hz⟩, fun _ => rfl⟩
      · rw [if_neg hz]
        constructor
        · intro h; cases h
        · rintro ⟨_, h⟩; exact absurd (key.mpr h) hz

theorem mountRoot_some {a : Archive} {rd : Bytes} {rg : Range} (h : mountRoot a (some rd) = some rg) :
    RPath.fromPathRef rd = .ok rd ∧ a.getEntry dummyBuilder rd = .ok (.dir rg ()) := by
  simp only [mountRoot] at h
  split at h
  · cases h
  · rename_i rp hrp
    have := fromPathRef_eq hrp; subst this
    refine ⟨hrp, ?_⟩
    split at h
    · rename_i r u he; cases h; exact he
    · cases h

theorem Mounted.good {rs : List AddReq} {m : PathMap} {cfg : FsCfg} {d0 : List Bytes} (h : Mounted rs m cfg d0) :
    ∃ P, Good cfg.a m P ∧ RangeIs P d0 cfg.root.offset cfg.root.count ∧
      (d0 = [] ∨ ∃ n, m d0 = some n ∧ n.isDir = true) := by
  obtain ⟨P, G⟩ := h.written.good' h.spec
  refine ⟨P, G, ?_⟩
  rcases h.root with ⟨rfl, hr⟩ | ⟨rd, rfl, hr⟩
  · rw [hr, G.root.1]; exact ⟨G.root.2, Or.inl rfl⟩
  · have := G.dummy (mountRoot_some hr).2
    exact ⟨this.1, Or.inr this.2⟩

/-! ## C21 -/

/-- A mount just started, with caches of any capacity. -/
def FsState.fresh (resolveCap attrCap : Nat) : FsState :=
  { resolve := ⟨resolveCap, []⟩, attr := ⟨attrCap, []⟩, region := fun _ => none }

theorem CacheInv.fresh (cfg : FsCfg) (rc ac : Nat) (h : 0 < ac) : CacheInv cfg (fun _ => 0) (FsState.fresh rc ac) :=
  ⟨fun k v h => by simp [FsState.fresh] at h, fun i a h => by simp [FsState.fresh] at h, h,
    fun _ _ => rfl, fun ino b c h => by simp [FsState.fresh] at h⟩

/-- **C21.** For every created archive, every mounted directory, every history of requests and every
cache capacity: the replies are those of the implementation without caches. -/
theorem C21_caches_invisible {rs : List AddReq} {m : PathMap} {cfg : FsCfg} {d0 : List Bytes}
    (h : Mounted rs m cfg d0) (resolveCap attrCap : Nat) (hcap : 0 < attrCap) (reqs : List FReq) :
    ((FsState.fresh resolveCap attrCap).run cfg reqs).1 = (pureRun cfg (fun _ => 0) reqs).1 := by
  obtain ⟨P, G, hroot, _⟩ := h.good
  exact (CacheInv.run G hroot reqs (CacheInv.fresh cfg _ _ hcap)).1

/-- with the capacities of the code -/
theorem C21_default {rs : List AddReq} {m : PathMap} {cfg : FsCfg} {d0 : List Bytes}
    (h : Mounted rs m cfg d0) (reqs : List FReq) :
    (FsState.init.run cfg reqs).1 = (pureRun cfg (fun _ => 0) reqs).1 :=
  C21_caches_invisible h _ _ (by decide) reqs

/-- caches of size 1, with an eviction and a repeated negative lookup -/
example : ((FsState.fresh 1 1).run exFs
    [.lookup 1 (ascii "a"), .lookup 1 (ascii "zz"), .lookup 1 (ascii "b"), .lookup 1 (ascii "zz"), .getattr 2]).1.map
      (fun r => match r with | .entry a => a.ino | .attr a => a.ino | _ => 0) = [2, 0, 3, 0, 2] := by decide

/-- every reachable state keeps the invariant, for the number of opens the log shows -/
theorem Mounted.inv {rs : List AddReq} {m : PathMap} {cfg : FsCfg} {d0 : List Bytes}
    (h : Mounted rs m cfg d0) (reqs : List FReq) :
    CacheInv cfg (pureRun cfg (fun _ => 0) reqs).2 (FsState.init.run cfg reqs).2 := by
  obtain ⟨P, G, hroot, _⟩ := h.good
  exact (CacheInv.run G hroot reqs (CacheInv.init cfg)).2

theorem Mounted.step {rs : List AddReq} {m : PathMap} {cfg : FsCfg} {d0 : List Bytes}
    (h : Mounted rs m cfg d0) {s : FsState} (hs : FsReach cfg s) :
    ∃ opens, CacheInv cfg opens s ∧ ∀ r, (s.step cfg r).1 = (pureStep cfg opens r).1 := by
  obtain ⟨reqs, rfl⟩ := hs
  obtain ⟨P, G, hroot, _⟩ := h.good
  exact ⟨_, h.inv reqs, fun r => ((h.inv reqs).step G hroot r).1⟩

theorem FsState.run_append (cfg : FsCfg) (a b : List FReq) : ∀ s : FsState,
    s.run cfg (a ++ b) = ((s.run cfg a).1 ++ ((s.run cfg a).2.run cfg b).1, ((s.run cfg a).2.run cfg b).2) := by
  induction a with
  | nil => intro s; rfl
  | cons r a ih => intro s; simp only [List.cons_append, FsState.run, ih]

theorem FsReach.step {cfg : FsCfg} {s : FsState} (h : FsReach cfg s) (r : FReq) : FsReach cfg (s.step cfg r).2 := by
  obtain ⟨reqs, rfl⟩ := h
  exact ⟨reqs ++ [r], by rw [FsState.run_append]; rfl⟩

theorem FsReach.run {cfg : FsCfg} {s : FsState} (h : FsReach cfg s) (rs : List FReq) : FsReach cfg (s.run cfg rs).2 := by
  obtain ⟨reqs, rfl⟩ := h
  exact ⟨reqs ++ rs, by rw [FsState.run_append]⟩

theorem FsReach.init (cfg : FsCfg) : FsReach cfg FsState.init := ⟨[], rfl⟩

/-! ## C22 -/

/-- **C22.** Inode 1 is the root; entry `i` has inode `i + 2`, never 0 or 1; different entries have
different inodes; converting back gives the entry, for every index below 2^32. -/
theorem C22_inodes : inoIdx 1 = some none ∧
    (∀ i, i < 2 ^ 32 → inoIdx (idxIno i) = some (some i)) ∧
    (∀ i, idxIno i ≠ 0 ∧ idxIno i ≠ 1) ∧
    (∀ i j, idxIno i = idxIno j → i = j) ∧
    (∀ ino i, 2 ≤ ino → ino < 2 ^ 32 + 2 → inoIdx ino = some (some i) → idxIno i = ino) := by
  refine ⟨rfl, ?_, ?_, ?_, ?_⟩
  · intro i hi; simp [inoIdx, idxIno, asU32_lt hi]
  · intro i; simp [idxIno]
  · intro i j h; simpa [idxIno] using h
  · intro ino i h1 h2 h
    simp only [inoIdx] at h
    rw [if_neg (by omega), if_neg (by omega), asU32_lt (by omega)] at h
    simp at h; simp [idxIno]; omega

/-- The inodes of a mounted archive are exactly 1 and the numbers 2 … n+1, and each stands for one
path. -/
theorem C22_inode_paths {rs : List AddReq} {m : PathMap} {cfg : FsCfg} {d0 : List Bytes} (h : Mounted rs m cfg d0) :
    (∀ ino, 2 ≤ ino → ino < cfg.a.entries.length + 2 → ∃ p n, inoPath cfg d0 ino = some p ∧ m p = some n) ∧
    (∀ ino p, inoPath cfg d0 ino = some p → ino = 1 ∨ (2 ≤ ino ∧ ino < cfg.a.entries.length + 2)) ∧
    (∀ p n, m p = some n → ∃ ino, 2 ≤ ino ∧ inoPath cfg d0 ino = some p ∧
      ∀ ino', 2 ≤ ino' → inoPath cfg d0 ino' = some p → ino' = ino) := by
  obtain ⟨P, G, hroot, _⟩ := h.good
  have hlen := G.len
  refine ⟨?_, ?_, ?_⟩
  · intro ino h2 hlt
    have hi : ino - 2 < P.length := by omega
    have hp : P[ino - 2]? = some P[ino - 2] := List.getElem?_eq_getElem hi
    obtain ⟨n, hn⟩ := (G.dom _).mp (List.mem_of_getElem? hp)
    have := G.inoPath_of (cfg := cfg) (d0 := d0) hp
    rw [show ino - 2 + 2 = ino by omega] at this
    exact ⟨_, n, this, hn⟩
  · intro ino p hp
    rcases G.inoPath_cases hp with ⟨h1, _⟩ | ⟨i, h1, h2, _⟩
    · exact Or.inl h1
    · have := (List.getElem?_eq_some_iff.mp h2).1
      right; omega
  · intro p n hn
    obtain ⟨i, hi⟩ := G.idx_of hn
    refine ⟨i + 2, by omega, G.inoPath_of hi, ?_⟩
    intro ino' h2 hp'
    rcases G.inoPath_cases hp' with ⟨h1, _⟩ | ⟨j, h1, h3, _⟩
    · omega
    · have := G.idx_inj h3 hi; omega

example : inoPath exFs [] 5 = some [ascii "b", ascii "x"] := by decide

/-! ## C28, C27 -/

theorem inoPath_ge2 {cfg : FsCfg} {d0 d1 : List Bytes} {ino : Nat} (h : 2 ≤ ino) :
    inoPath cfg d0 ino = inoPath cfg d1 ino := by
  simp only [inoPath]
  rw [if_neg (by omega), if_neg (by omega), if_neg (by omega), if_neg (by omega)]

/-- **C28.** In every reachable state, `getattr` of an entry answers its attributes (`attrSpec`: size,
blocks, kind, uid, gid, mtime), `readlink` of a link answers its target and of anything else ENOLINK,
`opendir` succeeds exactly on directories; the root has its fixed attributes. -/
theorem C28_attributes {rs : List AddReq} {m : PathMap} {cfg : FsCfg} {d0 : List Bytes} (h : Mounted rs m cfg d0)
    (hfit : AttrsFit m) {s : FsState} (hs : FsReach cfg s) :
    (∀ ino p n, 2 ≤ ino → inoPath cfg d0 ino = some p → m p = some n →
      (∃ ns, KidsOf m p ns ∧ (s.step cfg (.getattr ino)).1 = .attr (attrSpec ino ns.length n)) ∧
      (s.step cfg (.readlink ino)).1 = (match n.kind with | .link t => .data t | _ => .error .ENOLINK) ∧
      (s.step cfg (.opendir ino)).1 = (if n.isDir then .opened else .error .ENOTDIR)) ∧
    (s.step cfg (.getattr 1)).1 =
      .attr { ino := 1, size := 0, blocks := 1, kind := .dir, perm := 0o555, uid := 1000, gid := 1000, mtime := 0, nlink := 2 } ∧
    (s.step cfg (.readlink 1)).1 = .error .ENOLINK ∧ (s.step cfg (.opendir 1)).1 = .opened := by
  obtain ⟨opens, I, hstep⟩ := h.step hs
  obtain ⟨P, G, hroot, _⟩ := h.good
  refine ⟨?_, ?_, ?_, ?_⟩
  · intro ino p n h2 hp hn
    rcases G.inoPath_cases hp with ⟨h1, _⟩ | ⟨i, rfl, hi, hidx⟩
    · omega
    obtain ⟨r, n', g1, g2, g3⟩ := G.row_at hi
    rw [hn] at g2; cases g2
    obtain ⟨_, _, _, _, _, _, q7⟩ := g3
    refine ⟨⟨kids P p, G.kidsOf p, ?_⟩, ?_, ?_⟩
    · rw [hstep]
      simp only [pureStep, hidx, G.attrOf hi hn (hfit p n hn)]
    · simp only [FsState.step, FsState.readlink, hidx, g1]
      cases hk : n.kind <;> rw [hk] at q7 <;> simp [q7.1, EntryType.tryFrom]
      exact q7.2.1
    · simp only [FsState.step, FsState.opendir, hidx, g1]
      cases hk : n.kind <;> rw [hk] at q7 <;> simp [q7.1, EntryType.tryFrom, Node.isDir, hk, Kind.isDir]
  · simp [FsState.step, FsState.getattr, inoIdx, rootAttr]
  · simp [FsState.step, FsState.readlink, inoIdx]
  · simp [FsState.step, FsState.opendir, inoIdx]

/-- What `attrSpec` says, spelled out: the block count covers the size with less than 4 KiB of slack. -/
theorem C28_blocks (ino k : Nat) (n : Node) (hn : n.isDir = false) :
    (attrSpec ino k n).size ≤ (attrSpec ino k n).blocks * 512 ∧
    (attrSpec ino k n).blocks * 512 < (attrSpec ino k n).size + 4096 := by
  cases hk : n.kind with
  | dir => simp [Node.isDir, hk, Kind.isDir] at hn
  | file size c => simp [attrSpec, hk, Kind.etype]; omega
  | link t => simp [attrSpec, hk, Kind.etype]; omega

theorem C28_sizes (ino k : Nat) (n : Node) :
    (∀ size c, n.kind = .file size c → (attrSpec ino k n).size = size) ∧
    (∀ t, n.kind = .link t → (attrSpec ino k n).size = t.length) ∧
    (attrSpec ino k n).mtime = n.info.mtime ∧
    (n.info.owner < 2 ^ 32 → (attrSpec ino k n).uid = n.info.owner) ∧
    (n.info.group < 2 ^ 32 → (attrSpec ino k n).gid = n.info.group) := by
  refine ⟨?_, ?_, rfl, fun h => asU32_lt h, fun h => asU32_lt h⟩
  · intro size c h; simp [attrSpec, h]
  · intro t h; simp [attrSpec, h]

/-- the attribute cache alone, for any archive -/
def AttrInv (cfg : FsCfg) (s : FsState) : Prop :=
  (∀ i at', (i, at') ∈ s.attr.items → cfg.a.attrOf i = some at') ∧ 0 < s.attr.cap

theorem AttrInv.cachedAttr {cfg : FsCfg} {s : FsState} (I : AttrInv cfg s) (idx : Nat) :
    (s.cachedAttr cfg idx).1 = cfg.a.attrOf idx ∧ AttrInv cfg (s.cachedAttr cfg idx).2 := by
  simp only [FsState.cachedAttr]
  split
  · rename_i at' c h
    obtain ⟨h1, h2, h3⟩ := Lru.get_some h
    exact ⟨(I.1 _ _ h1).symm, fun i x hx => I.1 i x (h2 _ hx), by simp only [h3]; exact I.2⟩
  · split
    · rename_i h; exact ⟨h.symm, I⟩
    · rename_i at' h
      have hg := Lru.get_put s.attr idx at' I.2
      split
      · rename_i v c hc
        obtain ⟨h1, h2, h3⟩ := Lru.get_some hc
        rw [hc] at hg; simp at hg; subst hg
        refine ⟨h.symm, ?_, by simp only [h3]; exact I.2⟩
        intro i x hx
        rcases Lru.mem_put (h2 _ hx) with e | e
        · cases e; exact h
        · exact I.1 i x e
      · rename_i hc; rw [hc] at hg; cases hg

/-- attributes in a reply -/
def Reply.attrs : Reply → List Attr
  | .entry a => [a]
  | .attr a => [a]
  | _ => []

theorem AttrInv.step {cfg : FsCfg} {s : FsState} (I : AttrInv cfg s) (r : FReq) :
    AttrInv cfg (s.step cfg r).2 ∧
    ∀ at' ∈ (s.step cfg r).1.attrs, at' = rootAttr ∨ ∃ i, cfg.a.attrOf i = some at' := by
  cases r with
  | lookup parent name =>
    simp only [FsState.step, FsState.lookup]
    have hans : ∀ (idx : Option Nat) (s : FsState), AttrInv cfg s →
        AttrInv cfg (match idx with
          | none => ((.error .ENOENT, s) : Reply × FsState)
          | some idx => match s.cachedAttr cfg idx with | (none, s) => (.panic, s) | (some a, s) => (.entry a, s)).2 ∧
        ∀ at' ∈ (match idx with
          | none => ((.error .ENOENT, s) : Reply × FsState)
          | some idx => match s.cachedAttr cfg idx with | (none, s) => (.panic, s) | (some a, s) => (.entry a, s)).1.attrs,
          at' = rootAttr ∨ ∃ i, cfg.a.attrOf i = some at' := by
      intro idx s I
      cases idx with
      | none => exact ⟨I, by simp [Reply.attrs]⟩
      | some idx =>
        obtain ⟨a1, a2⟩ := I.cachedAttr idx
        simp only
        revert a1 a2
        cases FsState.cachedAttr cfg s idx with
        | mk x y =>
          intro a1 a2
          cases x with
          | none => exact ⟨a2, by simp [Reply.attrs]⟩
          | some v => exact ⟨a2, by simp [Reply.attrs]; exact Or.inr ⟨idx, a1.symm⟩⟩
    split
    · exact ⟨I, by simp [Reply.attrs]⟩
    · split
      · rename_i idx c h
        exact hans idx { s with resolve := c } I
      · split
        · exact ⟨I, by simp [Reply.attrs]⟩
        · split
          · exact ⟨I, by simp [Reply.attrs]⟩
          · refine hans _ _ ?_
            exact I
  | getattr ino =>
    simp only [FsState.step, FsState.getattr]
    split
    · exact ⟨I, by simp [Reply.attrs]⟩
    · exact ⟨I, by simp [Reply.attrs]⟩
    · rename_i idx _
      obtain ⟨a1, a2⟩ := I.cachedAttr idx
      revert a1 a2
      cases FsState.cachedAttr cfg s idx with
      | mk x y =>
        intro a1 a2
        cases x with
        | none => exact ⟨a2, by simp [Reply.attrs]⟩
        | some v => exact ⟨a2, by simp [Reply.attrs]; exact Or.inr ⟨idx, a1.symm⟩⟩
  | readlink ino =>
    simp only [FsState.step, FsState.readlink]
    repeat' split
    all_goals exact ⟨I, by simp [Reply.attrs]⟩
  | opendir ino =>
    simp only [FsState.step, FsState.opendir]
    repeat' split
    all_goals exact ⟨I, by simp [Reply.attrs]⟩
  | releasedir ino => exact ⟨I, by simp [FsState.step, Reply.attrs]⟩
  | «open» ino =>
    simp only [FsState.step, FsState.open]
    repeat' split
    all_goals exact ⟨I, by simp [Reply.attrs]⟩
  | read ino offset size =>
    simp only [FsState.step, FsState.read]
    repeat' split
    all_goals exact ⟨I, by simp [Reply.attrs]⟩
  | release ino =>
    simp only [FsState.step, FsState.release]
    repeat' split
    all_goals exact ⟨I, by simp [Reply.attrs]⟩
  | readdir ino offset bufSize =>
    simp only [FsState.step, FsState.readdir]
    repeat' split
    all_goals exact ⟨I, by simp [Reply.attrs]⟩

theorem AttrInv.run {cfg : FsCfg} (rs : List FReq) : ∀ {s : FsState}, AttrInv cfg s →
    ∀ r ∈ (s.run cfg rs).1, ∀ at' ∈ r.attrs, at' = rootAttr ∨ ∃ i, cfg.a.attrOf i = some at' := by
  induction rs with
  | nil => intro s _ r hr; simp [FsState.run] at hr
  | cons q rs ih =>
    intro s I r hr
    simp only [FsState.run, List.mem_cons] at hr
    rcases hr with rfl | hr
    · exact (I.step q).2
    · exact ih (I.step q).1 r hr

theorem attrOf_perm {a : Archive} {i : Nat} {at' : Attr} (h : a.attrOf i = some at') :
    ∃ r, a.entries[i]? = some r ∧ at'.perm = (r.rights % 2 ^ 16) &&& 0b1111_1111_0110_1101 := by
  simp only [Archive.attrOf] at h
  split at h
  · cases h
  · rename_i r hr
    split at h
    · cases h
    · rw [Option.ite_none_left_eq_some] at h
      obtain ⟨_, h⟩ := h
      cases h; exact ⟨r, hr, rfl⟩

theorem perm_bits (x b : Nat) : ((x % 2 ^ 16) &&& 0b1111_1111_0110_1101).testBit b =
    (x.testBit b && decide (b < 16 ∧ b ≠ 1 ∧ b ≠ 4 ∧ b ≠ 7)) := by
  rw [Nat.testBit_and, Nat.testBit_mod_two_pow]
  by_cases hb : b < 16
  · have : ∀ b, b < 16 → (0b1111_1111_0110_1101 : Nat).testBit b = decide (b < 16 ∧ b ≠ 1 ∧ b ≠ 4 ∧ b ≠ 7) := by decide
    rw [this b hb]; simp [hb]
  · simp [hb]

/-- **C27.** For every archive whatsoever, every mounted range and every history of requests: no
attributes in any reply contain a write permission (bits 1, 4, 7 of the mode). -/
theorem C27_never_writable (cfg : FsCfg) (reqs : List FReq) :
    ∀ r ∈ (FsState.init.run cfg reqs).1, ∀ at' ∈ r.attrs,
      at'.perm.testBit 1 = false ∧ at'.perm.testBit 4 = false ∧ at'.perm.testBit 7 = false := by
  intro r hr at' ha
  have I : AttrInv cfg FsState.init := ⟨fun i a h => by simp [FsState.init] at h, by decide⟩
  rcases I.run reqs r hr at' ha with rfl | ⟨i, hi⟩
  · decide
  · obtain ⟨row, _, hp⟩ := attrOf_perm hi
    rw [hp]
    simp only [perm_bits]
    simp

/-- **C27**, the other bits: what is reported for an entry is its mode's low 16 bits without the write
bits. -/
theorem C27_other_bits (ino k : Nat) (n : Node) (b : Nat) :
    (attrSpec ino k n).perm.testBit b = (n.info.rights.testBit b && decide (b < 16 ∧ b ≠ 1 ∧ b ≠ 4 ∧ b ≠ 7)) :=
  perm_bits _ _

example : (FsState.init.step exFs (.getattr 5)).1.attrs.map (fun a => (a.size, a.blocks, a.perm)) = [(3, 8, 0o440)] := by decide

/-! ## C23 -/

/-- a lookup, if the attributes of the entry it leads to can be given -/
theorem Mounted.lookup_at {rs : List AddReq} {m : PathMap} {cfg : FsCfg} {d0 : List Bytes} (h : Mounted rs m cfg d0)
    {s : FsState} (hs : FsReach cfg s) {ino : Nat} {d : List Bytes} (name : Bytes)
    (hi : inoPath cfg d0 ino = some d) (hd : ino = 1 ∨ ∃ n, m d = some n ∧ n.isDir = true)
    (hfit : ∀ n, m (d ++ [name]) = some n → n.HasAttr) :
    match m (d ++ [name]) with
    | none => (s.step cfg (.lookup ino name)).1 = .error .ENOENT
    | some _ => ∃ at', (s.step cfg (.lookup ino name)).1 = .entry at' ∧ AttrAt cfg m (d ++ [name]) at' := by
  obtain ⟨opens, I, hstep⟩ := h.step hs
  obtain ⟨P, G, hroot, _⟩ := h.good
  obtain ⟨rg, hrg, hR⟩ := G.entryRange hroot hi hd
  rw [hstep]
  simp only [pureStep, hrg]
  rcases G.find_spec hR name with ⟨j, hj, hP, hf⟩ | ⟨hn, hf⟩
  · obtain ⟨n, hn⟩ := (G.dom _).mp (List.mem_of_getElem? hP)
    simp only [hf, hn]
    rw [show j + rg.offset = rg.offset + j by omega, G.attrOf hP hn (hfit n hn)]
    refine ⟨_, rfl, n, kids P (d ++ [name]), hn, G.kidsOf _, ?_, ?_, rfl⟩
    · exact G.inoPath_of hP
    · simp [attrSpec]
  · simp only [hf, hn]

/-- **C23.** In every reachable state, `lookup(parent, name)` in a directory answers the attributes of
the child with exactly this name, and ENOENT iff there is none. -/
theorem C23_lookup {rs : List AddReq} {m : PathMap} {cfg : FsCfg} {d0 : List Bytes} (h : Mounted rs m cfg d0)
    (hfit : AttrsFit m) {s : FsState} (hs : FsReach cfg s) {ino : Nat} {d : List Bytes} (name : Bytes)
    (hi : inoPath cfg d0 ino = some d) (hd : ino = 1 ∨ ∃ n, m d = some n ∧ n.isDir = true) :
    match m (d ++ [name]) with
    | none => (s.step cfg (.lookup ino name)).1 = .error .ENOENT
    | some _ => ∃ at', (s.step cfg (.lookup ino name)).1 = .entry at' ∧ AttrAt cfg m (d ++ [name]) at' :=
  h.lookup_at hs name hi hd fun n hn => hfit _ n hn

example : ∃ n, exMap [ascii "b"] = some n ∧ n.isDir = true := by
  have := C01_read_back exWritten exMap_spec (ascii "b") (by decide)
  have hc : comps (ascii "b") = [ascii "b"] := by decide
  rw [hc] at this
  cases h : exMap [ascii "b"] with
  | none => rw [h] at this; exact absurd this (by decide)
  | some n =>
    refine ⟨n, rfl, ?_⟩
    rw [h] at this
    obtain ⟨e, h1, h2, _⟩ := this
    have hd : ∃ r d, exArchive.getEntry fullBuilder (ascii "b") = .ok (.dir r d) := ⟨_, _, rfl⟩
    obtain ⟨r, d, hd⟩ := hd
    rw [h1] at hd; cases hd
    obtain ⟨_, _, _, hk⟩ := h2
    cases hkk : n.kind with
    | dir => simp [Node.isDir, hkk, Kind.isDir]
    | file => rw [hkk] at hk; simp at hk
    | link => rw [hkk] at hk; simp at hk

/-- **C23**, whole paths: resolving a path name by name from the mount root, in any reachable state,
reaches exactly the entry `Arx::get_entry` gives for the same path below the mounted directory, and
fails iff `get_entry` fails. -/
theorem C23_resolve {rs : List AddReq} {m : PathMap} {cfg : FsCfg} {d0 : List Bytes} (h : Mounted rs m cfg d0)
    {s : FsState} (hs : FsReach cfg s) (cs : List Bytes) (hcs : cs ≠ []) (path : RPath)
    (hpath : comps path = d0 ++ cs) (hfit : ∀ q n, d0.length < q.length → q <+: d0 ++ cs → m q = some n → n.HasAttr) :
    match cfg.a.getEntry fullBuilder path with
    | .ok e => ∃ at', (resolveFs cfg s 1 cs).1 = some at' ∧ at'.ino = e.common.idx + 2 ∧ AttrAt cfg m (d0 ++ cs) at'
    | .error x => x = .notFound ∧ (resolveFs cfg s 1 cs).1 = none := by
  obtain ⟨P, G, hroot, hd0⟩ := h.good
  -- generalised over the directory reached so far
  have key : ∀ (cs : List Bytes) (d : List Bytes) (ino : Nat) (s : FsState), FsReach cfg s → cs ≠ [] →
      inoPath cfg d0 ino = some d → (ino = 1 ∨ ∃ n, m d = some n ∧ n.isDir = true) →
      (∀ q n, d.length < q.length → q <+: d ++ cs → m q = some n → n.HasAttr) →
      match m (d ++ cs) with
      | some _ => ∃ at', (resolveFs cfg s ino cs).1 = some at' ∧ AttrAt cfg m (d ++ cs) at'
      | none => (resolveFs cfg s ino cs).1 = none := by
    intro cs
    induction cs with
    | nil => intro d ino s _ h; exact absurd rfl h
    | cons c cs ih =>
      intro d ino s hs _ hi hd hfit
      have happ : d ++ c :: cs = (d ++ [c]) ++ cs := by simp
      have hl := h.lookup_at hs c hi hd fun n hn => hfit _ n (by simp) (by rw [happ]; exact List.prefix_append _ _) hn
      have hs1 := hs.step (.lookup ino c)
      simp only [resolveFs]
      cases hm : m (d ++ [c]) with
      | none =>
        rw [hm] at hl; simp only at hl
        have hnone : m (d ++ c :: cs) = none := by
          cases hx : m (d ++ c :: cs) with
          | none => rfl
          | some n =>
            by_cases he : cs = []
            · subst he; rw [hm] at hx; cases hx
            · obtain ⟨dn, hdn, _⟩ := G.wf.ancestors _ n (d ++ [c]) hx ⟨by simp, by
                rw [happ]; intro e
                have := congrArg List.length e
                simp at this
                exact he this, by rw [happ]; exact List.prefix_append _ _⟩
              rw [hm] at hdn; cases hdn
        rw [hnone]
        simp only
        revert hl
        cases s.step cfg (.lookup ino c) with
        | mk x y => intro hl; simp only at hl; subst hl; rfl
      | some n =>
        rw [hm] at hl; simp only at hl
        obtain ⟨at', hr, hat⟩ := hl
        revert hr hs1
        cases s.step cfg (.lookup ino c) with
        | mk x y =>
          intro hs1 hr
          simp only at hr hs1; subst hr
          simp only
          by_cases he : cs = []
          · subst he
            simp only [if_true, hm]
            exact ⟨at', rfl, hat⟩
          · simp only [if_neg he]
            have hat0 := hat
            obtain ⟨n', ns, a1, a2, a3, a4, a5⟩ := hat
            rw [hm] at a1; cases a1
            have hkind : at'.kind = n.kind.etype := by rw [a5]; rfl
            by_cases hk : at'.kind = .dir
            · rw [if_pos hk]
              have hnd : n.isDir = true := by
                rw [hk] at hkind
                cases hkk : n.kind <;> rw [hkk] at hkind <;> simp [Kind.etype] at hkind
                simp [Node.isDir, hkk, Kind.isDir]
              have := ih (d ++ [c]) at'.ino y hs1 he (by rw [← a3]; exact inoPath_ge2 a4) (Or.inr ⟨n, hm, hnd⟩)
                (fun q n hq hp hn => hfit q n (by simp at hq; omega) (by rw [happ]; exact hp) hn)
              rw [happ]
              exact this
            · rw [if_neg hk]
              have hnone : m (d ++ c :: cs) = none := by
                cases hx : m (d ++ c :: cs) with
                | none => rfl
                | some n2 =>
                  obtain ⟨dn, hdn, hdd⟩ := G.wf.ancestors _ n2 (d ++ [c]) hx ⟨by simp, by
                    rw [happ]; intro e
                    have := congrArg List.length e
                    simp at this
                    exact he this, by rw [happ]; exact List.prefix_append _ _⟩
                  rw [hm] at hdn; cases hdn
                  have : n.kind = .dir := Kind.isDir_iff.mp hdd
                  rw [this] at hkind
                  exact absurd hkind hk
              rw [hnone]
  have hk := key cs d0 1 s hs hcs (by simp [inoPath]) (Or.inl rfl) hfit
  have hc1 := C01_read_back h.written h.spec path (by rw [hpath]; simp [hcs])
  rw [hpath] at hc1
  cases hx : m (d0 ++ cs) with
  | none =>
    rw [hx] at hk hc1
    simp only at hk hc1
    rw [hc1]; exact ⟨rfl, hk⟩
  | some n =>
    rw [hx] at hk hc1
    simp only at hk hc1
    obtain ⟨e, he, _⟩ := hc1
    obtain ⟨at', h1, h2⟩ := hk
    rw [he]
    refine ⟨at', h1, ?_, h2⟩
    -- inode of the entry
    obtain ⟨i, hi⟩ := G.idx_of hx
    have hloop : cfg.a.getEntry fullBuilder path = cfg.a.create fullBuilder i := by
      have hroot' : RangeIs P [] cfg.a.root.offset cfg.a.root.count := by rw [G.root.1]; exact G.root.2
      simp only [Archive.getEntry, hpath]
      rcases G.getLoop G.fullBuilder_total (d0 ++ cs) [] cfg.a.root (by simp [hcs]) hroot' with ⟨j, hj, hg⟩ | ⟨hn, _⟩ | ⟨_, _, _, _, _, _, _, _, hn, _⟩
      · simp only [List.nil_append] at hj
        rw [hg, G.idx_inj hj hi]
      · simp only [List.nil_append] at hn; rw [hx] at hn; cases hn
      · simp only [List.nil_append] at hn; rw [hx] at hn; cases hn
    obtain ⟨e', g1, _, _, g4, _⟩ := G.getEntryAt hi hx
    rw [hloop, g1] at he; cases he
    obtain ⟨_, _, _, _, a3, a4, _⟩ := h2
    rcases G.inoPath_cases (d0 := []) a3 with ⟨hh, _⟩ | ⟨j, hj, hPj, _⟩
    · omega
    · rw [hj, G.idx_inj hPj hi, g4]

example : ((resolveFs exFs FsState.init 1 [ascii "b", ascii "x"]).1.map (fun a => a.ino)) = some 5 ∧
    ((resolveFs exFsB FsState.init 1 [ascii "x"]).1.map (fun a => a.ino)) = some 5 ∧
    (resolveFs exFs FsState.init 1 [ascii "b", ascii "x", ascii "y"]).1 = none := by decide

end Arx
