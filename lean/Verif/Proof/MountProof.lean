import Verif.Spec.Mount
import Verif.Proof.WalkProof
/-!
# The mount: caches and lookups
-/
namespace Arx

/-! ## LRU -/

theorem Lru.get_some {K V : Type} [DecidableEq K] {c c' : Lru K V} {k : K} {v : V}
    (h : c.get k = (some v, c')) : (k, v) ∈ c.items ∧ (∀ x ∈ c'.items, x ∈ c.items) ∧ c'.cap = c.cap := by
  simp only [Lru.get] at h
  split at h
  · cases h
  · rename_i x hx
    obtain ⟨h1, h2⟩ := Prod.mk.inj h
    cases h1; subst h2
    have hk := List.find?_some hx
    simp at hk
    have hm := List.mem_of_find?_eq_some hx
    refine ⟨by rw [← hk]; exact hm, ?_, rfl⟩
    intro y hy
    simp only [List.mem_cons, List.mem_filter] at hy
    rcases hy with rfl | hy
    · exact hm
    · exact hy.1

theorem Lru.mem_put {K V : Type} [DecidableEq K] {c : Lru K V} {k : K} {v : V} {x : K × V}
    (h : x ∈ (c.put k v).items) : x = (k, v) ∨ x ∈ c.items := by
  have := (List.take_sublist _ _).subset h
  simp only [List.mem_cons, List.mem_filter] at this
  rcases this with h | h
  · exact Or.inl h
  · exact Or.inr h.1

theorem Lru.get_put {K V : Type} [DecidableEq K] (c : Lru K V) (k : K) (v : V) (h : 0 < c.cap) :
    ((c.put k v).get k).1 = some v := by
  obtain ⟨n, hn⟩ : ∃ n, c.cap = n + 1 := ⟨c.cap - 1, by omega⟩
  simp [Lru.put, Lru.get, hn]

/-! ## Inodes of an encoded archive -/

section
variable {cfg : FsCfg} {m : PathMap} {P : List (List Bytes)} (G : Good cfg.a m P)
include G

theorem Good.pathUp_iff {i : Nat} {p : List Bytes} :
    Arx.pathUp cfg.a cfg.a.entries.length i = some p ↔ P[i]? = some p := by
  have hlen := G.len
  constructor
  · intro h
    cases hp : P[i]? with
    | some q =>
      have h6 := G.length_path_le q.length q i (Nat.le_refl _) hp
      have h7 := (List.getElem?_eq_some_iff.mp hp).1
      rw [G.pathUp _ i q hp (by omega)] at h
      exact h
    | none =>
      have : P.length ≤ i := List.getElem?_eq_none_iff.mp hp
      cases hl : cfg.a.entries.length with
      | zero => rw [hl] at h; cases h
      | succ k =>
        rw [hl] at h
        have hn : cfg.a.entries[i]? = none := List.getElem?_eq_none_iff.mpr (by omega)
        simp [Arx.pathUp, Archive.getEntryAt, Archive.create, hn] at h
  · intro h
    have h6 := G.length_path_le p.length p i (Nat.le_refl _) h
    have h7 := (List.getElem?_eq_some_iff.mp h).1
    exact G.pathUp _ i p h (by omega)

theorem Good.idx_small {i : Nat} {p : List Bytes} (h : P[i]? = some p) : i < 2 ^ 32 := by
  have h7 := (List.getElem?_eq_some_iff.mp h).1
  have := G.small
  omega

theorem Good.inoPath_cases {d0 p : List Bytes} {ino : Nat} (h : inoPath cfg d0 ino = some p) :
    (ino = 1 ∧ p = d0) ∨ ∃ i : Nat, ino = i + 2 ∧ P[i]? = some p ∧ inoIdx ino = some (some i) := by
  simp only [inoPath] at h
  split at h
  · cases h
  · rename_i h0
    split at h
    · rename_i h1; cases h; exact Or.inl ⟨h1, rfl⟩
    · rename_i h1
      right
      have hp := G.pathUp_iff.mp h
      have hs := G.idx_small hp
      refine ⟨ino - 2, by omega, hp, ?_⟩
      simp [inoIdx, h0, h1, asU32_lt hs]

theorem Good.inoPath_of {d0 p : List Bytes} {i : Nat} (h : P[i]? = some p) : inoPath cfg d0 (i + 2) = some p := by
  have : inoPath cfg d0 (i + 2) = Arx.pathUp cfg.a cfg.a.entries.length i := by simp [inoPath]
  rw [this]; exact G.pathUp_iff.mpr h

/-- number of children -/
theorem Good.kids_length {d : List Bytes} {rg : Range} (h : RangeIs P d rg.offset rg.count) :
    (kids P d).length = rg.count := by
  have := congrArg List.length (G.readRange fullBuilder h)
  simp [Archive.readRange] at this
  exact this.symm

theorem divCeil_blocks (size : Nat) : divCeil (divCeil size (4 * 1024) * (4 * 1024)) 512 = 8 * ((size + 4095) / 4096) := by
  have h1 : divCeil size (4 * 1024) = (size + 4095) / 4096 := by
    simp only [divCeil]; split <;> omega
  rw [h1]
  simp only [divCeil]
  have : (size + 4095) / 4096 * (4 * 1024) = 512 * (8 * ((size + 4095) / 4096)) := by omega
  rw [this]
  simp

theorem Good.attrOf {i : Nat} {p : List Bytes} {n : Node} (hp : P[i]? = some p) (hn : m p = some n)
    (hfit : n.HasAttr) :
    cfg.a.attrOf i = some (attrSpec (i + 2) (kids P p).length n) := by
  obtain ⟨r, n', h1, h2, h3⟩ := G.row_at hp
  rw [hn] at h2; cases h2
  obtain ⟨q1, q2, q3, q4, q5, q6, q7⟩ := h3
  obtain ⟨f1, f2⟩ := hfit
  have hmt : ¬ r.mtime ≥ 2 ^ 63 := by omega
  simp only [Archive.attrOf, h1]
  cases hk : n.kind with
  | dir =>
    rw [hk] at q7
    have v := q7.1
    have hrr := G.rowRange hp h1 hn hk
    have hkl := G.kids_length hrr.1
    have hb : r.nbChildren = (Arx.rowRange r).count := by
      -- the stored number of children is below 2^32
      have hr := q7.2.1
      have : r.nbChildren ≤ P.length := by
        by_cases hz : r.nbChildren = 0
        · omega
        · have := G.range_bound hr hz; omega
      have hs := G.small
      simp only [Arx.rowRange]; rw [asU32_lt (by omega)]
    have hc : (Arx.rowRange r).count ≤ P.length := by have := hrr.2; omega
    have hs := G.small
    rw [v]
    simp only [EntryType.tryFrom]
    rw [if_neg (by
      rw [hb]; rintro (h | h | h)
      · omega
      · simp at h
      · exact hmt h)]
    simp [attrSpec, hk, Kind.etype, q3, q4, q5, q6, idxIno, hb, hkl, divCeil]
  | file size c =>
    rw [hk] at q7 f2
    obtain ⟨v, hsz, _⟩ := q7
    rw [v]
    simp only [EntryType.tryFrom, hsz]
    simp only at f2
    rw [if_neg (by
      rintro (h | h | h)
      · omega
      · have : divCeil size (4 * 1024) = (size + 4095) / 4096 := by
          simp only [divCeil]; split <;> omega
        rw [this] at h; omega
      · exact hmt h)]
    simp [attrSpec, hk, Kind.etype, q3, q4, q5, q6, idxIno]
    exact divCeil_blocks G size
  | link t =>
    rw [hk] at q7 f2
    obtain ⟨v, hsz, _⟩ := q7
    rw [v]
    simp only [EntryType.tryFrom, hsz]
    simp only at f2
    rw [if_neg (by
      rintro (h | h | h)
      · omega
      · have : divCeil t.length (4 * 1024) = (t.length + 4095) / 4096 := by
          simp only [divCeil]; split <;> omega
        rw [this] at h; omega
      · exact hmt h)]
    simp [attrSpec, hk, Kind.etype, q3, q4, q5, q6, idxIno]
    exact divCeil_blocks G t.length

/-- the range of the directory an inode stands for -/
theorem Good.entryRange {d0 p : List Bytes} {ino : Nat} (hroot : RangeIs P d0 cfg.root.offset cfg.root.count)
    (h : inoPath cfg d0 ino = some p) (hd : ino = 1 ∨ ∃ n, m p = some n ∧ n.isDir = true) :
    ∃ rg, cfg.entryRange ino = some rg ∧ RangeIs P p rg.offset rg.count := by
  rcases G.inoPath_cases h with ⟨rfl, rfl⟩ | ⟨i, rfl, hp, hi⟩
  · exact ⟨cfg.root, by simp [FsCfg.entryRange, inoIdx], hroot⟩
  · rcases hd with h1 | ⟨n, hn, hnd⟩
    · omega
    obtain ⟨r, n', h1, h2, h3⟩ := G.row_at hp
    rw [hn] at h2; cases h2
    have hk : n.kind = .dir := Kind.isDir_iff.mp hnd
    obtain ⟨_, _, _, _, _, _, q7⟩ := h3
    rw [hk] at q7
    refine ⟨Arx.rowRange r, ?_, (G.rowRange hp h1 hn hk).1⟩
    simp [FsCfg.entryRange, hi, h1, q7.1, EntryType.tryFrom]

/-- any inode with a range stands for some directory -/
theorem Good.entryRange_isDir {d0 : List Bytes} {ino : Nat} {rg : Range}
    (hroot : RangeIs P d0 cfg.root.offset cfg.root.count) (h : cfg.entryRange ino = some rg) :
    ino ≠ 0 ∧ ∃ p, RangeIs P p rg.offset rg.count := by
  simp only [FsCfg.entryRange, inoIdx] at h
  by_cases h0 : ino = 0
  · simp [h0] at h
  · refine ⟨h0, ?_⟩
    by_cases h1 : ino = 1
    · simp [h1] at h; subst h; exact ⟨d0, hroot⟩
    · simp only [h0, h1, if_false] at h
      split at h
      · cases h
      · rename_i r hr
        split at h
        · rename_i hv
          cases h
          have hi : asU32 (ino - 2) < P.length := by
            rw [← G.len]; exact (List.getElem?_eq_some_iff.mp hr).1
          obtain ⟨r', n, e1, e2, e3⟩ := G.row_exists hi
          rw [hr] at e1; cases e1
          have hp : P[asU32 (ino - 2)]? = some P[asU32 (ino - 2)] := List.getElem?_eq_getElem hi
          have hk : n.kind = .dir := by
            obtain ⟨_, _, _, _, _, _, q7⟩ := e3
            cases hk : n.kind with
            | dir => rfl
            | file s c => rw [hk] at q7; rw [q7.1] at hv; simp [EntryType.tryFrom] at hv
            | link t => rw [hk] at q7; rw [q7.1] at hv; simp [EntryType.tryFrom] at hv
          exact ⟨_, (G.rowRange hp hr e2 hk).1⟩
        · cases h

/-- the row of a directory range is found by its name -/
theorem Good.find_row {d : List Bytes} {rg : Range} (h : RangeIs P d rg.offset rg.count) {j : Nat}
    (hj : j < rg.count) {r : RawEntry} (hr : cfg.a.entries[rg.offset + j]? = some r) :
    cfg.a.find rg r.name = .ok (some j) ∧ P[rg.offset + j]? = some (d ++ [r.name]) := by
  obtain ⟨nm, hnm⟩ := (h (rg.offset + j)).mp ⟨by omega, by omega⟩
  obtain ⟨r', n, h1, h2, h3⟩ := G.row_at hnm
  rw [hr] at h1; cases h1
  have hname : nm = r.name := by have := h3.1; simpa using this
  subst hname
  refine ⟨?_, hnm⟩
  rcases G.find_spec h r.name with ⟨j', hj', hp', hf⟩ | ⟨hn, _⟩
  · have := G.idx_inj hp' hnm
    have : j' = j := by omega
    rw [hf, this]
  · rw [h2] at hn; cases hn

end

/-! ## The cache invariant -/

/-- everything cached is what would be computed -/
structure CacheInv (cfg : FsCfg) (opens : Nat → Nat) (s : FsState) : Prop where
  resolve : ∀ k v, ((k, v) : (Nat × Bytes) × Option Nat) ∈ s.resolve.items →
    ∃ rg found, cfg.entryRange k.1 = some rg ∧ cfg.a.find rg k.2 = .ok found ∧ v = found.map (fun i => i + rg.offset)
  attr : ∀ i at', (i, at') ∈ s.attr.items → cfg.a.attrOf i = some at'
  cap : 0 < s.attr.cap
  closed : ∀ ino, s.region ino = none → opens ino = 0
  opened : ∀ ino b c, s.region ino = some (b, c) → opens ino = c ∧ 0 < c ∧ ino ≠ 0 ∧ cfg.fileBytes ino = some b

theorem CacheInv.cachedAttr {cfg : FsCfg} {opens : Nat → Nat} {s : FsState} (I : CacheInv cfg opens s) (idx : Nat) :
    (s.cachedAttr cfg idx).1 = cfg.a.attrOf idx ∧ CacheInv cfg opens (s.cachedAttr cfg idx).2 := by
  simp only [FsState.cachedAttr]
  split
  · rename_i at' c h
    obtain ⟨h1, h2, h3⟩ := Lru.get_some h
    refine ⟨(I.attr _ _ h1).symm, ⟨I.resolve, fun i x hx => I.attr i x (h2 _ hx), by rw [h3]; exact I.cap, I.closed, I.opened⟩⟩
  · split
    · rename_i h; exact ⟨h.symm, I⟩
    · rename_i at' h
      have hg := Lru.get_put s.attr idx at' I.cap
      split
      · rename_i v c hc
        obtain ⟨h1, h2, h3⟩ := Lru.get_some hc
        rw [hc] at hg; simp at hg; subst hg
        refine ⟨h.symm, ⟨I.resolve, ?_, by rw [h3]; exact I.cap, I.closed, I.opened⟩⟩
        intro i x hx
        rcases Lru.mem_put (h2 _ hx) with e | e
        · cases e; exact h
        · exact I.attr i x e
      · rename_i hc; rw [hc] at hg; cases hg

theorem readdirLoop_pure {cfg : FsCfg} {m : PathMap} {P : List (List Bytes)} (G : Good cfg.a m P)
    {ino : Nat} {rg : Range} {d : List Bytes} (hr : RangeIs P d rg.offset rg.count) (bufSize : Nat)
    (hrange : cfg.entryRange ino = some rg) (hb : rg.count + 2 < 2 ^ 32) :
    ∀ (k i cur : Nat) (l : List DirEnt) (c c' : Lru (Nat × Bytes) (Option Nat)), k + i = rg.count + 2 →
      (2 ≤ i → cur = rg.offset + (i - 2)) → (i < 2 → cur = rg.offset) →
      (readdirLoop cfg ino rg bufSize (List.range' i k) cur l c).map Prod.fst =
        (readdirLoop cfg ino rg bufSize (List.range' i k) cur l c').map Prod.fst ∧
      ∀ l' c1, readdirLoop cfg ino rg bufSize (List.range' i k) cur l c = some (l', c1) →
        ∀ x ∈ c1.items, x ∈ c.items ∨
          ∃ found, x.1.1 = ino ∧ cfg.a.find rg x.1.2 = .ok found ∧ x.2 = found.map (fun i => i + rg.offset) := by
  intro k
  induction k with
  | zero =>
    intro i cur l c c' _ _ _
    refine ⟨rfl, ?_⟩
    intro l' c1 h; simp [readdirLoop] at h; obtain ⟨_, rfl⟩ := h
    exact fun x hx => Or.inl hx
  | succ k ih =>
    intro i cur l c c' hk h2 h3
    rw [List.range'_succ]
    simp only [readdirLoop]
    by_cases hi0 : i = 0
    · subst hi0
      simp only [if_true]
      cases hra : replyAdd bufSize l ⟨ino, 0, .dir, CUR⟩ with
      | mk b l1 =>
        cases b with
        | true =>
          refine ⟨rfl, ?_⟩
          intro l' c1 h; simp at h; obtain ⟨_, rfl⟩ := h
          exact fun x hx => Or.inl hx
        | false => exact ih 1 cur l1 c c' (by omega) (by omega) (by omega)
    · simp only [if_neg hi0]
      by_cases hi1 : i = 1
      · subst hi1
        simp only [if_true]
        cases cfg.parentIno ino with
        | none => exact ⟨rfl, fun l' c1 h => by cases h⟩
        | some p =>
          simp only
          cases hra : replyAdd bufSize l ⟨p, 1, .dir, PARENT⟩ with
          | mk b l1 =>
            cases b with
            | true =>
              refine ⟨rfl, ?_⟩
              intro l' c1 h; simp at h; obtain ⟨_, rfl⟩ := h
              exact fun x hx => Or.inl hx
            | false => exact ih 2 cur l1 c c' (by omega) (fun _ => by rw [h3 (by omega)]; omega) (by omega)
      · simp only [if_neg hi1]
        have hcur := h2 (by omega)
        simp only [if_neg (show ¬ cur = rg.offset + rg.count by omega)]
        cases he : cfg.a.entries[cur]? with
        | none => exact ⟨rfl, fun l' c1 h => by cases h⟩
        | some r =>
          simp only
          cases ht : EntryType.tryFrom r.variant with
          | none => exact ⟨rfl, fun l' c1 h => by cases h⟩
          | some kind =>
            simp only
            have hui : asU32 i = i := asU32_lt (by omega)
            have hfr := G.find_row hr (j := i - 2) (by omega) (r := r) (by rw [← hcur]; exact he)
            have hput : ∀ c : Lru (Nat × Bytes) (Option Nat), ∀ x ∈ (c.put (ino, r.name) (some (rg.offset + (asU32 i - 2)))).items,
                x ∈ c.items ∨ ∃ found, x.1.1 = ino ∧ cfg.a.find rg x.1.2 = .ok found ∧ x.2 = found.map (fun i => i + rg.offset) := by
              intro c x hx
              rcases Lru.mem_put hx with e | e
              · right; subst e
                exact ⟨some (i - 2), rfl, hfr.1, by simp [hui]; omega⟩
              · exact Or.inl e
            cases hra : replyAdd bufSize l ⟨idxIno (rg.offset + (asU32 i - 2)), i, kind, r.name⟩ with
            | mk b l1 =>
              cases b with
              | true =>
                refine ⟨rfl, ?_⟩
                intro l' c1 h; simp at h; obtain ⟨_, rfl⟩ := h
                exact hput c
              | false =>
                have := ih (i + 1) (cur + 1) l1 (c.put (ino, r.name) (some (rg.offset + (asU32 i - 2))))
                  (c'.put (ino, r.name) (some (rg.offset + (asU32 i - 2)))) (by omega) (fun _ => by omega) (by omega)
                refine ⟨this.1, ?_⟩
                intro l' c1 h x hx
                rcases this.2 l' c1 h x hx with e | e
                · exact hput c x e
                · exact Or.inr e

/-- One request: same reply as without caches, and the invariant is kept. -/
theorem CacheInv.step {cfg : FsCfg} {m : PathMap} {P : List (List Bytes)} (G : Good cfg.a m P) {d0 : List Bytes}
    (hroot : RangeIs P d0 cfg.root.offset cfg.root.count) {opens : Nat → Nat} {s : FsState}
    (I : CacheInv cfg opens s) (r : FReq) :
    (s.step cfg r).1 = (pureStep cfg opens r).1 ∧ CacheInv cfg (pureStep cfg opens r).2 (s.step cfg r).2 := by
  cases r with
  | lookup parent name =>
    simp only [FsState.step, FsState.lookup, pureStep]
    by_cases h0 : parent = 0
    · subst h0; simp only [if_true]
      have : cfg.entryRange 0 = none := by simp [FsCfg.entryRange, inoIdx]
      rw [this]; exact ⟨rfl, I⟩
    · simp only [if_neg h0]
      split
      · rename_i idx c h
        obtain ⟨g1, g2, g3⟩ := Lru.get_some h
        obtain ⟨rg, found, e1, e2, e3⟩ := I.resolve _ _ g1
        simp only at e1 e2
        rw [e1]; simp only [e2]
        have I' : CacheInv cfg opens { s with resolve := c } :=
          ⟨fun k v hk => I.resolve k v (g2 _ hk), I.attr, I.cap, I.closed, I.opened⟩
        cases found with
        | none => simp at e3; subst e3; exact ⟨rfl, I'⟩
        | some j =>
          simp at e3; subst e3
          obtain ⟨a1, a2⟩ := I'.cachedAttr (j + rg.offset)
          simp only
          revert a1 a2
          cases FsState.cachedAttr cfg { s with resolve := c } (j + rg.offset) with
          | mk x y =>
            intro a1 a2
            simp only at a1 a2
            rw [← a1]
            cases x <;> exact ⟨rfl, a2⟩
      · cases he : cfg.entryRange parent with
        | none => exact ⟨rfl, I⟩
        | some rg =>
          simp only
          cases hf : cfg.a.find rg name with
          | error x => exact ⟨rfl, I⟩
          | ok found =>
            simp only
            have I' : CacheInv cfg opens { s with resolve := s.resolve.put (parent, name) (found.map (fun i => i + rg.offset)) } := by
              refine ⟨?_, I.attr, I.cap, I.closed, I.opened⟩
              intro k v hk
              rcases Lru.mem_put hk with e | e
              · cases e; exact ⟨rg, found, he, hf, rfl⟩
              · exact I.resolve k v e
            cases found with
            | none => exact ⟨rfl, I'⟩
            | some j =>
              obtain ⟨a1, a2⟩ := I'.cachedAttr (j + rg.offset)
              simp only [Option.map_some] at a1 a2 ⊢
              revert a1 a2
              cases FsState.cachedAttr cfg { s with resolve := s.resolve.put (parent, name) (some (j + rg.offset)) } (j + rg.offset) with
              | mk x y =>
                intro a1 a2
                simp only at a1 a2
                rw [← a1]
                cases x <;> exact ⟨rfl, a2⟩
  | getattr ino =>
    simp only [FsState.step, FsState.getattr, pureStep]
    cases inoIdx ino with
    | none => exact ⟨rfl, I⟩
    | some o =>
      cases o with
      | none => exact ⟨rfl, I⟩
      | some idx =>
        simp only
        obtain ⟨a1, a2⟩ := I.cachedAttr idx
        revert a1 a2
        cases FsState.cachedAttr cfg s idx with
        | mk x y =>
          intro a1 a2
          simp only at a1 a2
          rw [← a1]
          cases x <;> exact ⟨rfl, a2⟩
  | readlink ino =>
    simp only [FsState.step, FsState.readlink, pureStep]
    cases inoIdx ino with
    | none => exact ⟨rfl, I⟩
    | some o =>
      cases o with
      | none => exact ⟨rfl, I⟩
      | some idx =>
        simp only
        cases cfg.a.entries[idx]? with
        | none => exact ⟨rfl, I⟩
        | some r =>
          simp only
          split <;> exact ⟨rfl, I⟩
  | opendir ino =>
    simp only [FsState.step, FsState.opendir, pureStep]
    cases inoIdx ino with
    | none => exact ⟨rfl, I⟩
    | some o =>
      cases o with
      | none => exact ⟨rfl, I⟩
      | some idx =>
        simp only
        cases cfg.a.entries[idx]? with
        | none => exact ⟨rfl, I⟩
        | some r =>
          simp only
          split <;> exact ⟨rfl, I⟩
  | releasedir ino => exact ⟨rfl, I⟩
  | «open» ino =>
    simp only [FsState.step, FsState.open, pureStep]
    cases hi : inoIdx ino with
    | none =>
      have h0 : ino = 0 := by
        simp only [inoIdx] at hi
        split at hi
        · assumption
        · split at hi <;> cases hi
      cases hreg : s.region ino with
      | some bc => exact absurd h0 (I.opened ino bc.1 bc.2 hreg).2.2.1
      | none =>
        have := I.closed ino hreg
        simp [this]; exact I
    | some o =>
      have hino : ino ≠ 0 := by
        intro e; simp [inoIdx, e] at hi
      cases hreg : s.region ino with
      | some bc =>
        obtain ⟨b, c⟩ := bc
        obtain ⟨o1, o2, o3, o4⟩ := I.opened ino b c hreg
        simp only [o1, o2, if_true]
        refine ⟨trivial, ⟨I.resolve, I.attr, I.cap, ?_, ?_⟩⟩
        · intro i hn
          simp only [setRegion] at hn
          split at hn
          · cases hn
          · rename_i hne; simp only [if_neg hne]; exact I.closed i hn
        · intro i b' c' hs
          simp only [setRegion] at hs
          split at hs
          · rename_i he; cases hs; subst he
            simp; exact ⟨o3, o4⟩
          · rename_i hne; simp only [if_neg hne]; exact I.opened i b' c' hs
      | none =>
        have hc0 := I.closed ino hreg
        simp only [hc0, Nat.lt_irrefl, if_false, FsState.init]
        cases o with
        | none => exact ⟨rfl, I⟩
        | some idx =>
          simp only
          cases hrow : cfg.a.entries[idx]? with
          | none => exact ⟨rfl, I⟩
          | some r =>
            simp only
            cases ht : EntryType.tryFrom r.variant with
            | none => exact ⟨rfl, I⟩
            | some kind =>
              cases kind with
              | dir => exact ⟨rfl, I⟩
              | link => exact ⟨rfl, I⟩
              | file =>
                simp only
                cases hbts : cfg.bytes r.content with
                | err => exact ⟨rfl, I⟩
                | missing => exact ⟨rfl, I⟩
                | found b =>
                  simp only
                  refine ⟨trivial, ⟨I.resolve, I.attr, I.cap, ?_, ?_⟩⟩
                  · intro i hn
                    simp only [setRegion] at hn
                    split at hn
                    · cases hn
                    · rename_i hne; simp only [if_neg hne]; exact I.closed i hn
                  · intro i b' c' hs
                    simp only [setRegion] at hs
                    split at hs
                    · rename_i he; cases hs; subst he
                      refine ⟨by simp, by omega, hino, ?_⟩
                      simp [FsCfg.fileBytes, hi, hrow, ht, hbts]
                    · rename_i hne; simp only [if_neg hne]; exact I.opened i b' c' hs
  | read ino offset size =>
    simp only [FsState.step, FsState.read, pureStep]
    by_cases h0 : ino = 0
    · simp only [h0, if_true, true_or]; exact ⟨trivial, I⟩
    · by_cases h1 : offset < 0
      · simp only [h0, h1, if_true, if_false, true_or, or_true]; exact ⟨trivial, I⟩
      · simp only [h0, h1, if_false, false_or]
        cases hreg : s.region ino with
        | none => simp only [I.closed ino hreg, if_true]; exact ⟨trivial, I⟩
        | some bc =>
          obtain ⟨b, c⟩ := bc
          obtain ⟨o1, o2, o3, o4⟩ := I.opened ino b c hreg
          rw [if_neg (by omega)]
          simp only [o4]
          split <;> exact ⟨rfl, I⟩
  | release ino =>
    simp only [FsState.step, FsState.release, pureStep]
    by_cases h0 : ino = 0
    · simp only [h0, if_true]; exact ⟨trivial, I⟩
    · simp only [h0, if_false]
      cases hreg : s.region ino with
      | none => simp only [I.closed ino hreg, if_true]; exact ⟨trivial, I⟩
      | some bc =>
        obtain ⟨b, c⟩ := bc
        obtain ⟨o1, o2, o3, o4⟩ := I.opened ino b c hreg
        simp only
        rw [if_neg (by omega), if_neg (show ¬ opens ino = 0 by omega)]
        split
        · refine ⟨rfl, ⟨I.resolve, I.attr, I.cap, ?_, ?_⟩⟩
          · intro i hn
            simp only [setRegion] at hn
            by_cases he : i = ino
            · simp only [he, if_true]; omega
            · simp only [he, if_false] at hn ⊢; exact I.closed i hn
          · intro i b' c' hs
            simp only [setRegion] at hs
            by_cases he : i = ino
            · simp [he] at hs
            · simp only [he, if_false] at hs ⊢; exact I.opened i b' c' hs
        · refine ⟨rfl, ⟨I.resolve, I.attr, I.cap, ?_, ?_⟩⟩
          · intro i hn
            simp only [setRegion] at hn
            by_cases he : i = ino
            · simp [he] at hn
            · simp only [he, if_false] at hn ⊢; exact I.closed i hn
          · intro i b' c' hs
            simp only [setRegion] at hs
            by_cases he : i = ino
            · simp only [he, if_true, Option.some.injEq, Prod.mk.injEq] at hs
              obtain ⟨rfl, rfl⟩ := hs
              simp only [he, if_true]
              exact ⟨by omega, by omega, h0, o4⟩
            · simp only [he, if_false] at hs ⊢; exact I.opened i b' c' hs
  | readdir ino offset bufSize =>
    simp only [FsState.step, FsState.readdir, pureStep]
    by_cases h0 : ino = 0
    · simp only [h0, if_true]; exact ⟨trivial, I⟩
    · simp only [h0, if_false]
      cases he : cfg.entryRange ino with
      | none => exact ⟨rfl, I⟩
      | some rg =>
        simp only
        by_cases hb : rg.count + 2 ≥ 2 ^ 32
        · simp only [hb, if_true]; exact ⟨trivial, I⟩
        · simp only [hb, if_false]
          obtain ⟨_, d, hd⟩ := G.entryRange_isDir hroot he
          generalize hoff : (if offset = 0 then 0 else offset + 1) = off
          by_cases hle : off ≤ rg.count + 2
          · have hcur2 : 2 ≤ off → (if off > 2 then rg.offset + asU32 (off - 2) else rg.offset) = rg.offset + (off - 2) := by
              intro h2
              split
              · rw [asU32_lt (by omega)]
              · omega
            have hcur1 : off < 2 → (if off > 2 then rg.offset + asU32 (off - 2) else rg.offset) = rg.offset := by
              intro h2; rw [if_neg (by omega)]
            have key := readdirLoop_pure G hd bufSize he (by omega) (rg.count + 2 - off) off _ [] s.resolve
              FsState.init.resolve (by omega) hcur2 hcur1
            obtain ⟨k1, k2⟩ := key
            revert k1 k2
            generalize (if off > 2 then rg.offset + asU32 (off - 2) else rg.offset) = cur
            cases h1 : readdirLoop cfg ino rg bufSize (List.range' off (rg.count + 2 - off)) cur [] s.resolve with
            | none =>
              intro k1 k2
              cases h2 : readdirLoop cfg ino rg bufSize (List.range' off (rg.count + 2 - off)) cur [] FsState.init.resolve with
              | none => exact ⟨rfl, I⟩
              | some y => rw [h2] at k1; cases k1
            | some x =>
              intro k1 k2
              cases h2 : readdirLoop cfg ino rg bufSize (List.range' off (rg.count + 2 - off)) cur [] FsState.init.resolve with
              | none => rw [h2] at k1; cases k1
              | some y =>
                rw [h2] at k1
                simp at k1
                refine ⟨by simp [k1], ⟨?_, I.attr, I.cap, I.closed, I.opened⟩⟩
                intro k v hk
                rcases k2 x.1 x.2 rfl _ hk with e | ⟨found, e1, e2, e3⟩
                · exact I.resolve k v e
                · exact ⟨rg, found, by rw [e1]; exact he, e2, e3⟩
          · have hz : rg.count + 2 - off = 0 := by omega
            rw [hz]
            simp only [List.range'_zero, readdirLoop]
            exact ⟨trivial, ⟨I.resolve, I.attr, I.cap, I.closed, I.opened⟩⟩

theorem CacheInv.init (cfg : FsCfg) : CacheInv cfg (fun _ => 0) FsState.init :=
  ⟨fun k v h => by simp [FsState.init] at h, fun i a h => by simp [FsState.init] at h, by decide,
    fun _ _ => rfl, fun ino b c h => by simp [FsState.init] at h⟩

theorem CacheInv.run {cfg : FsCfg} {m : PathMap} {P : List (List Bytes)} (G : Good cfg.a m P) {d0 : List Bytes}
    (hroot : RangeIs P d0 cfg.root.offset cfg.root.count) :
    ∀ (rs : List FReq) {opens : Nat → Nat} {s : FsState}, CacheInv cfg opens s →
      (s.run cfg rs).1 = (pureRun cfg opens rs).1 ∧ CacheInv cfg (pureRun cfg opens rs).2 (s.run cfg rs).2 := by
  intro rs
  induction rs with
  | nil => intro opens s I; exact ⟨rfl, I⟩
  | cons r rs ih =>
    intro opens s I
    obtain ⟨h1, h2⟩ := I.step G hroot r
    obtain ⟨h3, h4⟩ := ih h2
    simp only [FsState.run, pureRun]
    exact ⟨by rw [h1, h3], h4⟩

end Arx
