import Verif.Proof.MountProof
/-!
# The mount: directory listings
-/
namespace Arx

/-- greedy filling of a reply buffer -/
def fill (buf : Nat) : Nat → List DirEnt → List DirEnt
  | _, [] => []
  | used, e :: es => if used + direntSize e.name > buf then [] else e :: fill buf (used + direntSize e.name) es

theorem entsSize_append (a b : List DirEnt) : entsSize (a ++ b) = entsSize a + entsSize b := by
  simp [entsSize]

theorem fill_isPage (buf : Nat) : ∀ (L : List DirEnt) (used : Nat), used ≤ buf →
    (fill buf used L) <+: L ∧ used + entsSize (fill buf used L) ≤ buf ∧
    ∀ e t, L = fill buf used L ++ e :: t → buf < used + entsSize (fill buf used L) + direntSize e.name := by
  intro L
  induction L with
  | nil => intro used h; exact ⟨List.prefix_rfl, by simpa [fill, entsSize] using h, by simp [fill]⟩
  | cons x L ih =>
    intro used h
    simp only [fill]
    by_cases hx : used + direntSize x.name > buf
    · rw [if_pos hx]
      refine ⟨List.nil_prefix, by simpa [entsSize] using h, ?_⟩
      intro e t he
      simp at he; obtain ⟨rfl, rfl⟩ := he
      simp [entsSize]; omega
    · rw [if_neg hx]
      obtain ⟨h1, h2, h3⟩ := ih (used + direntSize x.name) (by omega)
      refine ⟨List.cons_prefix_cons.mpr ⟨rfl, h1⟩, ?_, ?_⟩
      · simp only [entsSize, List.map_cons, List.sum_cons] at h2 ⊢; omega
      · intro e t he
        simp at he
        have := h3 e t he
        simp only [entsSize, List.map_cons, List.sum_cons] at this ⊢; omega

/-- the directory entry of row `off + j` -/
def rowEnt (cfg : FsCfg) (off j : Nat) : DirEnt :=
  match cfg.a.entries[off + j]? with
  | some r => ⟨idxIno (off + j), j + 2, (EntryType.tryFrom r.variant).getD .dir, r.name⟩
  | none => ⟨0, 0, .dir, []⟩

def fullDir (cfg : FsCfg) (ino p : Nat) (rg : Range) : List DirEnt :=
  ⟨ino, 0, .dir, CUR⟩ :: ⟨p, 1, .dir, PARENT⟩ :: (List.range rg.count).map (rowEnt cfg rg.offset)

theorem fullDir_length (cfg : FsCfg) (ino p : Nat) (rg : Range) : (fullDir cfg ino p rg).length = rg.count + 2 := by
  simp [fullDir]

theorem fullDir_drop {cfg : FsCfg} {ino p : Nat} {rg : Range} {i : Nat} (h2 : 2 ≤ i) (hi : i < rg.count + 2) :
    (fullDir cfg ino p rg).drop i = rowEnt cfg rg.offset (i - 2) :: (fullDir cfg ino p rg).drop (i + 1) := by
  have hl : i < (fullDir cfg ino p rg).length := by rw [fullDir_length]; exact hi
  rw [List.drop_eq_getElem_cons hl]
  obtain ⟨k, rfl⟩ : ∃ k, i = k + 2 := ⟨i - 2, by omega⟩
  congr 1
  simp [fullDir]

theorem readdirLoop_fill {cfg : FsCfg} {m : PathMap} {P : List (List Bytes)} (G : Good cfg.a m P)
    {ino : Nat} {rg : Range} {d : List Bytes} (hr : RangeIs P d rg.offset rg.count) (bufSize : Nat)
    (hb : rg.count + 2 < 2 ^ 32) {p : Nat} (hp : cfg.parentIno ino = some p) :
    ∀ (k i cur : Nat) (l : List DirEnt) (c : Lru (Nat × Bytes) (Option Nat)), k + i = rg.count + 2 →
      (2 ≤ i → cur = rg.offset + (i - 2)) → (i < 2 → cur = rg.offset) →
      (readdirLoop cfg ino rg bufSize (List.range' i k) cur l c).map Prod.fst =
        some (l ++ fill bufSize (entsSize l) ((fullDir cfg ino p rg).drop i)) := by
  intro k
  induction k with
  | zero =>
    intro i cur l c hk _ _
    have : (fullDir cfg ino p rg).drop i = [] := by
      rw [List.drop_eq_nil_iff, fullDir_length]; omega
    simp [readdirLoop, this, fill]
  | succ k ih =>
    intro i cur l c hk h2 h3
    rw [List.range'_succ]
    simp only [readdirLoop]
    have hadd : ∀ (e : DirEnt) (L : List DirEnt) (f : List DirEnt → Option (List DirEnt × Lru (Nat × Bytes) (Option Nat)))
        (c : Lru (Nat × Bytes) (Option Nat)),
        ((f (l ++ [e])).map Prod.fst = some ((l ++ [e]) ++ fill bufSize (entsSize (l ++ [e])) L)) →
        (match replyAdd bufSize l e with
          | (true, l) => some (l, c)
          | (false, l) => f l).map Prod.fst = some (l ++ fill bufSize (entsSize l) (e :: L)) := by
      intro e L f c hf
      simp only [replyAdd, fill]
      by_cases hh : entsSize l + direntSize e.name > bufSize
      · rw [if_pos hh]
        have hh' : (l.map (fun x => direntSize x.name)).sum + direntSize e.name > bufSize := hh
        rw [if_pos hh']; simp
      · rw [if_neg hh]
        have hh' : ¬ (l.map (fun x => direntSize x.name)).sum + direntSize e.name > bufSize := hh
        rw [if_neg hh']
        simp only
        rw [hf]
        have : entsSize (l ++ [e]) = entsSize l + direntSize e.name := by simp [entsSize]
        rw [this]; simp
    by_cases hi0 : i = 0
    · subst hi0
      simp only [if_true]
      exact hadd ⟨ino, 0, .dir, CUR⟩ ((fullDir cfg ino p rg).drop 1)
        (fun l => readdirLoop cfg ino rg bufSize (List.range' (0 + 1) k) cur l c) c
        (ih 1 cur _ c (by omega) (by omega) (by omega))
    · simp only [if_neg hi0]
      by_cases hi1 : i = 1
      · subst hi1
        simp only [if_true, hp]
        exact hadd ⟨p, 1, .dir, PARENT⟩ ((fullDir cfg ino p rg).drop 2)
          (fun l => readdirLoop cfg ino rg bufSize (List.range' (1 + 1) k) cur l c) c
          (ih 2 cur _ c (by omega) (fun _ => by rw [h3 (by omega)]; omega) (by omega))
      · simp only [if_neg hi1]
        have hcur := h2 (by omega)
        rw [if_neg (by omega)]
        have hlt : i - 2 < rg.count := by omega
        obtain ⟨nm, hnm⟩ := (hr (rg.offset + (i - 2))).mp ⟨by omega, by omega⟩
        obtain ⟨r, n, h1, h2', h3'⟩ := G.row_at hnm
        rw [hcur, h1]
        simp only
        have hvar : ∃ kind, EntryType.tryFrom r.variant = some kind := by
          obtain ⟨_, _, _, _, _, _, q7⟩ := h3'
          cases hk : n.kind with
          | dir => rw [hk] at q7; rw [q7.1]; exact ⟨_, rfl⟩
          | file s c => rw [hk] at q7; rw [q7.1]; exact ⟨_, rfl⟩
          | link t => rw [hk] at q7; rw [q7.1]; exact ⟨_, rfl⟩
        obtain ⟨kind, hkind⟩ := hvar
        rw [hkind]
        simp only
        have hui : asU32 i = i := asU32_lt (by omega)
        have hent : (⟨idxIno (rg.offset + (asU32 i - 2)), i, kind, r.name⟩ : DirEnt) = rowEnt cfg rg.offset (i - 2) := by
          simp only [rowEnt, h1, hkind, hui, Option.getD_some]
          congr 1; omega
        rw [hent, fullDir_drop (by omega) (by omega)]
        exact hadd _ ((fullDir cfg ino p rg).drop (i + 1)) (fun l => readdirLoop cfg ino rg bufSize
          (List.range' (i + 1) k) (rg.offset + (i - 2) + 1) l _) _ (ih (i + 1) _ _ _ (by omega) (fun _ => by omega) (by omega))

/-- inode of the parent -/
theorem Good.parentIno {cfg : FsCfg} {m : PathMap} {P : List (List Bytes)} (G : Good cfg.a m P)
    {d0 d : List Bytes} {ino : Nat} (h : inoPath cfg d0 ino = some d) :
    ∃ p, cfg.parentIno ino = some p ∧ (ino = 1 → p = 1) ∧ (ino ≠ 1 → inoPath cfg [] p = some d.dropLast) := by
  rcases G.inoPath_cases h with ⟨rfl, rfl⟩ | ⟨i, rfl, hp, hi⟩
  · exact ⟨1, by simp [FsCfg.parentIno, inoIdx], fun _ => rfl, fun h => absurd rfl h⟩
  · obtain ⟨r, n, h1, h2, h3⟩ := G.row_at hp
    obtain ⟨e, he, _, _, _, _, hpar, _⟩ := G.getEntryAt hp h2
    have hc := G.commonCreate h1
    have hpar' : (if r.parent = 0 then none else some (r.parent - 1)) = e.common.parent := by
      obtain ⟨r', n', g1, g2, _, g4⟩ := G.create_spec fullBuilder hp
      rw [h1] at g1; cases g1
      rw [h2] at g2; cases g2
      rw [g4] at he
      cases hk : n.kind <;> rw [hk] at he <;> simp [fullBuilder, hc, Except.map] at he <;> rw [← he] <;> rfl
    simp only [FsCfg.parentIno, hi, h1]
    by_cases h0 : r.parent = 0
    · rw [if_pos h0]
      refine ⟨1, rfl, fun e => by omega, fun _ => ?_⟩
      simp only [h0, if_true] at hpar'
      rw [← hpar'] at hpar
      have hl : d.length ≤ 1 := by
        by_cases hl : d.length ≤ 1
        · exact hl
        · simp [hl] at hpar
      have : d.dropLast = [] := by
        apply List.eq_nil_of_length_eq_zero; simp; omega
      rw [this]; simp [inoPath]
    · rw [if_neg h0]
      rcases G.parent_lt h1 with hz | ⟨q1, q2, q3⟩
      · exact absurd hz h0
      · rw [if_neg (by rw [q2]; exact h0), q2]
        refine ⟨_, rfl, fun e => by simp [idxIno] at e, fun _ => ?_⟩
        simp only [h0, if_false] at hpar'
        rw [← hpar'] at hpar
        have hl : ¬ d.length ≤ 1 := by
          intro hl; simp [hl] at hpar
        simp only [hl, if_false, Option.some.injEq] at hpar
        have hanc := G.wf.ancestors d n d.dropLast h2 ⟨by
            intro e; have := congrArg List.length e; simp at this; omega, by
            intro e; have := congrArg List.length e; simp at this; omega, List.dropLast_prefix d⟩
        obtain ⟨dn, hdn, _⟩ := hanc
        obtain ⟨j, hj⟩ := G.idx_of hdn
        have := G.idxOf_eq hj
        rw [this] at hpar
        rw [hpar]
        exact G.inoPath_of hj

theorem All2.map_self {α β : Type} {R : α → β → Prop} {f : α → β} : ∀ {l : List α}, (∀ x ∈ l, R x (f x)) →
    All2 R l (l.map f) := by
  intro l
  induction l with
  | nil => intro _; exact .nil
  | cons x l ih => intro h; exact .cons (h x (by simp)) (ih (fun y hy => h y (by simp [hy])))

theorem Good.rowEnt {cfg : FsCfg} {m : PathMap} {P : List (List Bytes)} (G : Good cfg.a m P) {d : List Bytes} {rg : Range}
    (h : RangeIs P d rg.offset rg.count) {j : Nat} (hj : j < rg.count) :
    P[rg.offset + j]? = some (d ++ [(rowEnt cfg rg.offset j).name]) ∧
    (rowEnt cfg rg.offset j).ino = rg.offset + j + 2 ∧ (rowEnt cfg rg.offset j).cookie = j + 2 ∧
    ∃ n, m (d ++ [(rowEnt cfg rg.offset j).name]) = some n ∧ (rowEnt cfg rg.offset j).kind = n.kind.etype := by
  obtain ⟨nm, hnm⟩ := (h (rg.offset + j)).mp ⟨by omega, by omega⟩
  obtain ⟨r, n, h1, h2, h3⟩ := G.row_at hnm
  have hname : nm = r.name := by have := h3.1; simpa using this
  subst hname
  have hre : Arx.rowEnt cfg rg.offset j = ⟨idxIno (rg.offset + j), j + 2, (EntryType.tryFrom r.variant).getD .dir, r.name⟩ := by
    simp only [Arx.rowEnt, h1]
  rw [hre]
  refine ⟨hnm, rfl, rfl, n, h2, ?_⟩
  obtain ⟨_, _, _, _, _, _, q7⟩ := h3
  cases hk : n.kind <;> rw [hk] at q7 <;> simp [q7.1, EntryType.tryFrom, Kind.etype]

theorem Good.fullDir_listing {cfg : FsCfg} {m : PathMap} {P : List (List Bytes)} (G : Good cfg.a m P) {d d0 : List Bytes}
    {rg : Range} (h : RangeIs P d rg.offset rg.count) {ino p : Nat} (hi : inoPath cfg d0 ino = some d)
    (hp : cfg.parentIno ino = some p) : DirListing cfg m ino d (fullDir cfg ino p rg) := by
  obtain ⟨p', hp', h1, h2⟩ := G.parentIno hi
  rw [hp] at hp'; cases hp'
  refine ⟨rfl, ⟨p, rfl, h1, h2⟩, ?_, ?_⟩
  · refine ⟨((List.range rg.count).map (Arx.rowEnt cfg rg.offset)).map (fun e => e.name), ⟨?_, ?_⟩, ?_⟩
    · rw [List.map_map, List.pairwise_map]
      refine List.Pairwise.imp_of_mem ?_ (List.pairwise_lt_range (n := rg.count))
      intro a b ha hb hab
      have ha' := (G.rowEnt h (by simpa using ha)).1
      have hb' := (G.rowEnt h (by simpa using hb)).1
      have := (G.lt_iff ha' hb').mp (by omega)
      rcases canonLt_snoc.mp this with h | h
      · exact absurd h (canonLt_irrefl _)
      · exact h.2
    · intro c
      simp only [List.map_map, List.mem_map, List.mem_range, Function.comp]
      constructor
      · rintro ⟨j, hj, rfl⟩
        obtain ⟨_, _, _, n, hn, _⟩ := G.rowEnt h hj
        exact ⟨n, hn⟩
      · rintro ⟨n, hn⟩
        obtain ⟨i, hi⟩ := G.idx_of hn
        have hir := (h i).mpr ⟨c, hi⟩
        refine ⟨i - rg.offset, by omega, ?_⟩
        have := (G.rowEnt h (j := i - rg.offset) (by omega)).1
        rw [show rg.offset + (i - rg.offset) = i by omega, hi] at this
        simpa using this.symm
    · have : (fullDir cfg ino p rg).drop 2 = (List.range rg.count).map (Arx.rowEnt cfg rg.offset) := rfl
      rw [this]
      apply All2.map_self
      intro e he
      simp only [List.mem_map, List.mem_range] at he
      obtain ⟨j, hj, rfl⟩ := he
      obtain ⟨g1, g2, g3, n, g4, g5⟩ := G.rowEnt h hj
      exact ⟨rfl, by omega, by rw [g2]; exact G.inoPath_of g1, n, g4, g5⟩
  · rw [fullDir_length]
    simp only [fullDir, List.map_cons, List.map_map]
    rw [List.range_succ_eq_map, List.range_succ_eq_map]
    simp only [List.map_cons, List.map_map, Nat.succ_eq_add_one, Nat.zero_add]
    congr 2
    apply List.map_congr_left
    intro j hj
    simp only [Function.comp]
    exact (G.rowEnt h (by simpa using hj)).2.2.1

theorem All2.unique_left {α β : Type} {R : α → β → Prop} (hR : ∀ a a' b, R a b → R a' b → a = a') :
    ∀ {l l' : List α} {k : List β}, All2 R l k → All2 R l' k → l = l' := by
  intro l l' k h
  induction h generalizing l' with
  | nil => intro h'; cases h'; rfl
  | cons h1 _ ih => intro h'; cases h' with | cons h2 h3 => rw [hR _ _ _ h1 h2, ih h3]

/-- One readdir request on a directory. -/
theorem Good.readdir {cfg : FsCfg} {m : PathMap} {P : List (List Bytes)} (G : Good cfg.a m P) {d d0 : List Bytes}
    (hroot : RangeIs P d0 cfg.root.offset cfg.root.count)
    {ino : Nat} (hi : inoPath cfg d0 ino = some d) (hd : ino = 1 ∨ ∃ n, m d = some n ∧ n.isDir = true)
    (hsize : cfg.a.entries.length + 2 < 2 ^ 32) :
    ∃ L, DirListing cfg m ino d L ∧ L.length ≤ cfg.a.entries.length + 2 ∧ ∀ (s : FsState) off buf,
      (s.readdir cfg ino off buf).1 = .dir (fill buf 0 (L.drop (if off = 0 then 0 else off + 1))) := by
  obtain ⟨rg, hrg, hR⟩ := G.entryRange hroot hi hd
  obtain ⟨p, hp, _, _⟩ := G.parentIno hi
  have hcount : rg.count ≤ P.length := by
    by_cases hz : rg.count = 0
    · omega
    · have := G.range_bound hR hz; omega
  have hlen := G.len
  have h0 : ino ≠ 0 := by intro e; simp [e, inoPath] at hi
  refine ⟨fullDir cfg ino p rg, G.fullDir_listing hR hi hp, by rw [fullDir_length]; omega, ?_⟩
  intro s off buf
  simp only [FsState.readdir, if_neg h0, hrg]
  rw [if_neg (by omega)]
  generalize (if off = 0 then 0 else off + 1) = o
  by_cases hle : o ≤ rg.count + 2
  · have hcur2 : 2 ≤ o → (if o > 2 then rg.offset + asU32 (o - 2) else rg.offset) = rg.offset + (o - 2) := by
      intro h2
      split
      · rw [asU32_lt (by omega)]
      · omega
    have hcur1 : o < 2 → (if o > 2 then rg.offset + asU32 (o - 2) else rg.offset) = rg.offset := by
      intro h2; rw [if_neg (by omega)]
    have key := readdirLoop_fill G hR buf (by omega) hp (rg.count + 2 - o) o _ [] s.resolve (by omega) hcur2 hcur1
    cases h1 : readdirLoop cfg ino rg buf (List.range' o (rg.count + 2 - o))
        (if o > 2 then rg.offset + asU32 (o - 2) else rg.offset) [] s.resolve with
    | none => rw [h1] at key; cases key
    | some x =>
      rw [h1] at key
      simp at key
      simp [key, entsSize]
  · have hz : rg.count + 2 - o = 0 := by omega
    have : (fullDir cfg ino p rg).drop o = [] := by rw [List.drop_eq_nil_iff, fullDir_length]; omega
    simp [hz, readdirLoop, this, fill]

end Arx
