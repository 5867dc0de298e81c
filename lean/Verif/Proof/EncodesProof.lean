import Verif.Proof.LayoutProof
/-!
# The written table encodes the map
-/
namespace Arx

/-- A duplicate-free, gap-free list of numbers is the interval given by its minimum and length. -/
theorem interval_of_convex {L : List Nat} (hn : L.Nodup)
    (hc : ∀ a b x, a ∈ L → b ∈ L → a ≤ x → x ≤ b → x ∈ L) (j : Nat) :
    (L.min?.getD 0 ≤ j ∧ j < L.min?.getD 0 + L.length) ↔ j ∈ L := by
  cases hm : L.min? with
  | none =>
    have : L = [] := by simpa using hm
    subst this; simp
  | some m =>
    simp only [Option.getD_some]
    obtain ⟨hmem, hmin⟩ := List.min?_eq_some_iff.mp hm
    constructor
    · rintro ⟨h1, h2⟩
      by_cases hj : j ∈ L
      · exact hj
      · exfalso
        have hsub : L ⊆ List.range' m (j - m) := by
          intro x hx
          rw [List.mem_range'_1]
          refine ⟨hmin x hx, ?_⟩
          by_cases hxj : x < j
          · omega
          · exact absurd (hc m x j hmem hx h1 (by omega)) hj
        have := hn.length_le_of_subset hsub
        simp at this; omega
    · intro hj
      refine ⟨hmin j hj, ?_⟩
      have hsub : List.range' m (j - m + 1) ⊆ L := by
        intro x hx
        rw [List.mem_range'_1] at hx
        have := hmin j hj
        exact hc m j x hmem hj hx.1 (by omega)
      have := (List.nodup_range' (s := m) (n := j - m + 1)).length_le_of_subset hsub
      have h3 := hmin j hj
      simp at this; omega

theorem idxOf_of_getElem? {α : Type} [BEq α] [LawfulBEq α] {P : List α} (hn : P.Nodup) {i : Nat} {p : α}
    (h : P[i]? = some p) : P.idxOf p = i := by
  obtain ⟨hi, h'⟩ := List.getElem?_eq_some_iff.mp h
  subst h'
  have hm : P[i] ∈ P := List.getElem_mem hi
  have hlt := List.idxOf_lt_length_of_mem hm
  have h3 : P[P.idxOf P[i]]? = P[i]? := by
    rw [List.getElem?_eq_getElem hlt, h]; simp
  exact (List.getElem?_inj hlt hn).mp h3

/-- The paths of the rows of the table written for the numbering `o`. -/
def rowPaths (paths : List (List Bytes)) (o : List Nat) : List (List Bytes) := o.map (pth paths)

section
variable {st : Creator} {m : PathMap} {paths : List (List Bytes)} (R : Rel st m paths)
include R

theorem Rel.encodes {o : List Nat} (hl : IsLayout st o) (hn : st.store.length < 2 ^ 32) :
    Encodes (writeArchive st o) m (rowPaths paths o) := by
  have ho : o.Perm (List.range paths.length) := by rw [R.len]; exact hl.1
  have hond : o.Nodup := ho.nodup_iff.mpr List.nodup_range
  have hmem : ∀ x, x ∈ o ↔ x < paths.length := by
    intro x; rw [ho.mem_iff]; simp
  have hlt : ∀ {i id : Nat}, o[i]? = some id → id < paths.length := by
    intro i id h; exact (hmem id).mp (List.mem_of_getElem? h)
  -- rows
  have hent : (writeArchive st o).entries = o.map (fun id => rawOf st o id ((st.store[id]?).getD ⟨[], none, default, .dir⟩)) := by
    simp only [writeArchive]
    have : ∀ l : List Nat, (∀ x ∈ l, x < paths.length) →
        l.filterMap (fun id => (st.store[id]?).map (rawOf st o id)) =
        l.map (fun id => rawOf st o id ((st.store[id]?).getD ⟨[], none, default, .dir⟩)) := by
      intro l
      induction l with
      | nil => intro _; rfl
      | cons a l ih =>
        intro h
        obtain ⟨e, he⟩ := R.store_lt (h a (by simp))
        simp [List.filterMap_cons, he, ih (fun x hx => h x (by simp [hx]))]
    exact this o (fun x hx => (hmem x).mp hx)
  have hP : ∀ (i : Nat) (p : List Bytes), (rowPaths paths o)[i]? = some p ↔ ∃ id, o[i]? = some id ∧ pth paths id = p := by
    intro i p; simp [rowPaths, List.getElem?_map]
  have hPpos : ∀ id, id < paths.length → (rowPaths paths o)[posOf o id]? = some (pth paths id) := by
    intro id hid
    rw [hP]; exact ⟨id, posOf_getElem? ((hmem id).mpr hid), rfl⟩
  have hsorted : (rowPaths paths o).Pairwise canonLt := by
    rw [List.pairwise_iff_getElem]
    intro i j hi hj hij
    simp only [rowPaths, List.length_map] at hi hj
    simp only [rowPaths, List.getElem_map]
    have h1 := List.getElem?_eq_getElem hi
    have h2 := List.getElem?_eq_getElem hj
    apply (R.layout_pos hl (hlt h1) (hlt h2)).mp
    rw [posOf_of_getElem? hond h1, posOf_of_getElem? hond h2]; exact hij
  have hnd : (rowPaths paths o).Nodup :=
    hsorted.imp (fun {a b} h e => by subst e; exact canonLt_irrefl _ h)
  have hwf := R.wf
  -- child positions of a directory handle
  have hchild : ∀ (cur : Option Nat), DirHandle st cur → ∀ j,
      j ∈ (st.cache cur).map (fun x => posOf o x.2.id) ↔
        ∃ n, (rowPaths paths o)[j]? = some (curPath paths cur ++ [n]) := by
    intro cur hcur j
    constructor
    · intro h
      obtain ⟨⟨n, ch⟩, hx, rfl⟩ := List.mem_map.mp h
      obtain ⟨e, he, hname, hpar, _⟩ := R.cache _ _ _ hx
      refine ⟨n, ?_⟩
      have hid : ch.id < paths.length := by rw [R.len]; exact (List.getElem?_eq_some_iff.mp he).1
      rw [hPpos ch.id hid, R.pth_eq he, hname, hpar]
    · rintro ⟨n, h⟩
      obtain ⟨id, hid, hp⟩ := (hP j _).mp h
      obtain ⟨e, he⟩ := R.store_lt (hlt hid)
      rw [R.pth_eq he] at hp
      have h' := List.append_inj' hp rfl
      have hpar := R.curPath_inj (R.parentHandle he) hcur h'.1
      refine List.mem_map.mpr ⟨(e.name, ⟨id, e.kind.isDir⟩), hpar ▸ R.incache id e he, ?_⟩
      exact posOf_of_getElem? hond hid
  have hposnd : ∀ cur, ((st.cache cur).map (fun x => posOf o x.2.id)).Nodup := by
    intro cur
    have hcn := R.cacheNodup cur
    simp only [List.Nodup, List.pairwise_map] at hcn ⊢
    refine List.Pairwise.imp_of_mem ?_ hcn
    intro a b ha hb hab heq
    obtain ⟨ea, hea, hna, _⟩ := R.cache cur a.1 a.2 ha
    obtain ⟨eb, heb, hnb, _⟩ := R.cache cur b.1 b.2 hb
    have hia : a.2.id < paths.length := by rw [R.len]; exact (List.getElem?_eq_some_iff.mp hea).1
    have hib : b.2.id < paths.length := by rw [R.len]; exact (List.getElem?_eq_some_iff.mp heb).1
    have := posOf_inj ((hmem _).mpr hia) ((hmem _).mpr hib) heq
    rw [this, heb] at hea; cases hea
    exact hab (hna.symm.trans hnb)
  have hconv : ∀ cur, DirHandle st cur → ∀ a b x,
      a ∈ (st.cache cur).map (fun x => posOf o x.2.id) → b ∈ (st.cache cur).map (fun x => posOf o x.2.id) →
      a ≤ x → x ≤ b → x ∈ (st.cache cur).map (fun x => posOf o x.2.id) := by
    intro cur hcur a b x ha hb hax hxb
    obtain ⟨na, hna⟩ := (hchild cur hcur a).mp ha
    obtain ⟨nb, hnb⟩ := (hchild cur hcur b).mp hb
    rcases Nat.lt_or_eq_of_le hax with hax | rfl
    · rcases Nat.lt_or_eq_of_le hxb with hxb | rfl
      · rw [hchild cur hcur]
        have hbl := (List.getElem?_eq_some_iff.mp hnb).1
        have hal := (List.getElem?_eq_some_iff.mp hna).1
        have hxl : x < (rowPaths paths o).length := by omega
        have p1 := List.pairwise_iff_getElem.mp hsorted a x hal hxl hax
        have p2 := List.pairwise_iff_getElem.mp hsorted x b hxl hbl hxb
        rw [(List.getElem?_eq_some_iff.mp hna).2] at p1
        rw [(List.getElem?_eq_some_iff.mp hnb).2] at p2
        obtain ⟨c, hc⟩ := canonLt_between p1 p2
        exact ⟨c, by rw [List.getElem?_eq_getElem hxl, hc]⟩
      · exact hb
    · exact ha
  have hrange : ∀ cur, DirHandle st cur → ∀ j,
      ((((st.cache cur).map (fun x => posOf o x.2.id)).min?.getD 0 ≤ j ∧
        j < ((st.cache cur).map (fun x => posOf o x.2.id)).min?.getD 0 + (st.cache cur).length) ↔
      ∃ n, (rowPaths paths o)[j]? = some (curPath paths cur ++ [n])) := by
    intro cur hcur j
    have := interval_of_convex (hposnd cur) (hconv cur hcur) j
    rw [List.length_map] at this
    rw [this, hchild cur hcur]
  constructor
  · simp [hent, rowPaths]
  · exact hsorted
  · intro p
    constructor
    · intro hp
      obtain ⟨id, hid, rfl⟩ := List.mem_map.mp hp
      obtain ⟨e, he⟩ := R.store_lt ((hmem id).mp hid)
      exact ⟨e.node, by rw [R.pth_eq he]; exact R.node id e he⟩
    · rintro ⟨n, hn'⟩
      obtain ⟨i, e, he, hp, hpi⟩ := R.mem_paths (R.dom _ _ hn')
      refine List.mem_map.mpr ⟨i, (hmem i).mpr ?_, ?_⟩
      · rw [R.len]; exact (List.getElem?_eq_some_iff.mp he).1
      · rw [R.pth_eq he, hp]
  · intro i p r hp hr
    obtain ⟨id, hid, hpid⟩ := (hP i p).mp hp
    obtain ⟨e, he⟩ := R.store_lt (hlt hid)
    have hpe := R.pth_eq he
    rw [hpid] at hpe
    have hr' : r = rawOf st o id e := by
      rw [hent, List.getElem?_map, hid] at hr
      simp [he] at hr; exact hr.symm
    have hmn := R.node id e he
    rw [← hpe] at hmn
    refine ⟨e.node, hmn, ?_⟩
    have hparent : parentKey o e.parent = (if p.length ≤ 1 then 0 else (rowPaths paths o).idxOf p.dropLast + 1) := by
      cases hpar : e.parent with
      | none => rw [hpe, hpar]; simp [parentKey]
      | some q =>
        obtain ⟨_, pe, hqe, _⟩ := R.parent id e q he hpar
        have hq := R.parent_lt he hpar
        have hcp : curPath paths (some q) = pth paths q := rfl
        have hne := R.pth_ne_nil hq
        have hlen : ¬ p.length ≤ 1 := by
          rw [hpe, hpar, hcp]
          have := List.length_pos_iff.mpr hne
          simp; omega
        rw [if_neg hlen, hpe, hpar, hcp]
        simp only [List.dropLast_concat, parentKey, Nat.add_right_cancel_iff]
        exact (idxOf_of_getElem? hnd (hPpos q hq)).symm
    have hlast : p.getLast? = some e.name := by rw [hpe]; simp
    rw [hr']
    cases hk : e.kind with
    | dir =>
      have hcp : curPath paths (some id) = p := by
        have : curPath paths (some id) = pth paths id := rfl
        rw [this, hpid]
      have hdh : DirHandle st (some id) := by
        intro i hi; cases hi; exact ⟨e, he, hk⟩
      refine ⟨by simp [rawOf, hk, hlast], by simp [rawOf, hk, hparent], ?_⟩
      simp only [rawOf, hk, CEntry.node, true_and, EntryType.variantIdx]
      refine ⟨?_, ?_, trivial⟩
      · intro j
        have := hrange (some id) hdh j
        rw [hcp] at this
        exact this
      · intro h0
        have : st.cache (some id) = [] := by simpa [entryCountOf] using h0
        simp [firstEntry, this]
    | file size content =>
      exact ⟨by simp [rawOf, hk, hlast], by simp [rawOf, hk, hparent], by simp [rawOf, hk, CEntry.node, EntryType.variantIdx]⟩
    | link target =>
      exact ⟨by simp [rawOf, hk, hlast], by simp [rawOf, hk, hparent], by simp [rawOf, hk, CEntry.node, EntryType.variantIdx]⟩
  · have hroot : DirHandle st none := by intro i hi; cases hi
    refine ⟨rfl, ?_⟩
    have hcl : (st.cache none).length ≤ st.store.length := by
      have hsub : (st.cache none).map (fun x => posOf o x.2.id) ⊆ List.range o.length := by
        intro j hj
        obtain ⟨n, hj'⟩ := (hchild none hroot j).mp hj
        have := (List.getElem?_eq_some_iff.mp hj').1
        simpa [rowPaths] using this
      have := (hposnd none).length_le_of_subset hsub
      have hol : o.length = st.store.length := by simpa using hl.1.length_eq
      simpa [hol] using this
    have hcount : (writeArchive st o).root.count = (st.cache none).length := by
      simp only [writeArchive, Creator.entryCount]
      exact Nat.mod_eq_of_lt (by omega)
    rw [hcount]
    have hr := hrange none hroot
    have hmin : ((st.cache none).map (fun x => posOf o x.2.id)).min?.getD 0 = 0 := by
      cases hm : ((st.cache none).map (fun x => posOf o x.2.id)).min? with
      | none => rfl
      | some k =>
        simp only [Option.getD_some]
        obtain ⟨hmem', hmin'⟩ := List.min?_eq_some_iff.mp hm
        obtain ⟨n, hk⟩ := (hchild none hroot k).mp hmem'
        have hkl := (List.getElem?_eq_some_iff.mp hk).1
        -- row 0 is a top-level entry
        rcases Nat.eq_zero_or_pos k with h0 | h0
        · exact h0
        · have hl0 : 0 < (rowPaths paths o).length := by omega
          have h := List.pairwise_iff_getElem.mp hsorted 0 k hl0 hkl h0
          rw [(List.getElem?_eq_some_iff.mp hk).2] at h
          have hid0 : (rowPaths paths o)[0]? = some (rowPaths paths o)[0] := List.getElem?_eq_getElem hl0
          obtain ⟨id, hid, hpid⟩ := (hP 0 _).mp hid0
          have hne := R.pth_ne_nil (hlt hid)
          rw [hpid] at hne
          have hlen : (rowPaths paths o)[0].length ≤ 1 := by
            unfold canonLt at h; simp only [curPath_none, List.nil_append, List.length_singleton] at h; omega
          have : ∃ c, (rowPaths paths o)[0] = [c] := by
            cases hx : (rowPaths paths o)[0] with
            | nil => exact absurd hx hne
            | cons c cs =>
              rw [hx] at hlen; simp at hlen; exact ⟨c, by rw [hlen]⟩
          obtain ⟨c, hc⟩ := this
          have : 0 ∈ (st.cache none).map (fun x => posOf o x.2.id) := by
            rw [hchild none hroot]; exact ⟨c, by rw [hid0, hc]; rfl⟩
          have := hmin' 0 this
          omega
    rw [hmin] at hr
    intro j; exact hr j
  · exact hwf

end

/-- A set of paths has one increasing list. -/
theorem canon_unique : ∀ (P Q : List (List Bytes)), P.Pairwise canonLt → Q.Pairwise canonLt → (∀ p, p ∈ P ↔ p ∈ Q) → P = Q := by
  intro P
  induction P with
  | nil =>
    intro Q _ _ h
    cases Q with
    | nil => rfl
    | cons q qs => have := (h q).mpr (by simp); simp at this
  | cons p ps ih =>
    intro Q hP hQ h
    cases Q with
    | nil => have := (h p).mp (by simp); simp at this
    | cons q qs =>
      have hP' := List.pairwise_cons.mp hP
      have hQ' := List.pairwise_cons.mp hQ
      have hpq : p = q := by
        have h1 := (h p).mp (by simp)
        have h2 := (h q).mpr (by simp)
        rcases List.mem_cons.mp h1 with h1 | h1
        · exact h1
        · rcases List.mem_cons.mp h2 with h2 | h2
          · exact h2.symm
          · exact absurd (hP'.1 q h2) (canonLt_asymm (hQ'.1 p h1))
      subst hpq
      congr 1
      apply ih qs hP'.2 hQ'.2
      intro x
      constructor
      · intro hx
        rcases List.mem_cons.mp ((h x).mp (by simp [hx])) with rfl | h'
        · exact absurd (hP'.1 x hx) (canonLt_irrefl _)
        · exact h'
      · intro hx
        rcases List.mem_cons.mp ((h x).mpr (by simp [hx])) with rfl | h'
        · exact absurd (hQ'.1 x hx) (canonLt_irrefl _)
        · exact h'

/-- ranges with the same members have the same bounds -/
theorem RangeIs.unique {P : List (List Bytes)} (d : List Bytes) (f1 n1 f2 n2 : Nat) (h1 : RangeIs P d f1 n1) (h2 : RangeIs P d f2 n2) :
    n1 = n2 ∧ (n1 ≠ 0 → f1 = f2) := by
  have h : ∀ j, (f1 ≤ j ∧ j < f1 + n1) ↔ (f2 ≤ j ∧ j < f2 + n2) := fun j => (h1 j).trans (h2 j).symm
  have e1 := h f1; have e2 := h f2
  have e3 := h (f1 + n1 - 1); have e4 := h (f2 + n2 - 1)
  constructor
  · omega
  · omega

/-- The table determines the map's rows: two tables encoding the same map are equal. -/
theorem Encodes.unique {a b : Archive} {m : PathMap} {P Q : List (List Bytes)}
    (ha : Encodes a m P) (hb : Encodes b m Q) : a = b := by
  have hPQ : P = Q := by
    have hmem : ∀ p, p ∈ P ↔ p ∈ Q := fun p => (ha.dom p).trans (hb.dom p).symm
    exact canon_unique P Q ha.sorted hb.sorted hmem
  subst hPQ
  have hrow : ∀ (p : List Bytes) (n : Node) (r s : RawEntry), RowOK P p n r → RowOK P p n s → r = s := by
    intro p n r s hr hs
    obtain ⟨r1, r2, r3, r4, r5, r6, r7⟩ := hr
    obtain ⟨s1, s2, s3, s4, s5, s6, s7⟩ := hs
    have hname : r.name = s.name := by rw [r1] at s1; simpa using s1
    cases hk : n.kind with
    | dir =>
      rw [hk] at r7 s7
      obtain ⟨r8, r9, r10, r11, r12, r13⟩ := r7
      obtain ⟨s8, s9, s10, s11, s12, s13⟩ := s7
      obtain ⟨h1, h2⟩ := RangeIs.unique p _ _ _ _ r9 s9
      have hf : r.firstChild = s.firstChild := by
        by_cases h0 : r.nbChildren = 0
        · rw [r10 h0, s10 (h1 ▸ h0)]
        · exact h2 h0
      cases r; cases s; simp_all
    | file size content =>
      rw [hk] at r7 s7
      cases r; cases s; simp_all
    | link target =>
      rw [hk] at r7 s7
      cases r; cases s; simp_all
  have hent : a.entries = b.entries := by
    apply List.ext_getElem?
    intro i
    by_cases hi : i < P.length
    · have hia : i < a.entries.length := by rw [ha.len]; exact hi
      have hib : i < b.entries.length := by rw [hb.len]; exact hi
      have hPi := List.getElem?_eq_getElem hi
      have hai := List.getElem?_eq_getElem hia
      have hbi := List.getElem?_eq_getElem hib
      obtain ⟨n, hn, hr⟩ := ha.row i _ _ hPi hai
      obtain ⟨n', hn', hs⟩ := hb.row i _ _ hPi hbi
      rw [hn] at hn'; cases hn'
      rw [hai, hbi, hrow _ n _ _ hr hs]
    · rw [List.getElem?_eq_none (by rw [ha.len]; omega), List.getElem?_eq_none (by rw [hb.len]; omega)]
  have hroot : a.root = b.root := by
    obtain ⟨h1, h2⟩ := ha.root
    obtain ⟨h3, h4⟩ := hb.root
    obtain ⟨h5, _⟩ := RangeIs.unique [] _ _ _ _ h2 h4
    cases hra : a.root; cases hrb : b.root
    rw [hra] at h1 h5; rw [hrb] at h3 h5
    simp_all
  cases a; cases b; simp_all

end Arx
