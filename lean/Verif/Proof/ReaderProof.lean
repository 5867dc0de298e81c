import Verif.Model.Reader
import Verif.Proof.EncodesProof
/-!
# Reading an encoded archive
-/
namespace Arx

theorem bsearch_spec {cmp : Nat → Res Ordering} {nm : Nat → Bytes} {name : Bytes} {n : Nat}
    (hcmp : ∀ i, i < n → cmp i = .ok (cmpBytes (nm i) name))
    (hmono : ∀ i j, i < j → j < n → ltBytes (nm i) (nm j)) :
    ∀ (f l r : Nat), r ≤ n → r - l ≤ f →
      (∃ j, l ≤ j ∧ j < r ∧ nm j = name ∧ bsearch cmp f l r = .ok (some j)) ∨
      ((∀ j, l ≤ j → j < r → nm j ≠ name) ∧ bsearch cmp f l r = .ok none) := by
  intro f
  induction f with
  | zero => intro l r _ hf; right; exact ⟨fun j h1 h2 => by omega, rfl⟩
  | succ f ih =>
    intro l r hr hf
    simp only [bsearch]
    by_cases hlr : l < r
    · rw [if_pos hlr]
      have hmid : l + (r - l) / 2 < n := by omega
      rw [hcmp _ hmid]
      cases hc : cmpBytes (nm (l + (r - l) / 2)) name with
      | lt =>
        simp only
        rcases ih (l + (r - l) / 2 + 1) r hr (by omega) with ⟨j, h1, h2, h3, h4⟩ | ⟨h1, h2⟩
        · left; exact ⟨j, by omega, h2, h3, h4⟩
        · right; refine ⟨?_, h2⟩
          intro j hj1 hj2 hj
          by_cases hjm : l + (r - l) / 2 + 1 ≤ j
          · exact h1 j hjm hj2 hj
          · have hlt : ltBytes (nm (l + (r - l) / 2)) name := hc
            rcases Nat.lt_or_eq_of_le (Nat.le_of_lt_succ (Nat.lt_of_not_le hjm)) with h | h
            · have := hmono j _ h hmid
              rw [hj] at this; exact ltBytes_asymm this hlt
            · rw [h] at hj; rw [hj] at hlt; exact ltBytes_irrefl _ hlt
      | gt =>
        simp only
        rcases ih l (l + (r - l) / 2) (by omega) (by omega) with ⟨j, h1, h2, h3, h4⟩ | ⟨h1, h2⟩
        · left; exact ⟨j, h1, by omega, h3, h4⟩
        · right; refine ⟨?_, h2⟩
          intro j hj1 hj2 hj
          by_cases hjm : j < l + (r - l) / 2
          · exact h1 j hj1 hjm hj
          · have hlt : ltBytes name (nm (l + (r - l) / 2)) := cmpBytes_gt.mp hc
            rcases Nat.lt_or_eq_of_le (Nat.le_of_not_lt hjm) with h | h
            · have := hmono _ j h (by omega)
              rw [hj] at this; exact ltBytes_asymm this hlt
            · rw [← h] at hj; rw [hj] at hlt; exact ltBytes_irrefl _ hlt
      | eq =>
        left
        exact ⟨_, by omega, by omega, cmpBytes_eq.mp hc, rfl⟩
    · rw [if_neg hlr]
      right; exact ⟨fun j h1 h2 => by omega, rfl⟩

section
variable {a : Archive} {m : PathMap} {P : List (List Bytes)} (E : Encodes a m P)
include E

theorem Encodes.nodup : P.Nodup :=
  E.sorted.imp (fun {a b} h e => by subst e; exact canonLt_irrefl _ h)

theorem Encodes.row_exists {i : Nat} (h : i < P.length) :
    ∃ r n, a.entries[i]? = some r ∧ m P[i] = some n ∧ RowOK P P[i] n r := by
  have hi : i < a.entries.length := by rw [E.len]; exact h
  obtain ⟨n, h1, h2⟩ := E.row i _ _ (List.getElem?_eq_getElem h) (List.getElem?_eq_getElem hi)
  exact ⟨_, n, List.getElem?_eq_getElem hi, h1, h2⟩

theorem Encodes.row_at {i : Nat} {p : List Bytes} (h : P[i]? = some p) :
    ∃ r n, a.entries[i]? = some r ∧ m p = some n ∧ RowOK P p n r := by
  obtain ⟨hi, hp⟩ := List.getElem?_eq_some_iff.mp h
  subst hp; exact E.row_exists hi

/-- Where an existing path is. -/
theorem Encodes.idx_of {p : List Bytes} {n : Node} (h : m p = some n) : ∃ i : Nat, P[i]? = some p :=
  List.mem_iff_getElem?.mp ((E.dom p).mpr ⟨n, h⟩)

theorem Encodes.lt_iff {i j : Nat} {p q : List Bytes} (hi : P[i]? = some p) (hj : P[j]? = some q) :
    i < j ↔ canonLt p q := by
  obtain ⟨hi', rfl⟩ := List.getElem?_eq_some_iff.mp hi
  obtain ⟨hj', rfl⟩ := List.getElem?_eq_some_iff.mp hj
  constructor
  · intro h; exact List.pairwise_iff_getElem.mp E.sorted i j hi' hj' h
  · intro h
    rcases Nat.lt_trichotomy i j with h' | h' | h'
    · exact h'
    · subst h'; exact absurd h (canonLt_irrefl _)
    · exact absurd (List.pairwise_iff_getElem.mp E.sorted j i hj' hi' h') (canonLt_asymm h)

theorem Encodes.idx_inj {i j : Nat} {p : List Bytes} (hi : P[i]? = some p) (hj : P[j]? = some p) : i = j := by
  have := (List.getElem?_eq_some_iff.mp hi).1
  exact (List.getElem?_inj this E.nodup).mp (hi.trans hj.symm)

theorem Encodes.range_bound {d : List Bytes} {f n : Nat} (h : RangeIs P d f n) (hn : n ≠ 0) : f + n ≤ P.length := by
  obtain ⟨x, hx⟩ := (h (f + n - 1)).mp (by omega)
  have := (List.getElem?_eq_some_iff.mp hx).1
  omega

theorem Encodes.find_spec {d : List Bytes} {rg : Range} (hr : RangeIs P d rg.offset rg.count) (name : Bytes) :
    (∃ j, j < rg.count ∧ P[rg.offset + j]? = some (d ++ [name]) ∧ a.find rg name = .ok (some j)) ∨
    (m (d ++ [name]) = none ∧ a.find rg name = .ok none) := by
  -- names of the rows of the range
  have hrow : ∀ i, i < rg.count → ∃ r nm, a.entries[rg.offset + i]? = some r ∧ r.name = nm ∧
      P[rg.offset + i]? = some (d ++ [nm]) := by
    intro i hi
    obtain ⟨nm, hnm⟩ := (hr (rg.offset + i)).mp (by omega)
    obtain ⟨r, n, h1, h2, h3⟩ := E.row_at hnm
    refine ⟨r, nm, h1, ?_, hnm⟩
    have := h3.1; simp at this; exact this.symm
  let nm : Nat → Bytes := fun i => match a.entries[rg.offset + i]? with | some r => r.name | none => []
  have hnm : ∀ i, i < rg.count → P[rg.offset + i]? = some (d ++ [nm i]) := by
    intro i hi
    obtain ⟨r, x, h1, h2, h3⟩ := hrow i hi
    simp only [nm, h1, h2]; exact h3
  have hcmp : ∀ i, i < rg.count → a.compareName name (rg.offset + i) = .ok (cmpBytes (nm i) name) := by
    intro i hi
    obtain ⟨r, x, h1, h2, h3⟩ := hrow i hi
    simp only [Archive.compareName, nm, h1]
  have hmono : ∀ i j, i < j → j < rg.count → ltBytes (nm i) (nm j) := by
    intro i j hij hj
    have := (E.lt_iff (hnm i (by omega)) (hnm j hj)).mp (by omega)
    rcases canonLt_snoc.mp this with h | h
    · exact absurd h (canonLt_irrefl _)
    · exact h.2
  rcases bsearch_spec hcmp hmono rg.count 0 rg.count (Nat.le_refl _) (by omega) with ⟨j, _, h2, h3, h4⟩ | ⟨h1, h2⟩
  · left; exact ⟨j, h2, by rw [hnm j h2, h3], h4⟩
  · right
    refine ⟨?_, h2⟩
    cases hm : m (d ++ [name]) with
    | none => rfl
    | some n =>
      exfalso
      obtain ⟨i, hi⟩ := E.idx_of hm
      have hir := (hr i).mpr ⟨name, hi⟩
      have h5 := hnm (i - rg.offset) (by omega)
      have h6 : rg.offset + (i - rg.offset) = i := by omega
      rw [h6, hi] at h5
      have h7 : name = nm (i - rg.offset) := by simpa using h5
      exact h1 (i - rg.offset) (by omega) (by omega) h7.symm

/-- reading a row of an encoded archive -/
theorem Encodes.create_spec {F L D : Type} (B : Builder F L D) {i : Nat} {p : List Bytes}
    (h : P[i]? = some p) :
    ∃ r n, a.entries[i]? = some r ∧ m p = some n ∧ RowOK P p n r ∧
      a.create B i = match n.kind with
        | .dir => (B.dir i r).map (.dir (rowRange r))
        | .file _ _ => (B.file i r).map .file
        | .link _ => (B.link i r).map .link := by
  obtain ⟨r, n, h1, h2, h3⟩ := E.row_at h
  refine ⟨r, n, h1, h2, h3, ?_⟩
  obtain ⟨_, _, _, _, _, _, h4⟩ := h3
  cases hk : n.kind with
  | dir => rw [hk] at h4; simp [Archive.create, h1, h4.1, EntryType.tryFrom]
  | file => rw [hk] at h4; simp [Archive.create, h1, h4.1, EntryType.tryFrom]
  | link => rw [hk] at h4; simp [Archive.create, h1, h4.1, EntryType.tryFrom]

end

/-- An archive that encodes `m`, small enough for the 32-bit row numbers of the format. -/
structure Good (a : Archive) (m : PathMap) (P : List (List Bytes)) : Prop extends Encodes a m P where
  small : P.length < 2 ^ 32

theorem asU32_lt {n : Nat} (h : n < 2 ^ 32) : asU32 n = n := Nat.mod_eq_of_lt h

section
variable {a : Archive} {m : PathMap} {P : List (List Bytes)} (G : Good a m P)
include G

/-- range of a directory row, as read back -/
theorem Good.rowRange {i : Nat} {p : List Bytes} {r : RawEntry} {n : Node} (h : P[i]? = some p)
    (hr : a.entries[i]? = some r) (hn : m p = some n) (hd : n.kind = .dir) :
    RangeIs P p (rowRange r).offset (rowRange r).count ∧ (rowRange r).offset + (rowRange r).count ≤ P.length := by
  obtain ⟨r', n', h1, h2, h3⟩ := G.row_at h
  rw [hr] at h1; cases h1
  rw [hn] at h2; cases h2
  obtain ⟨_, _, _, _, _, _, h4⟩ := h3
  rw [hd] at h4
  obtain ⟨_, h5, h6, _⟩ := h4
  have hs := G.small
  by_cases h0 : r.nbChildren = 0
  · have hf := h6 h0
    have e1 : (Arx.rowRange r).offset = r.firstChild := by simp [Arx.rowRange, hf, asU32]
    have e2 : (Arx.rowRange r).count = r.nbChildren := by simp [Arx.rowRange, h0, asU32]
    rw [e1, e2]; exact ⟨h5, by omega⟩
  · have hb := G.range_bound h5 h0
    have e1 : (Arx.rowRange r).offset = r.firstChild := by
      simp only [Arx.rowRange]; exact asU32_lt (by omega)
    have e2 : (Arx.rowRange r).count = r.nbChildren := by
      simp only [Arx.rowRange]; exact asU32_lt (by omega)
    rw [e1, e2]; exact ⟨h5, hb⟩

/-- The directory builder does not fail on this archive. -/
def DirTotal (a : Archive) {F L D : Type} (B : Builder F L D) : Prop :=
  ∀ (i : Nat) (r : RawEntry), a.entries[i]? = some r → ∃ d, B.dir i r = .ok d

theorem Good.getLoop {F L D : Type} {B : Builder F L D} (hB : DirTotal a B) :
    ∀ (cs : List Bytes) (d : List Bytes) (rg : Range), cs ≠ [] → RangeIs P d rg.offset rg.count →
      (∃ i : Nat, P[i]? = some (d ++ cs) ∧ a.getLoop B rg cs = a.create B i) ∨
      (m (d ++ cs) = none ∧ a.getLoop B rg cs = .error .notFound) ∨
      (∃ q n, d ≠ q ∧ d <+: q ∧ q <+: d ++ cs ∧ q ≠ d ++ cs ∧ m q = some n ∧ n.isDir = false ∧
        m (d ++ cs) = none ∧ ∃ e : RErr, a.getLoop B rg cs = .error e) := by
  intro cs
  induction cs with
  | nil => intro d rg h; exact absurd rfl h
  | cons c cs ih =>
    intro d rg _ hr
    simp only [Archive.getLoop]
    rcases G.find_spec hr c with ⟨j, hj, hP, hf⟩ | ⟨hm, hf⟩
    · rw [hf]
      simp only
      cases cs with
      | nil =>
        left; refine ⟨rg.offset + j, hP, ?_⟩
        cases a.create B (rg.offset + j) <;> rfl
      | cons c' cs' =>
        obtain ⟨r, n, h1, h2, h3, h4⟩ := G.create_spec B hP
        have hne : (c' :: cs') ≠ ([] : List Bytes) := by simp
        have hassoc : d ++ c :: c' :: cs' = (d ++ [c]) ++ c' :: cs' := by simp
        rw [h4]
        cases hk : n.kind with
        | dir =>
          obtain ⟨x, hx⟩ := hB _ _ h1
          simp only [hx, Except.map]
          obtain ⟨hrr, _⟩ := G.rowRange hP h1 h2 hk
          rw [hassoc]
          rcases ih (d ++ [c]) (Arx.rowRange r) hne hrr with h | h | ⟨q, n', g1, g2, g3, g4, g5, g6, g7⟩
          · exact Or.inl h
          · exact Or.inr (Or.inl h)
          · right; right
            have hpre : d <+: q := (List.prefix_append d [c]).trans g2
            refine ⟨q, n', ?_, hpre, g3, g4, g5, g6, g7⟩
            intro e; subst e
            have := g2.length_le; simp at this; omega
        | file s ct =>
          right; right
          have hnone : m (d ++ c :: c' :: cs') = none := by
            cases hmm : m (d ++ c :: c' :: cs') with
            | none => rfl
            | some y =>
              obtain ⟨dd, hd1, hd2⟩ := G.wf.ancestors _ _ (d ++ [c]) hmm
                ⟨by simp, by simp, by rw [hassoc]; exact List.prefix_append _ _⟩
              rw [h2] at hd1; cases hd1; simp [Node.isDir, hk, Kind.isDir] at hd2
          refine ⟨d ++ [c], n, by simp, List.prefix_append _ _, by rw [hassoc]; exact List.prefix_append _ _, by simp, h2, by simp [Node.isDir, hk, Kind.isDir], hnone, ?_⟩
          cases B.file (rg.offset + j) r with
          | error e => exact ⟨e, rfl⟩
          | ok x => exact ⟨.notFound, rfl⟩
        | link t =>
          right; right
          have hnone : m (d ++ c :: c' :: cs') = none := by
            cases hmm : m (d ++ c :: c' :: cs') with
            | none => rfl
            | some y =>
              obtain ⟨dd, hd1, hd2⟩ := G.wf.ancestors _ _ (d ++ [c]) hmm
                ⟨by simp, by simp, by rw [hassoc]; exact List.prefix_append _ _⟩
              rw [h2] at hd1; cases hd1; simp [Node.isDir, hk, Kind.isDir] at hd2
          refine ⟨d ++ [c], n, by simp, List.prefix_append _ _, by rw [hassoc]; exact List.prefix_append _ _, by simp, h2, by simp [Node.isDir, hk, Kind.isDir], hnone, ?_⟩
          cases B.link (rg.offset + j) r with
          | error e => exact ⟨e, rfl⟩
          | ok x => exact ⟨.notFound, rfl⟩
    · rw [hf]
      right; left
      refine ⟨?_, rfl⟩
      cases cs with
      | nil => exact hm
      | cons c' cs' =>
        cases hmm : m (d ++ c :: c' :: cs') with
        | none => rfl
        | some y =>
          obtain ⟨dd, hd1, _⟩ := G.wf.ancestors _ _ (d ++ [c]) hmm
            ⟨by simp, by simp, by
              have : d ++ c :: c' :: cs' = (d ++ [c]) ++ c' :: cs' := by simp
              rw [this]; exact List.prefix_append _ _⟩
          rw [hm] at hd1; cases hd1

theorem Good.parent_lt {i : Nat} {r : RawEntry} (h : a.entries[i]? = some r) :
    r.parent = 0 ∨ (r.parent ≤ P.length ∧ asU32 r.parent = r.parent ∧ r.parent ≠ 0) := by
  have hi : i < P.length := by rw [← G.len]; exact (List.getElem?_eq_some_iff.mp h).1
  obtain ⟨r', n, h1, h2, h3⟩ := G.row_exists hi
  rw [h] at h1; cases h1
  have hp := h3.2.1
  have hs := G.small
  by_cases h0 : r.parent = 0
  · exact Or.inl h0
  · right
    rw [hp] at h0 ⊢
    by_cases hl : P[i].length ≤ 1
    · simp [hl] at h0
    · rw [if_neg hl]
      -- the parent path is in the table
      have hmem : P[i].dropLast ∈ P := by
        rw [G.dom]
        obtain ⟨d, hd, _⟩ := G.wf.ancestors _ _ P[i].dropLast h2
          ⟨by intro e; have := congrArg List.length e; simp at this; omega,
           by intro e; have := congrArg List.length e; simp at this; omega,
           List.dropLast_prefix _⟩
        exact ⟨d, hd⟩
      have := List.idxOf_lt_length_of_mem hmem
      exact ⟨by omega, asU32_lt (by omega), by omega⟩

theorem Good.commonCreate {i : Nat} {r : RawEntry} (h : a.entries[i]? = some r) :
    Arx.commonCreate i r = .ok
      { idx := i, path := r.name, parent := if r.parent = 0 then none else some (r.parent - 1),
        owner := asU32 r.owner, group := asU32 r.group, rights := r.rights % 256, mtime := r.mtime } := by
  rcases G.parent_lt h with h0 | ⟨h1, h2, h3⟩
  · simp [Arx.commonCreate, h0]
  · simp [Arx.commonCreate, h2, h3]

theorem Good.fullBuilder_total : DirTotal a fullBuilder := by
  intro i r h
  simp [fullBuilder, G.commonCreate h, Except.map]

theorem Good.fullBuilder_file {i : Nat} {r : RawEntry} (h : a.entries[i]? = some r) :
    (∃ x, fullBuilder.file i r = .ok x) ∧ (∃ x, fullBuilder.link i r = .ok x) := by
  simp [fullBuilder, G.commonCreate h, Except.map]

/-- with the full builder, a missing path is "not found" -/
theorem Good.getLoop_notFound :
    ∀ (cs : List Bytes) (d : List Bytes) (rg : Range), cs ≠ [] → RangeIs P d rg.offset rg.count →
      m (d ++ cs) = none → a.getLoop fullBuilder rg cs = .error .notFound := by
  intro cs
  induction cs with
  | nil => intro d rg h; exact absurd rfl h
  | cons c cs ih =>
    intro d rg _ hr hm
    simp only [Archive.getLoop]
    rcases G.find_spec hr c with ⟨j, hj, hP, hf⟩ | ⟨_, hf⟩
    · rw [hf]
      simp only
      obtain ⟨r, n, h1, h2, h3, h4⟩ := G.create_spec fullBuilder hP
      cases cs with
      | nil => rw [hm] at h2; cases h2
      | cons c' cs' =>
        have hassoc : d ++ c :: c' :: cs' = (d ++ [c]) ++ c' :: cs' := by simp
        rw [h4]
        cases hk : n.kind with
        | dir =>
          obtain ⟨x, hx⟩ := G.fullBuilder_total _ _ h1
          simp only [hx, Except.map]
          obtain ⟨hrr, _⟩ := G.rowRange hP h1 h2 hk
          exact ih (d ++ [c]) (Arx.rowRange r) (by simp) hrr (by rw [← hassoc]; exact hm)
        | file s ct =>
          obtain ⟨⟨x, hx⟩, _⟩ := G.fullBuilder_file h1
          simp only [hx, Except.map]
        | link t =>
          obtain ⟨_, x, hx⟩ := G.fullBuilder_file h1
          simp only [hx, Except.map]
    · rw [hf]

end
end Arx
