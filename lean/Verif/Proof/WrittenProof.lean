import Verif.Spec.Written
import Verif.Proof.ReaderProof
/-!
# From histories to archives
-/
namespace Arx

theorem SpecAdd.det {m m1 m2 : PathMap} {r : AddReq} {o1 o2 : AddOut} (h1 : SpecAdd m r m1 o1)
    (h2 : SpecAdd m r m2 o2) (n1 : o1 ≠ .panic) (n2 : o2 ≠ .panic) : m1 = m2 := by
  cases h1 <;> cases h2 <;> simp_all

theorem SpecRun.det {rs : List AddReq} : ∀ {m m1 m2 : PathMap}, SpecRun m rs m1 → SpecRun m rs m2 → m1 = m2 := by
  induction rs with
  | nil => intro m m1 m2 h1 h2; cases h1; cases h2; rfl
  | cons r rs ih =>
    intro m m1 m2 h1 h2
    cases h1 with
    | cons a1 b1 c1 =>
      cases h2 with
      | cons a2 b2 c2 =>
        have := a1.det a2 b1 b2
        subst this; exact ih c1 c2

theorem SpecRun.append {rs ss : List AddReq} : ∀ {m m1 m2 : PathMap},
    SpecRun m rs m1 → SpecRun m1 ss m2 → SpecRun m (rs ++ ss) m2 := by
  induction rs with
  | nil => intro m m1 m2 h1 h2; cases h1; exact h2
  | cons r rs ih =>
    intro m m1 m2 h1 h2
    cases h1 with
    | cons a b c => exact .cons a b (ih c h2)

theorem Creator.run_append (rs ss : List AddReq) : ∀ st : Creator,
    st.run (rs ++ ss) = (st.run rs).bind (fun s => s.run ss) := by
  induction rs with
  | nil => intro st; rfl
  | cons r rs ih =>
    intro st
    simp only [List.cons_append, Creator.run]
    cases h : st.addEntry r with
    | mk s o => cases o <;> simp [ih]

/-- every crash-free history has a specification map, and the state represents it -/
theorem run_rel {rs : List AddReq} {st : Creator} (h : Creator.new.run rs = some st) :
    ∃ m paths, SpecRun PathMap.empty rs m ∧ Rel st m paths := Rel.new.run h

theorem Written.good {rs : List AddReq} {a : Archive} (h : Written rs a) :
    ∃ m P, SpecRun PathMap.empty rs m ∧ Good a m P := by
  obtain ⟨st, o, h1, h2, h3, h4⟩ := h
  obtain ⟨m, paths, hs, R⟩ := run_rel h1
  have E := R.encodes h2 h4
  refine ⟨m, rowPaths paths o, hs, ?_⟩
  rw [h3]
  refine ⟨E, ?_⟩
  have : o.length = st.store.length := by simpa using h2.1.length_eq
  simp [rowPaths, this, h4]

theorem Written.good' {rs : List AddReq} {a : Archive} {m : PathMap} (h : Written rs a)
    (hm : SpecRun PathMap.empty rs m) : ∃ P, Good a m P := by
  obtain ⟨m', P, h1, h2⟩ := h.good
  have := h1.det hm; subst this; exact ⟨P, h2⟩

/-- reading row `i` with the full builder -/
theorem Good.getEntryAt {a : Archive} {m : PathMap} {P : List (List Bytes)} (G : Good a m P) {i : Nat}
    {p : List Bytes} {n : Node} (h : P[i]? = some p) (hn : m p = some n) :
    ∃ e, a.create fullBuilder i = .ok e ∧ EntryIs e n ∧ p.getLast? = some e.common.path ∧ e.common.idx = i ∧
      e.common.rights = n.info.rights % 256 ∧
      e.common.parent = (if p.length ≤ 1 then none else some (P.idxOf p.dropLast)) ∧
      (∀ r d, e = .dir r d → d.range = r ∧ RangeIs P p r.offset r.count ∧ r.offset + r.count ≤ P.length) := by
  obtain ⟨r, n', h1, h2, h3, h4⟩ := G.create_spec fullBuilder h
  rw [hn] at h2; cases h2
  have hc := G.commonCreate h1
  have hrr := G.rowRange h h1 hn
  obtain ⟨c1, c2, c3, c4, c5, c6, c7⟩ := h3
  have hpar : (if r.parent = 0 then none else some (r.parent - 1)) = (if p.length ≤ 1 then none else some (P.idxOf p.dropLast)) := by
    rw [c2]; by_cases hl : p.length ≤ 1 <;> simp [hl]
  rw [h4]
  cases hk : n.kind with
  | dir =>
    rw [hk] at c7
    simp only [fullBuilder, hc, Except.map]
    refine ⟨_, rfl, ⟨c6, by simp [Entry.common, c3], by simp [Entry.common, c4], ?_⟩, ?_, rfl, ?_, hpar, ?_⟩
    · rw [hk]; exact ⟨_, _, rfl⟩
    · simp [Entry.common, c1]
    · simp [Entry.common, c5]
    · intro r' d' he
      injection he with he1 he2
      subst he1; subst he2
      obtain ⟨q1, q2⟩ := hrr hk
      exact ⟨rfl, q1, q2⟩
  | file s ct =>
    rw [hk] at c7
    simp only [fullBuilder, hc, Except.map]
    refine ⟨_, rfl, ⟨c6, by simp [Entry.common, c3], by simp [Entry.common, c4], ?_⟩, ?_, rfl, ?_, hpar, ?_⟩
    · rw [hk]; exact ⟨_, rfl, c7.2.1, c7.2.2.1⟩
    · simp [Entry.common, c1]
    · simp [Entry.common, c5]
    · intro r' d' he; cases he
  | link t =>
    rw [hk] at c7
    simp only [fullBuilder, hc, Except.map]
    refine ⟨_, rfl, ⟨c6, by simp [Entry.common, c3], by simp [Entry.common, c4], ?_⟩, ?_, rfl, ?_, hpar, ?_⟩
    · rw [hk]; exact ⟨_, rfl, c7.2.1⟩
    · simp [Entry.common, c1]
    · simp [Entry.common, c5]
    · intro r' d' he; cases he

/-- following parents spells the path -/
theorem Good.pathUp {a : Archive} {m : PathMap} {P : List (List Bytes)} (G : Good a m P) :
    ∀ (fuel i : Nat) (p : List Bytes), P[i]? = some p → p.length ≤ fuel → Arx.pathUp a fuel i = some p := by
  intro fuel
  induction fuel with
  | zero =>
    intro i p h hl
    have : p = [] := List.length_eq_zero_iff.mp (by omega)
    subst this
    obtain ⟨n, hn⟩ := (G.dom []).mp (List.mem_of_getElem? h)
    rw [G.wf.root] at hn; cases hn
  | succ f ih =>
    intro i p h hl
    obtain ⟨n, hn⟩ := (G.dom p).mp (List.mem_of_getElem? h)
    obtain ⟨e, h1, h2, h3, h4, h5, h6, _⟩ := G.getEntryAt h hn
    simp only [Arx.pathUp, Archive.getEntryAt, h1, h6]
    have hsplit : p = p.dropLast ++ [e.common.path] := by
      rcases List.eq_nil_or_concat p with hp | ⟨q, c, hp⟩
      · subst hp; simp at h3
      · rw [List.concat_eq_append] at hp; subst hp; simp at h3; simp [h3]
    by_cases hlen : p.length ≤ 1
    · rw [if_pos hlen]
      have : p.dropLast = [] := List.length_eq_zero_iff.mp (by simp; omega)
      rw [hsplit, this]; simp
    · rw [if_neg hlen]
      have hmem : p.dropLast ∈ P := by
        rw [G.dom]
        obtain ⟨d, hd, _⟩ := G.wf.ancestors _ _ p.dropLast hn
          ⟨by intro e; have := congrArg List.length e; simp at this; omega,
           by intro e; have := congrArg List.length e; simp at this; omega,
           List.dropLast_prefix _⟩
        exact ⟨d, hd⟩
      have hidx : P[P.idxOf p.dropLast]? = some p.dropLast := by
        rw [List.getElem?_eq_getElem (List.idxOf_lt_length_of_mem hmem)]; simp
      simp only
      rw [ih _ _ hidx (by simp; omega)]
      simp [← hsplit]

theorem Good.length_path_le {a : Archive} {m : PathMap} {P : List (List Bytes)} (G : Good a m P) :
    ∀ (k : Nat) (p : List Bytes) (i : Nat), p.length ≤ k → P[i]? = some p → p.length ≤ i + 1 := by
  intro k
  induction k with
  | zero => intro p i h1 h2; omega
  | succ k ih =>
    intro p i hk h
    by_cases hlen : p.length ≤ 1
    · omega
    · obtain ⟨n, hn⟩ := (G.dom p).mp (List.mem_of_getElem? h)
      obtain ⟨d, hd, _⟩ := G.wf.ancestors _ _ p.dropLast hn
        ⟨by intro e; have := congrArg List.length e; simp at this; omega,
         by intro e; have := congrArg List.length e; simp at this; omega,
         List.dropLast_prefix _⟩
      obtain ⟨j, hj⟩ := G.idx_of hd
      have := ih p.dropLast j (by simp; omega) hj
      have hlt : j < i := (G.lt_iff hj h).mpr (Or.inl (by simp; omega))
      simp at this; omega

end Arx
