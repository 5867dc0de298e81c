import Verif.Props.Creation
import Verif.Proof.Accepted
import Verif.Proof.HostProof
import Verif.Spec.History
/-!
# C01 in terms of the calls
-/
namespace Arx

theorem Provides.ne_nil {st : Creator} {r : AddReq} {m m' : PathMap} (hs : SpecAdd m r m' (st.addEntry r).2) {n : Node} :
    ¬ Provides st r [] n := by
  intro h
  generalize hp : ([] : List Bytes) = p at h
  cases h with
  | entry k ho hk =>
    rw [ho] at hs
    cases hs with
    | ignored h1 h2 => rw [hk] at h2; cases h2
    | sameDir n h1 h2 h3 h4 h5 h6 => exact h2 hp.symm
    | added k' h1 h2 h3 h4 h5 => exact h2 hp.symm
  | parent q ho hq => exact hq.1 hp.symm

/-- the effect of one call, path by path -/
theorem SpecAdd.provides {st : Creator} {r : AddReq} {m m' : PathMap} (hs : SpecAdd m r m' (st.addEntry r).2)
    (hne : (st.addEntry r).2 ≠ .panic) (hwf : m.WF) (p : List Bytes) (n : Node) :
    m' p = some n ↔ m p = some n ∨ (m p = none ∧ Provides st r p n) := by
  have keep : ∀ x, m p = some x → (m' p = some n ↔ m p = some n ∨ (m p = none ∧ Provides st r p n)) := by
    intro x hx
    have := hs.keeps hne hx
    rw [this, hx]; simp
  cases hmp : m p with
  | some x => rw [← hmp]; exact keep x hmp
  | none =>
    simp only [reduceCtorEq, true_and, false_or]
    have hparent : ∀ q, withParents m q p = some n ↔ ProperAncestor p q ∧ n = defaultDir := by
      intro q
      simp only [withParents, hmp]
      split
      · rename_i h; simp [h, eq_comm]
      · rename_i h; simp [h]
    generalize ho : (st.addEntry r).2 = o at hs hne
    cases hs with
    | blocked hb =>
      rw [hmp]
      simp only [reduceCtorEq, false_iff]
      intro h
      cases h with
      | entry k h1 h2 => rw [ho] at h1; cases h1
      | parent _ h1 h2 => rw [ho] at h1; rcases h1 with h1 | h1 <;> cases h1
    | kindErr u h1 h2 =>
      rw [hparent]
      constructor
      · rintro ⟨h3, rfl⟩; exact .parent p (Or.inr ho) h3
      · intro h
        cases h with
        | entry k h3 h4 => rw [ho] at h3; cases h3
        | parent _ h3 h4 => exact ⟨h4, rfl⟩
    | ignored h1 h2 =>
      rw [hparent]
      constructor
      · rintro ⟨h3, rfl⟩; exact .parent p (Or.inl ho) h3
      · intro h
        cases h with
        | entry k h3 h4 => rw [h2] at h4; cases h4
        | parent _ h3 h4 => exact ⟨h4, rfl⟩
    | noName _ k h1 h2 h3 => exact absurd rfl hne
    | sameDir x h1 h2 h3 h4 h5 h6 =>
      rw [hmp]
      simp only [reduceCtorEq, false_iff]
      intro h
      cases h with
      | entry k h7 h8 => rw [hmp] at h5; cases h5
      | parent _ h7 h8 =>
        obtain ⟨d, hd, _⟩ := hwf.ancestors _ _ _ h5 h8
        rw [hmp] at hd; cases hd
    | «exists» k x e h1 h2 h3 h4 h5 h6 =>
      rw [hmp]
      simp only [reduceCtorEq, false_iff]
      intro h
      cases h with
      | entry k' h7 h8 => rw [hmp] at h5; cases h5
      | parent _ h7 h8 =>
        obtain ⟨d, hd, _⟩ := hwf.ancestors _ _ _ h5 h8
        rw [hmp] at hd; cases hd
    | added k h1 h2 h3 h4 h5 =>
      simp only [setNode]
      split
      · rename_i hp
        subst hp
        constructor
        · intro h
          rw [← Option.some.inj h]
          exact .entry k ho h4
        · intro h
          generalize hq : entryPath r.path = q at h
          cases h with
          | entry k' h6 h7 => rw [h4] at h7; cases h7; rfl
          | parent _ h6 h7 => exact absurd hq.symm h7.2.1
      · rename_i hp
        rw [hparent]
        constructor
        · rintro ⟨h3, rfl⟩; exact .parent p (Or.inl ho) h3
        · intro h
          cases h with
          | entry k' h6 h7 => exact absurd rfl hp
          | parent _ h6 h7 => exact ⟨h7, rfl⟩

theorem SpecRun.cut {ss : List AddReq} : ∀ {rs : List AddReq} {m m' : PathMap}, SpecRun m (rs ++ ss) m' →
    ∃ m1, SpecRun m rs m1 ∧ SpecRun m1 ss m' := by
  intro rs
  induction rs with
  | nil => intro m m' h; exact ⟨m, .nil _, h⟩
  | cons r rs ih =>
    intro m m' h
    cases h with
    | cons h1 h2 h3 =>
      obtain ⟨m1, g1, g2⟩ := ih h3
      exact ⟨m1, .cons h1 h2 g1, g2⟩

/-- a history up to, at and after one of its calls -/
theorem SpecRun.split {rs1 rs2 : List AddReq} {r : AddReq} {st : Creator} {m : PathMap} (h : Creator.new.run (rs1 ++ r :: rs2) = some st)
    (hm : SpecRun PathMap.empty (rs1 ++ r :: rs2) m) :
    ∃ st1 m1 m2, Creator.new.run rs1 = some st1 ∧ SpecRun PathMap.empty rs1 m1 ∧ m1.WF ∧ SpecAdd m1 r m2 (st1.addEntry r).2 ∧
      (st1.addEntry r).2 ≠ .panic ∧ SpecRun m2 rs2 m := by
  rw [Creator.run_append] at h
  cases h1 : Creator.new.run rs1 with
  | none => rw [h1] at h; cases h
  | some st1 =>
    rw [h1] at h
    simp only [Option.bind_some] at h
    obtain ⟨m1, paths, hs1, R⟩ := run_rel h1
    obtain ⟨m2, hadd, hrun⟩ := add_spec h1 hs1 r
    have hne : (st1.addEntry r).2 ≠ .panic := by
      intro e
      simp only [Creator.run] at h
      revert h e
      cases st1.addEntry r with
      | mk s o => intro h e; simp only at e; subst e; simp at h
    refine ⟨st1, m1, m2, rfl, hs1, R.wf, hadd, hne, ?_⟩
    obtain ⟨ma, hma, hmb⟩ := SpecRun.cut hm
    have := hma.det hs1
    subst this
    cases hmb with
    | cons k1 k2 k3 =>
      have := k1.det hadd k2 hne
      subst this
      exact k3

theorem SpecRun.of_provides {rs1 rs2 : List AddReq} {r : AddReq} {st st1 : Creator} {m : PathMap} {p : List Bytes} {n : Node}
    (h : Creator.new.run (rs1 ++ r :: rs2) = some st) (hm : SpecRun PathMap.empty (rs1 ++ r :: rs2) m)
    (h1 : Creator.new.run rs1 = some st1) (hp : Provides st1 r p n) : ∃ n', m p = some n' := by
  obtain ⟨st1', m1, m2, k1, k2, k3, k4, k5, k6⟩ := SpecRun.split h hm
  rw [h1] at k1; cases k1
  cases hmp : m1 p with
  | some x => exact ⟨x, k6.keeps ((k4.provides k5 k3 p x).mpr (Or.inl hmp))⟩
  | none => exact ⟨n, k6.keeps ((k4.provides k5 k3 p n).mpr (Or.inr ⟨hmp, hp⟩))⟩

theorem SpecRun.first_of : ∀ (k : Nat) {rs : List AddReq}, rs.length = k → ∀ {st : Creator} {m : PathMap}, Creator.new.run rs = some st →
    SpecRun PathMap.empty rs m → ∀ (p : List Bytes) (n : Node), m p = some n → FirstProvides rs p n := by
  intro k
  induction k with
  | zero =>
    intro rs hk st m h hm p n hp
    have := List.length_eq_zero_iff.mp hk
    subst this
    cases hm; cases hp
  | succ k ih =>
    intro rs hk st m h hm p n hp
    rcases nil_or_snoc rs with rfl | ⟨ss, r, rfl⟩
    · simp at hk
    · obtain ⟨st1, m1, m2, k1, k2, k3, k4, k5, k6⟩ := SpecRun.split h hm
      cases k6
      rcases (k4.provides k5 k3 p n).mp hp with h1 | ⟨h1, h2⟩
      · obtain ⟨rs1, r', rs2, st', e, g1, g2, g3⟩ := ih (by simpa using hk) k1 k2 p n h1
        exact ⟨rs1, r', rs2 ++ [r], st', by rw [e]; simp, g1, g2, g3⟩
      · refine ⟨ss, r, [], st1, rfl, k1, h2, ?_⟩
        intro rs3 r' rs4 st' e g1 n' g2
        subst e
        obtain ⟨x, hx⟩ := SpecRun.of_provides k1 k2 g1 g2
        rw [h1] at hx; cases hx

/-- what the specification map holds is what the first providing call provides -/
theorem SpecRun.first {rs : List AddReq} {st : Creator} {m : PathMap} (h : Creator.new.run rs = some st)
    (hm : SpecRun PathMap.empty rs m) (p : List Bytes) (n : Node) : m p = some n ↔ FirstProvides rs p n := by
  refine ⟨SpecRun.first_of _ rfl h hm p n, ?_⟩
  rintro ⟨rs1, r, rs2, st1, rfl, g1, g2, g3⟩
  obtain ⟨st1', m1, m2, k1, k2, k3, k4, k5, k6⟩ := SpecRun.split h hm
  rw [g1] at k1; cases k1
  have hnone : m1 p = none := by
    cases hmp : m1 p with
    | none => rfl
    | some x =>
      obtain ⟨rs3, r', rs4, st', e, j1, j2, _⟩ := SpecRun.first_of _ rfl g1 k2 p x hmp
      exact absurd j2 (g3 rs3 r' rs4 st' e j1 x)
  exact k6.keeps ((k4.provides k5 k3 p n).mpr (Or.inr ⟨hnone, g2⟩))

/-- **C01, in terms of the calls.** For every history of `add_entry` calls and every archive written from it: a path that names
something is found exactly if some call provided an entry there; then what is found is what the first such call provided, and
it has the last name of the path. -/
theorem C01_first_call {rs : List AddReq} {a : Archive} (h : Written rs a) (path : RPath) (hp : comps path ≠ []) :
    (∀ n, FirstProvides rs (comps path) n →
      ∃ e, a.getEntry fullBuilder path = .ok e ∧ EntryIs e n ∧ (comps path).getLast? = some e.common.path) ∧
    ((∀ n, ¬ FirstProvides rs (comps path) n) → a.getEntry fullBuilder path = .error .notFound) := by
  have hw := h
  obtain ⟨st, o, hrun, _⟩ := h
  obtain ⟨m, _, hm, _⟩ := run_rel hrun
  have h1 := C01_read_back hw hm path hp
  constructor
  · intro n hn
    rw [(SpecRun.first hrun hm _ n).mpr hn] at h1
    exact h1
  · intro hno
    cases hmp : m (comps path) with
    | none => rw [hmp] at h1; exact h1
    | some n => exact absurd ((SpecRun.first hrun hm _ n).mp hmp) (hno n)

/-- a file, and the directory it implies; the later, refused, add of the same path does not count -/
example : FirstProvides exReqs [ascii "b", ascii "x"] ⟨exMeta, .file 3 ⟨1, 0⟩⟩ ∧
    FirstProvides exReqs [ascii "b"] ⟨⟨1000, 1000, 0o755, 0⟩, .dir⟩ ∧ ¬ FirstProvides exReqs [ascii "b", ascii "x"] ⟨exMeta, .file 4 ⟨1, 1⟩⟩ := by
  have first : ∀ {p : List Bytes} {n : Node}, Provides Creator.new ⟨ascii "b/x", .ok (some (.file 3 ⟨1, 0⟩)), exMeta⟩ p n → FirstProvides exReqs p n := by
    intro p n h
    exact ⟨[], _, _, Creator.new, rfl, rfl, h, fun rs3 r' rs4 st' e => by simp at e⟩
  have h1 : FirstProvides exReqs [ascii "b", ascii "x"] ⟨exMeta, .file 3 ⟨1, 0⟩⟩ := first (.entry _ (by decide) rfl)
  refine ⟨h1, first (.parent _ (Or.inl (by decide)) (by decide)), ?_⟩
  intro h2
  obtain ⟨m, _, hm, _⟩ := run_rel exRun
  rw [← SpecRun.first exRun hm] at h1 h2
  rw [h1] at h2
  exact absurd h2 (by decide)

end Arx
