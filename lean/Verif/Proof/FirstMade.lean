import Verif.Proof.AddList
import Verif.Props.CreateOk
import Verif.Props.CreateCrash
import Verif.Spec.Reproduce
/-!
# Exactly what is archived
-/
namespace Arx

variable {s : Src} {env : CEnv}

theorem SpecRun.root_none {rs : List AddReq} {st : Creator} {m : PathMap} (h : Creator.new.run rs = some st) (hm : SpecRun PathMap.empty rs m) :
    m [] = none := by
  obtain ⟨m', _, hm', R⟩ := run_rel h
  rw [hm.det hm']; exact R.wf.root

/-- One accepted add, exactly. -/
theorem Adder.addEntryFromPath_exact (Q : Quiet env s) (W : s.WF) {pre : RPath} {a a' : Adder} {path : Bytes} {follow : Bool}
    {rs : List AddReq} {m : PathMap} (hrun : Creator.new.run rs = some a.creator) (hm : SpecRun PathMap.empty rs m)
    (h : a.addEntryFromPath env pre path follow = (a', .ok)) :
    ∃ rs' m', Creator.new.run rs' = some a'.creator ∧ SpecRun PathMap.empty rs' m' ∧
      (∀ c b, packBytes a.contents c = .found b → packBytes a'.contents c = .found b) ∧
      (∀ z n, m z = some n → m' z = some n) ∧
      ∃ k, StoredAs path pre k ∧ (k = [] → m' = m) ∧ (k ≠ [] → ∃ q, s.fs.resolve follow (namesOf env.cwd path) = .ok (.found q) ∧
        ∀ z, m z = none → (ProperAncestor z k → m' z = some defaultDir) ∧ (z = k → Archived s (packBytes a'.contents) q (m' k)) ∧
          (¬ ProperAncestor z k → z ≠ k → m' z = none)) := by
  obtain ⟨k, hk, h⟩ := Adder.addEntryFromPath_ok Q W h
  rcases h with ⟨rfl, rfl⟩ | ⟨hne, q, x, r, g1, g2, g3, g4, g5, g6⟩
  · exact ⟨rs, m, hrun, hm, fun _ _ h => h, fun _ _ h => h, [], hk, fun _ => rfl, fun h => absurd rfl h⟩
  · obtain ⟨m', s1, s2⟩ := add_spec hrun hm r
    rw [g5] at s1 s2
    have hm' := s2 (by simp)
    have hkeep : ∀ z n, m z = some n → m' z = some n := fun z n hz => s1.keeps (by simp) hz
    obtain ⟨ko, hko, harch⟩ := g3.kind
    refine ⟨rs ++ [r], m', ?_, hm', g6, hkeep, k, hk, fun h => absurd h hne, fun _ => ⟨q, g1, fun z hz => ?_⟩⟩
    · rw [Creator.run_append, hrun]
      simp [Creator.run, g5]
    · have hnp : ¬ ProperAncestor k k := fun h => h.2.1 rfl
      cases s1 with
      | ignored h1 h2 =>
        rw [hko] at h2; cases h2
        rw [g4]
        refine ⟨fun hp => by simp [withParents, hz, hp], ?_, fun h1 _ => by simp [withParents, hz, h1]⟩
        rintro rfl
        simp only [withParents, hz, hnp, if_false]
        exact harch
      | sameDir n h1 h2 h3 h4 h5 h6 =>
        rw [g4] at h5
        obtain ⟨m0, P, hs0, R⟩ := run_rel hrun
        have := hs0.det hm; subst this
        refine ⟨fun hp => ?_, ?_, fun _ _ => hz⟩
        · obtain ⟨n', hn', _⟩ := R.wf.ancestors k n z h5 hp
          rw [hz] at hn'; cases hn'
        · rintro rfl; rw [h5] at hz; cases hz
      | added k' h1 h2 h3 h4 h5 =>
        rw [hko] at h4; cases h4
        rw [g4]
        refine ⟨fun hp => ?_, ?_, fun h1 h2 => by simp [setNode, h2, withParents, hz, h1]⟩
        · have : z ≠ k := hp.2.1
          simp [setNode, this, withParents, hz, hp]
        · rintro rfl; simpa [setNode] using harch

theorem Archived.some_of {bytes : ContentAddr → GetBytes} {q : List Bytes} {o : Option Node} (h : Archived s bytes q o) (hs : ¬ s.Special q) :
    ∃ n, o = some n := by
  cases o with
  | some n => exact ⟨n, rfl⟩
  | none => exact absurd h.special hs

theorem Archived.special_none {bytes : ContentAddr → GetBytes} {q : List Bytes} {o : Option Node} (h : Archived s bytes q o) (hs : s.Special q) :
    o = none := by
  cases o with
  | none => rfl
  | some n => exact absurd hs h.not_special

theorem snoc_split {α : Type} {L A B : List α} {x y : α} (h : L ++ [x] = A ++ y :: B) : (∃ B', L = A ++ y :: B') ∨ (A = L ∧ y = x) := by
  rcases nil_or_snoc B with rfl | ⟨B', b, rfl⟩
  · obtain ⟨h1, h2⟩ := List.append_inj' h rfl
    exact Or.inr ⟨h1.symm, (List.cons.inj h2).1.symm⟩
  · left
    rw [show A ++ y :: (B' ++ [b]) = (A ++ y :: B') ++ [b] by simp] at h
    exact ⟨B', (List.append_inj' h rfl).1⟩

theorem FirstPath.step {pre : RPath} {bytes bytes' : List Bytes} {L : List (Bytes × Bool)} {m m' : PathMap} {x : Bytes × Bool} {k : List Bytes}
    (h : FirstPath s env.cwd pre (packBytes bytes) L m) (hb : ∀ c b, packBytes bytes c = .found b → packBytes bytes' c = .found b)
    (hkeep : ∀ z n, m z = some n → m' z = some n) (hroot : m [] = none) (hroot' : m' [] = none)
    (hk : StoredAs x.1 pre k) (h0 : k = [] → m' = m)
    (h1 : k ≠ [] → ∃ q, s.fs.resolve x.2 (namesOf env.cwd x.1) = .ok (.found q) ∧
        ∀ z, m z = none → (ProperAncestor z k → m' z = some defaultDir) ∧ (z = k → Archived s (packBytes bytes') q (m' k)) ∧
          (¬ ProperAncestor z k → z ≠ k → m' z = none)) :
    FirstPath s env.cwd pre (packBytes bytes') (L ++ [x]) m' := by
  have hoff : ∀ u, OffersOne s env.cwd pre x u → u.1 = k ∧ ∃ q, s.fs.resolve x.2 (namesOf env.cwd x.1) = .ok (.found q) ∧ u.2 = q ∧
        ∀ z, m z = none → (ProperAncestor z k → m' z = some defaultDir) ∧ (z = k → Archived s (packBytes bytes') q (m' k)) ∧
          (¬ ProperAncestor z k → z ≠ k → m' z = none) := by
    rintro u ⟨u1, u2, u3⟩
    have e := StoredAs.unique u1 hk
    obtain ⟨q, g1, g2⟩ := h1 (e ▸ u2)
    rw [g1] at u3
    exact ⟨e, q, g1, by injection u3 with u3; injection u3 with u3; exact u3.symm, g2⟩
  refine ⟨?_, ?_, ?_⟩
  · intro z hz
    by_cases hz0 : z = []
    · rw [hz0]; exact hroot'
    have hmz := h.nothing z (fun y hy => hz y (by simp [hy]))
    by_cases hk0 : k = []
    · rw [h0 hk0]; exact hmz
    · obtain ⟨q, g1, g2⟩ := h1 hk0
      obtain ⟨_, g4, g5⟩ := g2 z hmz
      have hx : ∀ (_ : z <+: k), ¬ (z = k → ¬ s.Special q) := fun hp hs => hz x (by simp) ⟨hz0, (k, q), ⟨hk, hk0, g1⟩, hp, hs⟩
      by_cases e : z = k
      · have hsp : s.Special q := Classical.byContradiction fun hn => hx (e ▸ List.prefix_rfl) (fun _ => hn)
        rw [e]
        exact (g4 e).special_none hsp
      · exact g5 (fun hp => hx hp.2.2 (fun e' => absurd e' e)) e
  · intro A y B u hL hu hsp hA
    rcases snoc_split hL with ⟨B', rfl⟩ | ⟨rfl, rfl⟩
    · have ha := h.entry A y B' u rfl hu hsp hA
      obtain ⟨n, hn⟩ := ha.some_of hsp
      rw [hkeep _ n hn, ← hn]
      exact ha.mono hb
    · obtain ⟨e, q, g1, rfl, g2⟩ := hoff u hu
      have := (g2 u.1 (h.nothing _ hA)).2.1 e
      rw [e]; exact this
  · intro A y B u z hL hu hp hA
    rcases snoc_split hL with ⟨B', rfl⟩ | ⟨rfl, rfl⟩
    · exact hkeep _ _ (h.above A y B' u z rfl hu hp hA)
    · obtain ⟨e, q, g1, _, g2⟩ := hoff u hu
      exact (g2 z (h.nothing _ hA)).1 (e ▸ hp)

/-- Many accepted adds, exactly. -/
theorem Adder.addAll_exact (Q : Quiet env s) (W : s.WF) {pre : RPath} : ∀ (L done : List (Bytes × Bool)) {a a' : Adder}
    {rs : List AddReq} {m : PathMap}, Creator.new.run rs = some a.creator → SpecRun PathMap.empty rs m →
    FirstPath s env.cwd pre (packBytes a.contents) done m → a.addAll env pre L = (a', .ok) →
    ∃ rs' m', Creator.new.run rs' = some a'.creator ∧ SpecRun PathMap.empty rs' m' ∧
      FirstPath s env.cwd pre (packBytes a'.contents) (done ++ L) m' := by
  intro L
  induction L with
  | nil =>
    intro done a a' rs m hrun hm hf h
    cases h
    exact ⟨rs, m, hrun, hm, by simpa using hf⟩
  | cons x L ih =>
    intro done a a' rs m hrun hm hf h
    rw [Adder.addAll] at h
    cases h1 : a.addEntryFromPath env pre x.1 x.2 with
    | mk a1 o =>
      rw [h1] at h
      cases o with
      | ok =>
        simp only at h
        obtain ⟨rs1, m1, g1, g2, g3, g4, k, g5, g6, g7⟩ := Adder.addEntryFromPath_exact Q W hrun hm h1
        have hf1 := hf.step g3 g4 (SpecRun.root_none hrun hm) (SpecRun.root_none g1 g2) g5 g6 g7
        obtain ⟨rs2, m2, k1, k2, k3⟩ := ih (done ++ [x]) g1 g2 hf1 h
        exact ⟨rs2, m2, k1, k2, by simpa using k3⟩
      | _ => cases h

end Arx
