import Verif.Proof.FirstMade
/-!
# Exactly what is archived for input files
-/
namespace Arx

variable {s : Src}

theorem addInputs_walked_ok {sys : CreateSys} {cwd : List Bytes} {pre : RPath} {rc : Bool} (W : s.WF)
    (hw : ∀ i, (sys.walks i).src = s ∧ FullListing s (sys.walks i).ls ∧ ∀ q, s.fs.nodes q ≠ none → q.length ≤ (sys.walks i).depth) :
    ∀ (roots : List Bytes) (i : Nat) {a a' : Adder}, (∀ f ∈ roots, f ≠ [] ∧ Present s (namesOf cwd f)) →
      (addInputs sys cwd pre rc a i roots).2 = (a', .ok) →
      ∃ L, WalkedAs s cwd rc roots L ∧ a.addAll (sys.cenv cwd) pre L = (a', .ok) := by
  intro roots
  induction roots with
  | nil => intro i a a' _ h; exact ⟨[], .nil, h⟩
  | cons f fs ih =>
    intro i a a' hpres h
    obtain ⟨w1, w2, w3⟩ := hw i
    obtain ⟨hne, q, hq⟩ := hpres f (by simp)
    have hdepth : ∀ p, s.fs.nodes (q ++ p) ≠ none → p.length ≤ (sys.walks i).depth := by
      intro p hp
      have := w3 _ hp
      simp only [List.length_append] at this; omega
    rw [addInputs] at h
    cases h1 : addFromPath (sys.cenv cwd) pre a f rc (sys.walks i) with
    | mk a1 o =>
      rw [h1] at h
      cases o with
      | ok =>
        obtain ⟨order, ho0, ho1, ho2, ho3⟩ := addFromPath_walk_ok (env := sys.cenv cwd) (pre := pre) (rc := rc) W w1 w2 hdepth hne hq h1
        obtain ⟨L, hL, hadd⟩ := ih (i + 1) (a := a1) (a' := a') (fun g hg => hpres g (by simp [hg])) h
        refine ⟨_, .cons hne hq ho0 ho1 ho2 hL, ?_⟩
        rw [Adder.addAll_append, ho3]
        exact hadd
      | _ => cases h

/-- The part of the walks that belongs to an input. -/
theorem WalkedEach.part {cwd : List Bytes} : ∀ (d : List (Bytes × Bool)) {f : Bytes × Bool} {r : List (Bytes × Bool)} {L : List (Bytes × Bool)},
    WalkedEach s cwd (d ++ f :: r) L → ∃ (Ld : List (Bytes × Bool)) (q : List Bytes) (order : List (List Bytes)) (Lr : List (Bytes × Bool)), WalkedEach s cwd d Ld ∧
      L = Ld ++ (order.map (fun p => (p.foldl joinChild f.1, decide (p = []))) ++ Lr) ∧ f.1 ≠ [] ∧
      s.fs.resolve true (namesOf cwd f.1) = .ok (.found q) ∧ order.head? = some [] ∧ order.Pairwise (fun a b => ¬ b <+: a) ∧
      ∀ p, p ∈ order ↔ s.Has q p ∧ (p = [] ∨ f.2 = true) := by
  intro d
  induction d with
  | nil =>
    intro f r L h
    cases h with
    | @cons _ _ _ L' q order hne hq hhead hnd hord hL => exact ⟨[], q, order, L', .nil, rfl, hne, hq, hhead, hnd, hord⟩
  | cons g d ih =>
    intro f r L h
    cases h with
    | @cons _ _ _ L' q order hne hq hhead hnd hord hL =>
      obtain ⟨Ld, q', order', Lr, h1, rfl, h2⟩ := ih hL
      exact ⟨_, q', order', Lr, .cons hne hq hhead hnd hord h1, by rw [List.append_assoc], h2⟩

theorem WalkedAs.part {cwd : List Bytes} {rc : Bool} {d : List Bytes} {f : Bytes} {r : List Bytes} {L : List (Bytes × Bool)}
    (h : WalkedAs s cwd rc (d ++ f :: r) L) : ∃ (Ld : List (Bytes × Bool)) (q : List Bytes) (order : List (List Bytes)) (Lr : List (Bytes × Bool)), WalkedAs s cwd rc d Ld ∧
      L = Ld ++ (order.map (fun p => (p.foldl joinChild f, decide (p = []))) ++ Lr) ∧ f ≠ [] ∧
      s.fs.resolve true (namesOf cwd f) = .ok (.found q) ∧ order.head? = some [] ∧ order.Pairwise (fun a b => ¬ b <+: a) ∧
      ∀ p, p ∈ order ↔ s.Has q p ∧ (p = [] ∨ rc = true) := by
  unfold WalkedAs at h
  rw [List.map_append, List.map_cons] at h
  exact WalkedEach.part _ h

theorem WalkedAs.makes {cwd : List Bytes} {pre : RPath} (W : s.WF) {rc : Bool} {roots : List Bytes} {L : List (Bytes × Bool)}
    (h : WalkedAs s cwd rc roots L) (hall : ∀ x ∈ L, Archivable s cwd pre x) (z : List Bytes) :
    (∃ x ∈ L, Makes s cwd pre x z) ↔ ∃ f ∈ roots, TreeMakes s cwd pre rc f z := by
  have h3 := (WalkedAs.iff (pre := pre) W h).2 hall
  constructor
  · rintro ⟨x, hx, hz, u, hu, h1, h2⟩
    obtain ⟨f, hf, hfu⟩ := (h3 u).mp ⟨x, hx, hu⟩
    exact ⟨f, hf, hz, u, hfu, h1, h2⟩
  · rintro ⟨f, hf, hz, u, hu, h1, h2⟩
    obtain ⟨x, hx, hxu⟩ := (h3 u).mpr ⟨f, hf, hu⟩
    exact ⟨x, hx, hz, u, hxu, h1, h2⟩

/-- From the paths of the walks to the inputs. -/
theorem FirstPath.toInput {cwd : List Bytes} {pre : RPath} {bytes : ContentAddr → GetBytes} (W : s.WF) {rc : Bool} {roots : List Bytes}
    {L : List (Bytes × Bool)} {m : PathMap} (h : FirstPath s cwd pre bytes L m) (hw : WalkedAs s cwd rc roots L)
    (hall : ∀ x ∈ L, Archivable s cwd pre x) : FirstInput s cwd pre bytes rc roots m := by
  have before : ∀ (d : List Bytes) (Ld : List (Bytes × Bool)), WalkedAs s cwd rc d Ld → (∀ x ∈ Ld, x ∈ L) → ∀ z, (∀ g ∈ d, ¬ TreeMakes s cwd pre rc g z) →
      ∀ y ∈ Ld, ¬ Makes s cwd pre y z := by
    intro d Ld hd hsub z hz y hy hm
    obtain ⟨f, hf, hfz⟩ := (hd.makes W (fun x hx => hall x (hsub x hx)) z).mp ⟨y, hy, hm⟩
    exact hz f hf hfz
  refine ⟨fun z hz => h.nothing z (before roots L hw (fun _ h => h) z hz), ?_, ?_⟩
  · rintro A f B u rfl ⟨k, q, p, ⟨hk, hq, _⟩, hp, hrc, rfl, hne⟩ hsp hA
    obtain ⟨Ld, q', order, Lr, hd, rfl, hf, hq', hhead, hpw, hord⟩ := hw.part
    rw [hq] at hq'; cases hq'
    obtain ⟨o1, o2, rfl⟩ := List.append_of_mem ((hord p).mpr ⟨hp, hrc⟩)
    obtain ⟨v1, v2⟩ := W.below_names hp
    refine h.entry (Ld ++ o1.map (fun p => (p.foldl joinChild f, decide (p = [])))) (p.foldl joinChild f, decide (p = []))
      (o2.map (fun p => (p.foldl joinChild f, decide (p = []))) ++ Lr) (k ++ p, q ++ p) (by simp)
      ⟨hk.below v1 v2, hne, W.walked_leads hf hq hp⟩ hsp ?_
    intro y hy hm
    rcases List.mem_append.mp hy with hy | hy
    · exact before A Ld hd (fun x hx => by simp [hx]) _ hA y hy hm
    · obtain ⟨p', hp', rfl⟩ := List.mem_map.mp hy
      obtain ⟨hh, _⟩ := (hord p').mp (by simp [hp'])
      obtain ⟨w1, w2⟩ := W.below_names hh
      obtain ⟨_, u', ⟨hu', _⟩, hpre, _⟩ := hm
      have e := StoredAs.unique hu' (hk.below w1 w2)
      rw [e] at hpre
      have hpp : p <+: p' := (List.prefix_append_right_inj k).mp hpre
      exact (List.pairwise_append.mp hpw).2.2 p' hp' p (by simp) hpp
  · rintro A f B k q z rfl ⟨hk, hq, _⟩ hz hA
    obtain ⟨Ld, q', order, Lr, hd, rfl, hf, hq', hhead, hpw, hord⟩ := hw.part
    rw [hq] at hq'; cases hq'
    cases order with
    | nil => cases hhead
    | cons p order =>
      simp only [List.head?_cons, Option.some.injEq] at hhead
      subst hhead
      refine h.above Ld (f, true) _ (k, q) z rfl ⟨hk, ?_, hq⟩ hz (before A Ld hd (fun x hx => by simp [hx]) z hA)
      rintro e
      simp only at e
      rw [e] at hz
      exact hz.1 (List.prefix_nil.mp hz.2.2)

end Arx
