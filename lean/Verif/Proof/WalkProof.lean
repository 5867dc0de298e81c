import Verif.Model.Walk
import Verif.Spec.Walk
import Verif.Proof.WrittenProof
/-!
# The walk over an encoded archive is a walk over the path map
-/
namespace Arx

theorem pairwise_lt_unique {α : Type} {R : α → α → Prop} (hirr : ∀ x, ¬ R x x)
    (htr : ∀ {x y z}, R x y → R y z → R x z) :
    ∀ {l1 l2 : List α}, l1.Pairwise R → l2.Pairwise R → (∀ x, x ∈ l1 ↔ x ∈ l2) → l1 = l2 := by
  intro l1
  induction l1 with
  | nil =>
    intro l2 _ _ h
    cases l2 with
    | nil => rfl
    | cons y ys => exact absurd ((h y).mpr (by simp)) (by simp)
  | cons x xs ih =>
    intro l2 h1 h2 h
    cases l2 with
    | nil => exact absurd ((h x).mp (by simp)) (by simp)
    | cons y ys =>
      rw [List.pairwise_cons] at h1 h2
      have hxy : x = y := by
        have hx := (h x).mp (by simp)
        have hy := (h y).mpr (by simp)
        simp only [List.mem_cons] at hx hy
        rcases hx with hx | hx
        · exact hx
        · rcases hy with hy | hy
          · exact hy.symm
          · exact absurd (htr (h1.1 y hy) (h2.1 x hx)) (hirr _)
      subst hxy
      have := ih h1.2 h2.2 (fun z => by
        constructor
        · intro hz
          have := (h z).mp (by simp [hz])
          simp only [List.mem_cons] at this
          rcases this with rfl | this
          · exact absurd (h1.1 _ hz) (hirr _)
          · exact this
        · intro hz
          have := (h z).mpr (by simp [hz])
          simp only [List.mem_cons] at this
          rcases this with rfl | this
          · exact absurd (h2.1 _ hz) (hirr _)
          · exact this)
      rw [this]

theorem KidsOf.unique {m : PathMap} {d : List Bytes} {a b : List Bytes} (ha : KidsOf m d a) (hb : KidsOf m d b) :
    a = b :=
  pairwise_lt_unique ltBytes_irrefl ltBytes_trans ha.1 hb.1 (fun x => by rw [ha.2, hb.2])

theorem Listing.unique {m : PathMap} {d : List Bytes} {a b : List (List Bytes)} (ha : Listing m d a)
    (hb : Listing m d b) : a = b :=
  pairwise_lt_unique lexLt_irrefl lexLt_trans ha.1 hb.1 (fun x => by rw [ha.2, hb.2])

/-- names of the children of `d`, in table order -/
def kids (P : List (List Bytes)) (d : List Bytes) : List Bytes :=
  P.filterMap (fun p => if p ≠ [] ∧ p.dropLast = d then p.getLast? else none)

theorem mem_kids {P : List (List Bytes)} {d : List Bytes} {c : Bytes} : c ∈ kids P d ↔ d ++ [c] ∈ P := by
  simp only [kids, List.mem_filterMap]
  constructor
  · rintro ⟨p, hp, h⟩
    split at h
    · rename_i hh
      have := List.dropLast_concat_getLast hh.1
      rw [List.getLast?_eq_some_getLast hh.1, Option.some.injEq] at h
      rw [h, hh.2] at this; rw [this]; exact hp
    · cases h
  · intro h; exact ⟨_, h, by simp⟩

theorem Encodes.kidsOf {a : Archive} {m : PathMap} {P : List (List Bytes)} (E : Encodes a m P) (d : List Bytes) :
    KidsOf m d (kids P d) := by
  refine ⟨?_, fun c => by rw [mem_kids, E.dom]⟩
  rw [kids, List.pairwise_filterMap]
  refine E.sorted.imp ?_
  intro p q hpq x hx y hy
  split at hx
  · rename_i h1
    split at hy
    · rename_i h2
      have e1 := List.dropLast_concat_getLast h1.1
      have e2 := List.dropLast_concat_getLast h2.1
      rw [List.getLast?_eq_some_getLast h1.1, Option.some.injEq] at hx
      rw [List.getLast?_eq_some_getLast h2.1, Option.some.injEq] at hy
      rw [hx, h1.2] at e1; rw [hy, h2.2] at e2
      rw [← e1, ← e2] at hpq
      rcases canonLt_snoc.mp hpq with h | h
      · exact absurd h (canonLt_irrefl _)
      · exact h.2
    · cases hy
  · cases hx

theorem forEach_map {C X Y E : Type} (body : C → Y → C × Except E Unit) (g : X → Y) (l : List X) :
    ∀ c, forEach body c (l.map g) = forEach (fun c x => body c (g x)) c l := by
  induction l with
  | nil => intro c; rfl
  | cons x xs ih => intro c; simp only [List.map_cons, forEach]; split <;> simp_all

theorem forEach_congr {C X E : Type} {body body' : C → X → C × Except E Unit} {l : List X}
    (h : ∀ x ∈ l, ∀ c, body c x = body' c x) : ∀ c, forEach body c l = forEach body' c l := by
  induction l with
  | nil => intro c; rfl
  | cons x xs ih =>
    intro c
    simp only [forEach, h x (by simp) c]
    split
    · rfl
    · exact ih (fun y hy => h y (by simp [hy])) _

/-- The walk, over paths: `ent p` is the entry read for path `p`. -/
def specWalk {E C F L D : Type} (P : List (List Bytes)) (ent : List Bytes → Res (Entry F L D))
    (op : Operator E C F L D) : Nat → List Bytes → C → C × Except (WErr E) Unit
  | 0, _, c => (c, .error .depth)
  | f + 1, d, c =>
    forEach (fun c nm => walkEntry op (fun _ => specWalk P ent op f (d ++ [nm])) c (ent (d ++ [nm]))) c (kids P d)

/-- the entry read for path `p` -/
def Archive.entOf (a : Archive) (P : List (List Bytes)) {F L D : Type} (B : Builder F L D) (p : List Bytes) :
    Res (Entry F L D) := a.create B (P.idxOf p)

theorem Encodes.idxOf_eq {a : Archive} {m : PathMap} {P : List (List Bytes)} (E : Encodes a m P) {i : Nat}
    {p : List Bytes} (h : P[i]? = some p) : P.idxOf p = i := by
  have hmem := List.mem_of_getElem? h
  have h2 : P[P.idxOf p]? = some p := by
    rw [List.getElem?_eq_getElem (List.idxOf_lt_length_of_mem hmem), List.getElem_idxOf]
  exact E.idx_inj h2 h

/-- the rows of a directory's range, by name -/
theorem Encodes.readRange {a : Archive} {m : PathMap} {P : List (List Bytes)} (E : Encodes a m P)
    {F L D : Type} (B : Builder F L D) {d : List Bytes} {rg : Range} (hr : RangeIs P d rg.offset rg.count) :
    a.readRange B rg = (kids P d).map (fun c => a.entOf P B (d ++ [c])) := by
  let nm : Nat → Bytes := fun i => match P[i]? with | some p => p.getLastD [] | none => []
  have hnm : ∀ i, i ∈ List.range' rg.offset rg.count → P[i]? = some (d ++ [nm i]) := by
    intro i hi
    rw [List.mem_range'_1] at hi
    obtain ⟨x, hx⟩ := (hr i).mp hi
    simp [nm, hx]
  have hk : kids P d = (List.range' rg.offset rg.count).map nm := by
    apply (E.kidsOf d).unique
    constructor
    · rw [List.pairwise_map]
      have : (List.range' rg.offset rg.count).Pairwise (fun i j => i < j ∧ i ∈ List.range' rg.offset rg.count ∧ j ∈ List.range' rg.offset rg.count) := by
        rw [List.pairwise_iff_getElem]
        intro i j hi hj hij
        refine ⟨?_, List.getElem_mem _, List.getElem_mem _⟩
        simp only [List.getElem_range']; omega
      refine this.imp ?_
      rintro i j ⟨hij, hi, hj⟩
      have := (E.lt_iff (hnm i hi) (hnm j hj)).mp hij
      rcases canonLt_snoc.mp this with h | h
      · exact absurd h (canonLt_irrefl _)
      · exact h.2
    · intro c
      simp only [List.mem_map]
      rw [← E.dom]
      constructor
      · rintro ⟨i, hi, rfl⟩
        exact List.mem_of_getElem? (hnm i hi)
      · intro h
        obtain ⟨i, hi⟩ := List.mem_iff_getElem?.mp h
        have hir := (hr i).mpr ⟨c, hi⟩
        have hi' : i ∈ List.range' rg.offset rg.count := List.mem_range'_1.mpr hir
        refine ⟨i, hi', ?_⟩
        have := hnm i hi'
        rw [hi] at this; simpa using this.symm
  rw [hk, Archive.readRange, List.map_map]
  apply List.map_congr_left
  intro i hi
  simp only [Function.comp, Archive.entOf]
  rw [E.idxOf_eq (hnm i hi)]

/-- a directory read from the table has the range of its children -/
theorem Good.entOf_dir {a : Archive} {m : PathMap} {P : List (List Bytes)} (G : Good a m P)
    {F L D : Type} {B : Builder F L D} {p : List Bytes} {r : Range} {e : D} (hp : p ∈ P)
    (h : a.entOf P B p = .ok (.dir r e)) : RangeIs P p r.offset r.count ∧ ∃ n, m p = some n ∧ n.isDir = true := by
  obtain ⟨i, hi⟩ := List.mem_iff_getElem?.mp hp
  rw [Archive.entOf, G.idxOf_eq hi] at h
  obtain ⟨row, n, h1, h2, h3, h4⟩ := G.create_spec B hi
  rw [h4] at h
  cases hk : n.kind with
  | dir =>
    rw [hk] at h
    refine ⟨?_, n, h2, by rw [Node.isDir, hk]; rfl⟩
    simp only at h
    cases hb : B.dir i row with
    | error x => rw [hb] at h; cases h
    | ok x =>
      rw [hb] at h; simp only [Except.map, Except.ok.injEq, Entry.dir.injEq] at h
      rw [← h.1]; exact (G.rowRange hi h1 h2 hk).1
  | file s c =>
    rw [hk] at h; simp only at h
    cases hb : B.file i row <;> rw [hb] at h <;> simp [Except.map] at h
  | link t =>
    rw [hk] at h; simp only at h
    cases hb : B.link i row <;> rw [hb] at h <;> simp [Except.map] at h

theorem Good.walkRange_eq {a : Archive} {m : PathMap} {P : List (List Bytes)} (G : Good a m P)
    {E C F L D : Type} (B : Builder F L D) (op : Operator E C F L D) :
    ∀ (f : Nat) (d : List Bytes) (rg : Range) (c : C), RangeIs P d rg.offset rg.count →
      a.walkRange B op f rg c = specWalk P (a.entOf P B) op f d c := by
  intro f
  induction f with
  | zero => intro d rg c _; rfl
  | succ f ih =>
    intro d rg c hr
    simp only [Archive.walkRange, specWalk]
    rw [G.readRange B hr, forEach_map]
    apply forEach_congr
    intro nm hnm c
    have hmem := mem_kids.mp hnm
    simp only [walkEntry]
    cases he : a.entOf P B (d ++ [nm]) with
    | error x => rfl
    | ok e =>
      cases e with
      | file x => rfl
      | link x => rfl
      | dir r e =>
        have hr' := (G.entOf_dir hmem he).1
        simp only [ih _ r _ hr']

/-- depth bound sufficient for a whole walk below `d` -/
def DeepEnough (P : List (List Bytes)) (f : Nat) (d : List Bytes) : Prop :=
  0 < f ∧ ∀ p ∈ P, p.length < f + d.length

theorem DeepEnough.sub {P : List (List Bytes)} {f : Nat} {d : List Bytes} {c : Bytes}
    (h : DeepEnough P (f + 1) d) (hc : d ++ [c] ∈ P) : DeepEnough P f (d ++ [c]) := by
  have h1 := h.2 _ hc
  simp at h1
  refine ⟨by omega, fun p hp => ?_⟩
  have := h.2 p hp
  simp; omega

/-- every row can be read, and has the kind of its node -/
def EntOK {F L D : Type} (m : PathMap) (P : List (List Bytes)) (ent : List Bytes → Res (Entry F L D)) : Prop :=
  ∀ p ∈ P, ∃ n, m p = some n ∧
    match n.kind with
    | .dir => ∃ r e, ent p = .ok (.dir r e)
    | .file _ _ => ∃ e, ent p = .ok (.file e)
    | .link _ => ∃ e, ent p = .ok (.link e)

/-- a call made for an event, in terms of the entries read -/
inductive CallEnt {F L D : Type} (ent : List Bytes → Res (Entry F L D)) : Call F L D → Ev → Prop
  | enter {p r e} : ent p = .ok (.dir r e) → CallEnt ent (.enter e) (.enter p)
  | exit {p r e} : ent p = .ok (.dir r e) → CallEnt ent (.exit e) (.exit p)
  | file {p e} : ent p = .ok (.file e) → CallEnt ent (.file e) (.leaf p)
  | link {p e} : ent p = .ok (.link e) → CallEnt ent (.link e) (.leaf p)

theorem liftOp_ok {E C : Type} {x : C × Except E Unit} (h : x.2 = .ok ()) : liftOp x = (x.1, .ok ()) := by
  obtain ⟨c, r⟩ := x; simp at h; subst h; rfl

theorem pair_eq {α β : Type} {x : α × β} {b : β} (h : x.2 = b) : x = (x.1, b) := by
  rw [← h]

theorem All2.left_mem {α β : Type} {R : α → β → Prop} {l : List α} {k : List β} (h : All2 R l k) {a : α} (ha : a ∈ l) :
    ∃ b ∈ k, R a b := by
  induction h with
  | nil => simp at ha
  | cons h1 _ ih =>
    simp only [List.mem_cons] at ha
    rcases ha with rfl | ha
    · exact ⟨_, by simp, h1⟩
    · obtain ⟨b, hb, hr⟩ := ih ha; exact ⟨b, by simp [hb], hr⟩

theorem All2.right_mem {α β : Type} {R : α → β → Prop} {l : List α} {k : List β} (h : All2 R l k) {b : β} (hb : b ∈ k) :
    ∃ a ∈ l, R a b := by
  induction h with
  | nil => simp at hb
  | cons h1 _ ih =>
    simp only [List.mem_cons] at hb
    rcases hb with rfl | hb
    · exact ⟨_, by simp, h1⟩
    · obtain ⟨a, ha, hr⟩ := ih hb; exact ⟨a, by simp [ha], hr⟩

theorem All2.append {α β : Type} {R : α → β → Prop} {l l' : List α} {k k' : List β} (h : All2 R l k)
    (h' : All2 R l' k') : All2 R (l ++ l') (k ++ k') := by
  induction h with
  | nil => exact h'
  | cons h1 _ ih => exact .cons h1 ih

theorem All2.imp {α β : Type} {R S : α → β → Prop} {l : List α} {k : List β} (h : All2 R l k)
    (hi : ∀ a b, b ∈ k → R a b → S a b) : All2 S l k := by
  induction h with
  | nil => exact .nil
  | cons h1 _ ih =>
    exact .cons (hi _ _ (by simp) h1) (ih (fun a b hb => hi a b (by simp [hb])))

/-- The walk of any operator that never fails and always enters is the fold of its calls over one and
the same list of calls. -/
theorem specWalk_plain {F L D : Type} {m : PathMap} {P : List (List Bytes)} {ent : List Bytes → Res (Entry F L D)}
    (hk : ∀ d, KidsOf m d (kids P d)) (he : EntOK m P ent) :
    ∀ (f : Nat) (d : List Bytes), DeepEnough P f d →
      ∃ (T : List Ev) (Lg : List (Call F L D)), TraceOf m d (kids P d) T ∧ All2 (CallEnt ent) Lg T ∧
        ∀ {E C : Type} (op : Operator E C F L D), op.Plain → ∀ c,
          specWalk P ent op f d c = (Lg.foldl op.call c, .ok ()) := by
  intro f
  induction f with
  | zero => intro d h; exact absurd h.1 (by omega)
  | succ f ih =>
    intro d hd
    have key : ∀ ns : List Bytes, (∀ c ∈ ns, d ++ [c] ∈ P) →
        ∃ (T : List Ev) (Lg : List (Call F L D)), TraceOf m d ns T ∧ All2 (CallEnt ent) Lg T ∧
        ∀ {E C : Type} (op : Operator E C F L D), op.Plain → ∀ c,
          forEach (fun c nm => walkEntry op (fun _ => specWalk P ent op f (d ++ [nm])) c (ent (d ++ [nm]))) c ns
            = (Lg.foldl op.call c, .ok ()) := by
      intro ns
      induction ns with
      | nil => intro _; exact ⟨[], [], .nil d, .nil, fun op _ c => rfl⟩
      | cons nm ns ihn =>
        intro hns
        obtain ⟨T2, L2, ht2, hf2, hw2⟩ := ihn (fun c hc => hns c (by simp [hc]))
        have hp := hns nm (by simp)
        obtain ⟨n, hn, hkind⟩ := he _ hp
        cases hnk : n.kind with
        | file s ct =>
          rw [hnk] at hkind
          obtain ⟨e, hent⟩ := hkind
          refine ⟨.leaf (d ++ [nm]) :: T2, .file e :: L2, .leaf hn (by rw [Node.isDir, hnk]; rfl) ht2,
            .cons (.file hent) hf2, ?_⟩
          intro E C op hop c
          simp only [forEach, walkEntry, hent, liftOp_ok (hop.file c e), List.foldl_cons]
          exact hw2 op hop _
        | link t =>
          rw [hnk] at hkind
          obtain ⟨e, hent⟩ := hkind
          refine ⟨.leaf (d ++ [nm]) :: T2, .link e :: L2, .leaf hn (by rw [Node.isDir, hnk]; rfl) ht2,
            .cons (.link hent) hf2, ?_⟩
          intro E C op hop c
          simp only [forEach, walkEntry, hent, liftOp_ok (hop.link c e), List.foldl_cons]
          exact hw2 op hop _
        | dir =>
          rw [hnk] at hkind
          obtain ⟨r, e, hent⟩ := hkind
          obtain ⟨T1, L1, ht1, hf1, hw1⟩ := ih (d ++ [nm]) (hd.sub hp)
          refine ⟨.enter (d ++ [nm]) :: (T1 ++ .exit (d ++ [nm]) :: T2), .enter e :: (L1 ++ .exit e :: L2),
            .dir hn (by rw [Node.isDir, hnk]; rfl) (hk _) ht1 ht2,
            .cons (.enter hent) (All2.append hf1 (.cons (.exit hent) hf2)), ?_⟩
          intro E C op hop c
          simp only [forEach, walkEntry, hent]
          rw [pair_eq (hop.enter c e)]
          simp only [if_true, hw1 op hop, liftOp_ok (hop.exit _ e)]
          simp only [List.foldl_cons, List.foldl_append]
          exact hw2 op hop _
    obtain ⟨T, Lg, h1, h2, h3⟩ := key (kids P d) (fun c hc => mem_kids.mp hc)
    exact ⟨T, Lg, h1, h2, fun op hop c => by simp only [specWalk]; exact h3 op hop c⟩

/-! ## Facts about traces -/

theorem TraceOf.visited {m : PathMap} (wf : m.WF) {d ns : List Bytes} {T : List Ev} (h : TraceOf m d ns T) :
    ns.Pairwise ltBytes →
    (T.filterMap Ev.visited).Pairwise lexLt ∧
    ∀ p, p ∈ T.filterMap Ev.visited ↔ (∃ n, m p = some n) ∧ ∃ c ∈ ns, d ++ [c] <+: p := by
  induction h with
  | nil d => intro _; simp
  | @leaf d c cs T n hm hnd ht ih =>
    intro hs
    rw [List.pairwise_cons] at hs
    obtain ⟨h1, h2⟩ := ih hs.2
    have hv : (Ev.leaf (d ++ [c]) :: T).filterMap Ev.visited = (d ++ [c]) :: T.filterMap Ev.visited := rfl
    rw [hv]
    refine ⟨List.pairwise_cons.mpr ⟨?_, h1⟩, ?_⟩
    · intro q hq
      obtain ⟨_, c', hc', t, rfl⟩ := (h2 q).mp hq
      rw [List.append_assoc]
      exact lexLt_of_names (p := []) (hs.1 c' hc')
    · intro p
      simp only [List.mem_cons, h2]
      constructor
      · rintro (rfl | ⟨hn, c', hc', hp⟩)
        · exact ⟨⟨n, hm⟩, c, Or.inl rfl, List.prefix_refl _⟩
        · exact ⟨hn, c', Or.inr hc', hp⟩
      · rintro ⟨⟨n', hn'⟩, c', rfl | hc', hp⟩
        · left
          by_cases he : d ++ [c'] = p
          · exact he.symm
          · obtain ⟨x, hx, hxd⟩ := wf.ancestors p n' _ hn' ⟨by simp, he, hp⟩
            rw [hm] at hx; cases hx; rw [hnd] at hxd; cases hxd
        · exact Or.inr ⟨⟨n', hn'⟩, c', hc', hp⟩
  | @dir d c cs ks T1 T2 n hm hd hk ht1 ht2 ih1 ih2 =>
    intro hs
    rw [List.pairwise_cons] at hs
    obtain ⟨a1, a2⟩ := ih1 hk.1
    obtain ⟨b1, b2⟩ := ih2 hs.2
    have hv : (Ev.enter (d ++ [c]) :: (T1 ++ Ev.exit (d ++ [c]) :: T2)).filterMap Ev.visited
        = (d ++ [c]) :: (T1.filterMap Ev.visited ++ T2.filterMap Ev.visited) := by
      simp [List.filterMap_cons, Ev.visited]
    rw [hv]
    refine ⟨List.pairwise_cons.mpr ⟨?_, List.pairwise_append.mpr ⟨a1, b1, ?_⟩⟩, ?_⟩
    · intro q hq
      rcases List.mem_append.mp hq with hq | hq
      · obtain ⟨_, c', hc', t, rfl⟩ := (a2 q).mp hq
        rw [List.append_assoc]; exact lexLt_append_right _ _ (by simp)
      · obtain ⟨_, c', hc', t, rfl⟩ := (b2 q).mp hq
        rw [List.append_assoc]
        exact lexLt_of_names (p := []) (hs.1 c' hc')
    · intro p hp q hq
      obtain ⟨_, c1, hc1, t1, rfl⟩ := (a2 p).mp hp
      obtain ⟨_, c2, hc2, t2, rfl⟩ := (b2 q).mp hq
      simp only [List.append_assoc]
      exact lexLt_of_names (hs.1 c2 hc2)
    · intro p
      simp only [List.mem_cons, List.mem_append, a2, b2]
      constructor
      · rintro (rfl | ⟨hn, c', hc', hp⟩ | ⟨hn, c', hc', hp⟩)
        · exact ⟨⟨n, hm⟩, c, Or.inl rfl, List.prefix_refl _⟩
        · exact ⟨hn, c, Or.inl rfl, (List.prefix_append _ _).trans hp⟩
        · exact ⟨hn, c', Or.inr hc', hp⟩
      · rintro ⟨⟨n', hn'⟩, c', rfl | hc', hp⟩
        · by_cases he : d ++ [c'] = p
          · exact Or.inl he.symm
          · right; left
            refine ⟨⟨n', hn'⟩, ?_⟩
            obtain ⟨t, rfl⟩ := hp
            cases t with
            | nil => simp at he
            | cons x xs =>
              refine ⟨x, (hk.2 x).mpr ?_, ⟨xs, by simp⟩⟩
              by_cases hxs : xs = []
              · subst hxs; exact ⟨n', hn'⟩
              · obtain ⟨y, hy, _⟩ := wf.ancestors _ _ (d ++ [c'] ++ [x]) hn'
                  ⟨by simp, by simpa using hxs, ⟨xs, by simp⟩⟩
                exact ⟨y, hy⟩
        · exact Or.inr (Or.inr ⟨⟨n', hn'⟩, c', hc', hp⟩)

theorem TraceOf.listing {m : PathMap} (wf : m.WF) {d ns : List Bytes} {T : List Ev} (h : TraceOf m d ns T)
    (hk : KidsOf m d ns) : Listing m d (T.filterMap Ev.visited) := by
  obtain ⟨h1, h2⟩ := h.visited wf hk.1
  refine ⟨h1, fun p => ?_⟩
  rw [h2]
  constructor
  · rintro ⟨hn, c, hc, t, rfl⟩
    exact ⟨hn, ⟨[c] ++ t, by simp⟩, by simp⟩
  · rintro ⟨⟨n, hn⟩, ⟨t, rfl⟩, hne⟩
    cases t with
    | nil => simp at hne
    | cons x xs =>
      refine ⟨⟨n, hn⟩, x, (hk.2 x).mpr ?_, ⟨xs, by simp⟩⟩
      by_cases hxs : xs = []
      · subst hxs; exact ⟨n, hn⟩
      · obtain ⟨y, hy, _⟩ := wf.ancestors _ _ (d ++ [x]) hn ⟨by simp, by simpa using hxs, ⟨xs, by simp⟩⟩
        exact ⟨y, hy⟩

/-- every directory event pair brackets exactly the walk of that directory -/
theorem TraceOf.bracket {m : PathMap} {d ns : List Bytes} {T : List Ev} (h : TraceOf m d ns T) :
    ∀ p, Ev.enter p ∈ T → ∃ A B C ks, T = A ++ Ev.enter p :: (B ++ Ev.exit p :: C) ∧ KidsOf m p ks ∧ TraceOf m p ks B := by
  induction h with
  | nil d => intro p hp; simp at hp
  | @leaf d c cs T n hm hnd ht ih =>
    intro p hp
    simp only [List.mem_cons, reduceCtorEq, false_or] at hp
    obtain ⟨A, B, C, ks, h1, h2, h3⟩ := ih p hp
    exact ⟨_ :: A, B, C, ks, by rw [h1]; rfl, h2, h3⟩
  | @dir d c cs ks T1 T2 n hm hd hk ht1 ht2 ih1 ih2 =>
    intro p hp
    simp only [List.mem_cons, List.mem_append, reduceCtorEq, false_or, Ev.enter.injEq] at hp
    rcases hp with rfl | hp | hp
    · exact ⟨[], T1, T2, ks, rfl, hk, ht1⟩
    · obtain ⟨A, B, C, ks', h1, h2, h3⟩ := ih1 p hp
      exact ⟨.enter (d ++ [c]) :: A, B, C ++ .exit (d ++ [c]) :: T2, ks', by rw [h1]; simp, h2, h3⟩
    · obtain ⟨A, B, C, ks', h1, h2, h3⟩ := ih2 p hp
      exact ⟨.enter (d ++ [c]) :: (T1 ++ .exit (d ++ [c]) :: A), B, C, ks', by rw [h1]; simp, h2, h3⟩

theorem TraceOf.kind {m : PathMap} {d ns : List Bytes} {T : List Ev} (h : TraceOf m d ns T) :
    (∀ p, Ev.enter p ∈ T → ∃ n, m p = some n ∧ n.isDir = true) ∧
    (∀ p, Ev.exit p ∈ T → ∃ n, m p = some n ∧ n.isDir = true) ∧
    (∀ p, Ev.leaf p ∈ T → ∃ n, m p = some n ∧ n.isDir = false) := by
  induction h with
  | nil d => simp
  | @leaf d c cs T n hm hnd ht ih =>
    obtain ⟨i1, i2, i3⟩ := ih
    refine ⟨?_, ?_, ?_⟩ <;> intro p hp <;> simp only [List.mem_cons, reduceCtorEq, false_or, Ev.leaf.injEq] at hp
    · exact i1 p hp
    · exact i2 p hp
    · rcases hp with rfl | hp
      · exact ⟨n, hm, hnd⟩
      · exact i3 p hp
  | @dir d c cs ks T1 T2 n hm hd hk ht1 ht2 ih1 ih2 =>
    obtain ⟨i1, i2, i3⟩ := ih1
    obtain ⟨j1, j2, j3⟩ := ih2
    refine ⟨?_, ?_, ?_⟩ <;> intro p hp <;>
      simp only [List.mem_cons, List.mem_append, reduceCtorEq, false_or, Ev.enter.injEq, Ev.exit.injEq] at hp
    · rcases hp with rfl | hp | hp
      · exact ⟨n, hm, hd⟩
      · exact i1 p hp
      · exact j1 p hp
    · rcases hp with hp | rfl | hp
      · exact i2 p hp
      · exact ⟨n, hm, hd⟩
      · exact j2 p hp
    · rcases hp with hp | hp
      · exact i3 p hp
      · exact j3 p hp

/-! ## Reading entries of a good archive -/

theorem Good.entOK {a : Archive} {m : PathMap} {P : List (List Bytes)} (G : Good a m P) {F L D : Type}
    {B : Builder F L D}
    (hB : ∀ (i : Nat) (r : RawEntry), a.entries[i]? = some r →
      (r.variant = 0 → ∃ x, B.file i r = .ok x) ∧ (r.variant = 2 → ∃ x, B.link i r = .ok x) ∧
      (r.variant = 1 → ∃ x, B.dir i r = .ok x)) :
    EntOK m P (a.entOf P B) := by
  intro p hp
  obtain ⟨i, hi⟩ := List.mem_iff_getElem?.mp hp
  obtain ⟨r, n, h1, h2, h3, h4⟩ := G.create_spec B hi
  refine ⟨n, h2, ?_⟩
  obtain ⟨_, _, _, _, _, _, hv⟩ := h3
  rw [Archive.entOf, G.idxOf_eq hi, h4]
  obtain ⟨b1, b2, b3⟩ := hB i r h1
  cases hk : n.kind with
  | dir => rw [hk] at hv; obtain ⟨x, hx⟩ := b3 hv.1; exact ⟨_, x, by rw [hx]; rfl⟩
  | file s c => rw [hk] at hv; obtain ⟨x, hx⟩ := b1 hv.1; exact ⟨x, by rw [hx]; rfl⟩
  | link t => rw [hk] at hv; obtain ⟨x, hx⟩ := b2 hv.1; exact ⟨x, by rw [hx]; rfl⟩

theorem Good.entOK_full {a : Archive} {m : PathMap} {P : List (List Bytes)} (G : Good a m P) :
    EntOK m P (a.entOf P fullBuilder) := by
  apply G.entOK
  intro i r h
  have h1 := G.fullBuilder_file h
  refine ⟨fun _ => h1.1, fun _ => h1.2, fun _ => ?_⟩
  obtain ⟨x, hx⟩ := G.fullBuilder_total i r h
  exact ⟨x, hx⟩

theorem Good.deepEnough {a : Archive} {m : PathMap} {P : List (List Bytes)} (G : Good a m P) {f : Nat}
    (h : a.entries.length < f) (d : List Bytes) : DeepEnough P f d := by
  refine ⟨by omega, fun p hp => ?_⟩
  obtain ⟨i, hi⟩ := List.mem_iff_getElem?.mp hp
  have h1 := G.length_path_le p.length p i (Nat.le_refl _) hi
  have h2 := (List.getElem?_eq_some_iff.mp hi).1
  have h3 := G.len
  omega

theorem Good.entryAt {a : Archive} {m : PathMap} {P : List (List Bytes)} (G : Good a m P) {p : List Bytes}
    (hp : p ∈ P) {e : Entry FileEntry LinkEntry DirEntry} (h : a.entOf P fullBuilder p = .ok e) :
    EntryAt a m p e ∧ (∀ r d, e = .dir r d → d.range = r) := by
  obtain ⟨i, hi⟩ := List.mem_iff_getElem?.mp hp
  obtain ⟨n, hn⟩ := (G.dom p).mp hp
  obtain ⟨e', h1, h2, h3, h4, _, _, h5⟩ := G.getEntryAt hi hn
  rw [Archive.entOf, G.idxOf_eq hi, h1] at h
  cases h
  have h6 := G.length_path_le p.length p i (Nat.le_refl _) hi
  have h7 := (List.getElem?_eq_some_iff.mp hi).1
  refine ⟨⟨n, hn, h2, ?_, h3⟩, fun r d hd => (h5 r d hd).1⟩
  rw [h4]; exact G.pathUp _ i p hi (by rw [G.len]; omega)

theorem Good.rootRange {a : Archive} {m : PathMap} {P : List (List Bytes)} (G : Good a m P) :
    RangeIs P [] a.root.offset a.root.count := by rw [G.root.1]; exact G.root.2

end Arx
