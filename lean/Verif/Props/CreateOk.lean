import Verif.Proof.AddIff
import Verif.Props.Create2
/-!
# C77: when `arx create` succeeds
-/
namespace Arx

/-- What a walk yields, as a list of paths to add: parents first. -/
theorem walk_seq {s : Src} {env : CEnv} (W : s.WF) {pre : RPath} {root : Bytes} {rc : Bool} {ls : ReadDir} {depth : Nat} {q : List Bytes}
    (hls : FullListing s ls) (hdepth : ∀ p, s.fs.nodes (q ++ p) ≠ none → p.length ≤ depth)
    (hroot : root ≠ []) (hq : s.fs.resolve true (namesOf env.cwd root) = .ok (.found q)) :
    ∃ order : List (List Bytes), order.head? = some [] ∧ order.Pairwise (fun a b => ¬ b <+: a) ∧ (∀ p, p ∈ order ↔ s.Has q p ∧ (p = [] ∨ rc = true)) ∧
      ∀ a : Adder, a.addSeq env pre root (goodPrefix (walkItems env.cwd s ls depth root rc)) =
        a.addAll env pre (order.map (fun p => (p.foldl joinChild root, decide (p = [])))) := by
  obtain ⟨x, hx, hl⟩ := W.toWF.resolve_found hq
  have single : walkItems env.cwd s ls depth root rc = [.ok root] → ∀ a : Adder, a.addSeq env pre root (goodPrefix (walkItems env.cwd s ls depth root rc)) =
      a.addAll env pre ([[]].map (fun p => (p.foldl joinChild root, decide (p = [])))) := by
    intro hw a
    rw [hw]
    simp [goodPrefix, Adder.addSeq]
  by_cases hdir : ∃ t, s.fs.nodes q = some (.dir t)
  · cases rc with
    | false =>
      refine ⟨[[]], rfl, by simp, ?_, single (walkItems_single W hroot hq (Or.inl rfl))⟩
      intro p
      simp only [List.mem_cons, List.not_mem_nil, or_false, Bool.false_eq_true]
      constructor
      · rintro rfl; exact ⟨by simp [Src.Has, hx], rfl⟩
      · exact fun h => h.2
    | true =>
      obtain ⟨t, hd⟩ := hdir
      obtain ⟨ns, hns, hg⟩ := hls.names
      have hitems := walkItems_eq hns hroot hq hd depth
      have hmem := mem_walkRel hg W depth q t hd
      have hgp : goodPrefix (walkItems env.cwd s ls depth root true) =
          ([] :: walkRel s ns depth q).map (fun p => p.foldl joinChild root) := by
        rw [hitems]
        have := goodPrefix_ok (([] :: walkRel s ns depth q).map (fun p => p.foldl joinChild root))
        rw [List.map_map] at this
        exact this
      have hnames : ∀ p ∈ walkRel s ns depth q, (∀ c ∈ p, ValidName c) ∧ ∀ c ∈ p, PlainName c := by
        intro p hp
        obtain ⟨x, hx⟩ := Option.ne_none_iff_exists'.mp ((hmem p).mp hp).2.2
        exact ⟨fun c hc => (W.names _ x hx c (by simp [hc])).1, fun c hc => (W.names _ x hx c (by simp [hc])).2⟩
      refine ⟨[] :: walkRel s ns depth q, rfl, ?_, ?_, ?_⟩
      · refine List.pairwise_cons.mpr ⟨fun p hp h => ((hmem p).mp hp).1 (List.prefix_nil.mp h), ?_⟩
        exact ((walkRel_nodup hg W depth q t hd).and (walkRel_order hg W depth q t hd)).imp
          fun {a b} h hp => h.2 ⟨hp, Ne.symm h.1⟩
      · intro p
        rw [List.mem_cons, hmem p]
        constructor
        · rintro (rfl | h)
          · exact ⟨by rw [Src.Has, List.append_nil, hd]; simp, Or.inr rfl⟩
          · exact ⟨h.2.2, Or.inr rfl⟩
        · rintro ⟨h, _⟩
          by_cases e : p = []
          · exact Or.inl e
          · exact Or.inr ⟨e, hdepth p h, h⟩
      · intro a
        rw [hgp, Adder.addSeq, List.map_map]
        congr 1
        apply List.map_congr_left
        intro p hp
        simp only [Function.comp]
        rcases List.mem_cons.mp hp with rfl | hp
        · simp
        · obtain ⟨h1, h2⟩ := hnames p hp
          rw [text_stdComps h1 h2]
  · have hnd : ∀ t, s.fs.nodes q ≠ some (.dir t) := fun t ht => hdir ⟨t, ht⟩
    refine ⟨[[]], rfl, by simp, ?_, single (walkItems_single W hroot hq (Or.inr hnd))⟩
    intro p
    simp only [List.mem_cons, List.not_mem_nil, or_false]
    constructor
    · rintro rfl; exact ⟨by simp [Src.Has, hx], Or.inl rfl⟩
    · rintro ⟨hp, _⟩
      refine Classical.byContradiction fun hne => ?_
      obtain ⟨y, hy⟩ := Option.ne_none_iff_exists'.mp hp
      obtain ⟨t, ht⟩ := W.dirsTo hy q (List.prefix_append _ _) (by simpa using hne)
      exact hnd t ht

/-- `addFromPath_list`, whatever the result. -/
theorem addFromPath_walk {s : Src} {env : CEnv} (W : s.WF) {pre : RPath} {root : Bytes} {rc : Bool} {r : WalkRun} {q : List Bytes}
    (hsrc : r.src = s) (hls : FullListing s r.ls) (hdepth : ∀ p, s.fs.nodes (q ++ p) ≠ none → p.length ≤ r.depth)
    (hroot : root ≠ []) (hq : s.fs.resolve true (namesOf env.cwd root) = .ok (.found q))
    (hret : ∀ a : Adder, (Chan.run env pre root (Chan.start a (walkItems env.cwd s r.ls r.depth root rc)) r.sched).result ≠ none) :
    ∃ order : List (List Bytes), order.head? = some [] ∧ order.Pairwise (fun a b => ¬ b <+: a) ∧ (∀ p, p ∈ order ↔ s.Has q p ∧ (p = [] ∨ rc = true)) ∧
      ∀ a : Adder, addFromPath env pre a root rc r = a.addAll env pre (order.map (fun p => (p.foldl joinChild root, decide (p = [])))) := by
  obtain ⟨order, h1, h2, h3, h4⟩ := walk_seq (env := env) (pre := pre) (rc := rc) W hls hdepth hroot hq
  refine ⟨order, h1, h2, h3, fun a => ?_⟩
  rw [← h4 a]
  obtain ⟨e, he⟩ := Option.ne_none_iff_exists'.mp (hret a)
  rw [Chan.run_result he]
  simp only [addFromPath, hsrc, he, Option.getD_some]

/-- The same if the call is known to have succeeded. -/
theorem addFromPath_walk_ok {s : Src} {env : CEnv} (W : s.WF) {pre : RPath} {root : Bytes} {rc : Bool} {r : WalkRun} {q : List Bytes}
    (hsrc : r.src = s) (hls : FullListing s r.ls) (hdepth : ∀ p, s.fs.nodes (q ++ p) ≠ none → p.length ≤ r.depth)
    (hroot : root ≠ []) (hq : s.fs.resolve true (namesOf env.cwd root) = .ok (.found q)) {a a' : Adder}
    (h : addFromPath env pre a root rc r = (a', .ok)) :
    ∃ order : List (List Bytes), order.head? = some [] ∧ order.Pairwise (fun a b => ¬ b <+: a) ∧ (∀ p, p ∈ order ↔ s.Has q p ∧ (p = [] ∨ rc = true)) ∧
      a.addAll env pre (order.map (fun p => (p.foldl joinChild root, decide (p = [])))) = (a', .ok) := by
  obtain ⟨order, h1, h2, h3, h4⟩ := walk_seq (env := env) (pre := pre) (rc := rc) W hls hdepth hroot hq
  refine ⟨order, h1, h2, h3, ?_⟩
  rw [← h4 a]
  simp only [addFromPath, hsrc, Prod.mk.injEq] at h
  cases hr : (Chan.run env pre root (Chan.start a (walkItems env.cwd s r.ls r.depth root rc)) r.sched).result with
  | none => rw [hr] at h; exact absurd h.2 (by simp)
  | some e =>
    rw [Chan.run_result hr, h.1]
    rw [hr] at h
    rw [← h.2]; rfl

/-- The paths that the walks of some inputs yield, each input with or without recursion. -/
inductive WalkedEach (s : Src) (cwd : List Bytes) : List (Bytes × Bool) → List (Bytes × Bool) → Prop
  | nil : WalkedEach s cwd [] []
  | cons {root : Bytes} {rc : Bool} {roots : List (Bytes × Bool)} {L : List (Bytes × Bool)} {q : List Bytes} {order : List (List Bytes)} :
      root ≠ [] → s.fs.resolve true (namesOf cwd root) = .ok (.found q) → order.head? = some [] → order.Pairwise (fun a b => ¬ b <+: a) →
      (∀ p, p ∈ order ↔ s.Has q p ∧ (p = [] ∨ rc = true)) → WalkedEach s cwd roots L →
      WalkedEach s cwd ((root, rc) :: roots) (order.map (fun p => (p.foldl joinChild root, decide (p = []))) ++ L)

/-- The paths that the walks of the inputs yield. -/
def WalkedAs (s : Src) (cwd : List Bytes) (rc : Bool) (roots : List Bytes) (L : List (Bytes × Bool)) : Prop :=
  WalkedEach s cwd (roots.map fun f => (f, rc)) L

theorem addInputs_walked {s : Src} {sys : CreateSys} {cwd : List Bytes} {pre : RPath} {rc : Bool} (W : s.WF)
    (hw : ∀ i, (sys.walks i).src = s ∧ FullListing s (sys.walks i).ls ∧ ∀ q, s.fs.nodes q ≠ none → q.length ≤ (sys.walks i).depth) :
    ∀ (roots : List Bytes) (i : Nat), (∀ f ∈ roots, f ≠ [] ∧ Present s (namesOf cwd f)) →
      (∀ i, ∀ f ∈ roots, ∀ a : Adder, (Chan.run (sys.cenv cwd) pre f
        (Chan.start a (walkItems cwd s (sys.walks i).ls (sys.walks i).depth f rc)) (sys.walks i).sched).result ≠ none) →
      ∃ L, WalkedAs s cwd rc roots L ∧ ∀ a : Adder, (addInputs sys cwd pre rc a i roots).2 = a.addAll (sys.cenv cwd) pre L := by
  intro roots
  induction roots with
  | nil => intro i _ _; exact ⟨[], .nil, fun a => rfl⟩
  | cons f fs ih =>
    intro i hpres hret
    obtain ⟨L, hL, hadd⟩ := ih (i + 1) (fun g hg => hpres g (by simp [hg])) (fun i g hg => hret i g (by simp [hg]))
    obtain ⟨w1, w2, w3⟩ := hw i
    obtain ⟨hne, q, hq⟩ := hpres f (by simp)
    have hdepth : ∀ p, s.fs.nodes (q ++ p) ≠ none → p.length ≤ (sys.walks i).depth := by
      intro p hp
      have := w3 _ hp
      simp only [List.length_append] at this; omega
    obtain ⟨order, ho0, ho1, ho2, ho3⟩ := addFromPath_walk (env := sys.cenv cwd) (pre := pre) (rc := rc) W w1 w2 hdepth hne hq
      (hret i f (by simp))
    refine ⟨_, .cons hne hq ho0 ho1 ho2 hL, fun a => ?_⟩
    rw [Adder.addAll_append, ← ho3 a, addInputs]
    cases addFromPath (sys.cenv cwd) pre a f rc (sys.walks i) with
    | mk a1 o => cases o <;> simp only [hadd]

theorem Src.WF.below_names {s : Src} (W : s.WF) {q p : List Bytes} (hp : s.Has q p) :
    (∀ c ∈ p, ValidName c) ∧ ∀ c ∈ p, PlainName c := by
  obtain ⟨y, hy⟩ := Option.ne_none_iff_exists'.mp hp
  exact ⟨fun c hc => (W.names _ y hy c (by simp [hc])).1, fun c hc => (W.names _ y hy c (by simp [hc])).2⟩

/-- where the path of an entry below an input leads -/
theorem Src.WF.walked_leads {s : Src} (W : s.WF) {cwd : List Bytes} {root : Bytes} {q p : List Bytes} (hne : root ≠ [])
    (hq : s.fs.resolve true (namesOf cwd root) = .ok (.found q)) (hp : s.Has q p) :
    s.fs.resolve (decide (p = [])) (namesOf cwd (p.foldl joinChild root)) = .ok (.found (q ++ p)) := by
  by_cases e : p = []
  · subst e; simpa using hq
  · obtain ⟨y, hy⟩ := Option.ne_none_iff_exists'.mp hp
    obtain ⟨u, hu⟩ := W.dirsTo hy q (List.prefix_append _ _) (by simpa using e)
    rw [text_resolve _ _ hne (W.below_names hp).1, decide_eq_false e]
    exact W.resolve_below hq hu e hy

/-- The paths of the walks can all be added exactly if the inputs can be archived and do not clash. -/
theorem WalkedEach.iff {s : Src} (W : s.WF) {cwd : List Bytes} {pre : RPath} {roots : List (Bytes × Bool)} {L : List (Bytes × Bool)}
    (h : WalkedEach s cwd roots L) :
    (((∀ x ∈ L, Archivable s cwd pre x) ↔ ∀ f ∈ roots, ArchivableTree s cwd pre f.2 f.1) ∧
    ((∀ x ∈ L, Archivable s cwd pre x) → (L.Pairwise (NoClash s cwd pre) ↔ roots.Pairwise (fun f g => ∀ u v,
      OffersTree s cwd pre f.2 f.1 u → OffersTree s cwd pre g.2 g.1 v → ¬ Clash s u v ∧ ¬ Clash s v u)))) ∧
    ((∀ x ∈ L, Archivable s cwd pre x) → ∀ u, (∃ x ∈ L, OffersOne s cwd pre x u) ↔ ∃ f ∈ roots, OffersTree s cwd pre f.2 f.1 u) := by
  induction h with
  | nil => simp
  | @cons root rc roots L q order hne hq hhead hnd hord _ ih =>
    obtain ⟨⟨ih1, ih2⟩, ih3⟩ := ih
    obtain ⟨x0, hx0, hl0⟩ := W.toWF.resolve_found hq
    have hhas0 : s.Has q [] := by simp [Src.Has, hx0]
    have h0 : ([] : List Bytes) ∈ order := (hord []).mpr ⟨hhas0, Or.inl rfl⟩
    -- one tree
    have htree : (∀ x ∈ order.map (fun p => (p.foldl joinChild root, decide (p = []))), Archivable s cwd pre x) ↔
        ArchivableTree s cwd pre rc root := by
      constructor
      · intro hall
        obtain ⟨e1, e2, k, e3, e4⟩ := hall _ (List.mem_map.mpr ⟨[], h0, rfl⟩)
        simp only [List.foldl_nil, decide_true] at e1 e2 e3 e4
        refine ⟨hne, e1, e2, k, q, ⟨e3, hq, hhas0⟩, ?_, ?_⟩
        · by_cases hk : k = []
          · exact Or.inl hk
          · obtain ⟨q', g1, g2⟩ := e4 hk
            rw [hq] at g1; cases g1
            exact Or.inr g2
        · intro hrc p hp c hc
          have := (hall _ (List.mem_map.mpr ⟨p, (hord p).mpr ⟨hp, Or.inr hrc⟩, rfl⟩)).utf8 c
          simp only at this
          rw [text_comps p root (W.below_names hp).1] at this
          exact this (by simp [hc])
      · rintro ⟨_, e1, e2, k, q', ⟨e3, e4, _⟩, e5, e6⟩ x hx
        obtain ⟨p, hp, rfl⟩ := List.mem_map.mp hx
        rw [hq] at e4; cases e4
        obtain ⟨p1, p2⟩ := (hord p).mp hp
        obtain ⟨v1, v2⟩ := W.below_names p1
        refine ⟨?_, ?_, k ++ p, e3.below v1 v2, fun hkp => ⟨q ++ p, W.walked_leads hne hq p1, ?_⟩⟩
        · simp only; rw [text_head p root hne]; exact e1
        · intro c hc
          simp only at hc
          rw [text_comps p root v1] at hc
          rcases List.mem_append.mp hc with hc | hc
          · exact e2 c hc
          · rcases p2 with rfl | hrc
            · cases hc
            · exact e6 hrc p p1 c hc
        · rcases nil_or_snoc p with rfl | ⟨p', c, rfl⟩
          · simp only [List.append_nil] at hkp ⊢
            rcases e5 with e5 | e5
            · exact absurd e5 hkp
            · exact e5
          · right
            rw [← List.append_assoc, List.getLast?_append]
            simp only [List.getLast?_singleton, Option.some_or, ne_eq, Option.some.injEq]
            exact fun e => (v2 c (by simp)).2.1 e
    -- what one tree offers
    have hoff : ArchivableTree s cwd pre rc root → ∀ u,
        (∃ x ∈ order.map (fun p => (p.foldl joinChild root, decide (p = []))), OffersOne s cwd pre x u) ↔
          OffersTree s cwd pre rc root u := by
      rintro ⟨_, _, _, k, q', ⟨e3, e4, _⟩, _, _⟩ u
      rw [hq] at e4; cases e4
      constructor
      · rintro ⟨x, hx, g1, g2, g3⟩
        obtain ⟨p, hp, rfl⟩ := List.mem_map.mp hx
        obtain ⟨p1, p2⟩ := (hord p).mp hp
        obtain ⟨v1, v2⟩ := W.below_names p1
        have hu1 := StoredAs.unique g1 (e3.below v1 v2)
        have hl := W.walked_leads hne hq p1
        simp only at g3
        rw [hl] at g3
        have hu2 : q ++ p = u.2 := by injection g3 with g3; injection g3
        exact ⟨k, q, p, ⟨e3, hq, hhas0⟩, p1, p2, Prod.ext hu1 hu2.symm, g2⟩
      · rintro ⟨k', q', p, ⟨g1, g2, _⟩, p1, p2, rfl, g3⟩
        rw [hq] at g2; cases g2
        obtain ⟨v1, v2⟩ := W.below_names p1
        exact ⟨_, List.mem_map.mpr ⟨p, (hord p).mpr ⟨p1, p2⟩, rfl⟩, g1.below v1 v2, g3, W.walked_leads hne hq p1⟩
    -- no clash inside of a tree
    have hin : ArchivableTree s cwd pre rc root →
        (order.map (fun p => (p.foldl joinChild root, decide (p = [])))).Pairwise (NoClash s cwd pre) := by
      rintro ⟨_, _, _, k, q', ⟨e3, e4, _⟩, _, _⟩
      rw [hq] at e4; cases e4
      rw [List.pairwise_map]
      refine List.Pairwise.imp_of_mem ?_ hnd
      intro p p' hp hp' hpre
      have hpp : p ≠ p' := fun e => hpre (e ▸ List.prefix_rfl)
      have one : ∀ p ∈ order, ∀ u, OffersOne s cwd pre (p.foldl joinChild root, decide (p = [])) u → u = (k ++ p, q ++ p) := by
        intro p hp u hu
        obtain ⟨p1, p2⟩ := (hord p).mp hp
        obtain ⟨v1, v2⟩ := W.below_names p1
        have hl := W.walked_leads hne hq p1
        obtain ⟨g1, _, g3⟩ := hu
        simp only at g3
        rw [hl] at g3
        have hu2 : q ++ p = u.2 := by injection g3 with g3; injection g3
        exact Prod.ext (StoredAs.unique g1 (e3.below v1 v2)) hu2.symm
      have no : ∀ p ∈ order, ∀ p' ∈ order, p ≠ p' → ¬ Clash s (k ++ p, q ++ p) (k ++ p', q ++ p') := by
        rintro p hp p' hp' hpp ⟨hlf, ⟨e1, _⟩ | ⟨e1, _⟩⟩
        · simp only at e1
          have hpre : p <+: p' := (List.prefix_append_right_inj k).mp e1
          obtain ⟨y, hy⟩ := Option.ne_none_iff_exists'.mp ((hord p').mp hp').1
          obtain ⟨t, ht⟩ := W.dirsTo hy (q ++ p) ((List.prefix_append_right_inj q).mpr hpre) (by simpa using hpp)
          exact hlf.1 t ht
        · exact hpp (List.append_cancel_left e1)
      intro u v hu hv
      rw [one p hp u hu, one p' hp' v hv]
      exact ⟨no p hp p' hp' hpp, no p' hp' p hp (Ne.symm hpp)⟩
    refine ⟨⟨?_, ?_⟩, ?_⟩
    · simp only [List.mem_append, List.mem_cons]
      constructor
      · intro hall f hf
        rcases hf with rfl | hf
        · exact htree.mp (fun x hx => hall x (Or.inl hx))
        · exact ih1.mp (fun x hx => hall x (Or.inr hx)) f hf
      · intro hall x hx
        rcases hx with hx | hx
        · exact htree.mpr (hall (root, rc) (Or.inl rfl)) x hx
        · exact ih1.mpr (fun f hf => hall f (Or.inr hf)) x hx
    · intro hall
      have ha1 := htree.mp (fun x hx => hall x (List.mem_append.mpr (Or.inl hx)))
      have ha2 : ∀ x ∈ L, Archivable s cwd pre x := fun x hx => hall x (List.mem_append.mpr (Or.inr hx))
      rw [List.pairwise_append, List.pairwise_cons, ih2 ha2]
      constructor
      · rintro ⟨_, p2, p3⟩
        refine ⟨fun g hg u v hu hv => ?_, p2⟩
        obtain ⟨x, hx, hxu⟩ := (hoff ha1 u).mpr hu
        obtain ⟨y, hy, hyv⟩ := (ih3 ha2 v).mpr ⟨g, hg, hv⟩
        exact p3 x hx y hy u v hxu hyv
      · rintro ⟨p1, p2⟩
        refine ⟨hin ha1, p2, fun x hx y hy u v hxu hyv => ?_⟩
        obtain ⟨g, hg, hv⟩ := (ih3 ha2 v).mp ⟨y, hy, hyv⟩
        exact p1 g hg u v ((hoff ha1 u).mp ⟨x, hx, hxu⟩) hv
    · intro hall u
      have ha1 := htree.mp (fun x hx => hall x (List.mem_append.mpr (Or.inl hx)))
      have ha2 : ∀ x ∈ L, Archivable s cwd pre x := fun x hx => hall x (List.mem_append.mpr (Or.inr hx))
      constructor
      · rintro ⟨x, hx, hxu⟩
        rcases List.mem_append.mp hx with hx | hx
        · exact ⟨(root, rc), by simp, (hoff ha1 u).mp ⟨x, hx, hxu⟩⟩
        · obtain ⟨f, hf, hfu⟩ := (ih3 ha2 u).mp ⟨x, hx, hxu⟩
          exact ⟨f, by simp [hf], hfu⟩
      · rintro ⟨f, hf, hfu⟩
        rcases List.mem_cons.mp hf with rfl | hf
        · obtain ⟨x, hx, hxu⟩ := (hoff ha1 u).mpr hfu
          exact ⟨x, by simp only [List.mem_append]; exact Or.inl hx, hxu⟩
        · obtain ⟨x, hx, hxu⟩ := (ih3 ha2 u).mpr ⟨f, hf, hfu⟩
          exact ⟨x, by simp only [List.mem_append]; exact Or.inr hx, hxu⟩

theorem WalkedAs.iff {s : Src} (W : s.WF) {cwd : List Bytes} {pre : RPath} {rc : Bool} {roots : List Bytes} {L : List (Bytes × Bool)}
    (h : WalkedAs s cwd rc roots L) :
    (((∀ x ∈ L, Archivable s cwd pre x) ↔ ∀ f ∈ roots, ArchivableTree s cwd pre rc f) ∧
    ((∀ x ∈ L, Archivable s cwd pre x) → (L.Pairwise (NoClash s cwd pre) ↔ roots.Pairwise (fun f g => ∀ u v,
      OffersTree s cwd pre rc f u → OffersTree s cwd pre rc g v → ¬ Clash s u v ∧ ¬ Clash s v u)))) ∧
    ((∀ x ∈ L, Archivable s cwd pre x) → ∀ u, (∃ x ∈ L, OffersOne s cwd pre x u) ↔ ∃ f ∈ roots, OffersTree s cwd pre rc f u) := by
  obtain ⟨⟨h1, h2⟩, h3⟩ := WalkedEach.iff (pre := pre) W h
  rw [List.pairwise_map] at h2
  refine ⟨⟨h1.trans ?_, h2⟩, fun hall u => (h3 hall u).trans ?_⟩
  · simp only [List.forall_mem_map]
  · constructor
    · rintro ⟨_, hx, hu⟩
      obtain ⟨f, hf, rfl⟩ := List.mem_map.mp hx
      exact ⟨f, hf, hu⟩
    · rintro ⟨f, hf, hu⟩
      exact ⟨_, List.mem_map_of_mem hf, hu⟩

/-! ## The command -/

theorem checkOutput_ok {o : CreateOpts} {sys : CreateSys} {out : Bytes} (ho : o.outfile = some out) :
    checkOutput sys out o.force = .ok ↔ OutputFree o sys := by
  unfold checkOutput OutputFree
  constructor
  · intro h
    split at h
    · cases h
    · split at h
      · cases h
      · split at h
        · cases h
        · rename_i h1 h2 h3
          refine ⟨out, ho, h1, Src.isDir_iff.mp (by simpa using h2), fun hp => ?_⟩
          have := Src.exists_iff.mpr hp
          simpa [this] using h3
  · rintro ⟨out', e, h1, h2, h3⟩
    rw [ho] at e; cases e
    rw [if_neg h1, if_neg (by rw [Src.isDir_iff.mpr h2]; simp)]
    cases hx : sys.atOut.exists (namesOf sys.cwd out) with
    | false => simp
    | true => rw [h3 (Src.exists_iff.mp hx)]; simp

/-- The command ends well exactly if its output is free, it can change to its base directory, the archive can be opened
and written, and everything can be added. -/
theorem CreateOpts.run_ok {o : CreateOpts} {sys : CreateSys} (hl : o.listCompressions = false) :
    (o.run sys).2 = .ok ↔ OutputFree o sys ∧ o.fileList ≠ some [] ∧ sys.openOk = true ∧ sys.writeOk = true ∧
      ∃ cwd, StartsIn o sys cwd ∧ (o.addAll sys cwd).2.2 = .ok := by
  unfold CreateOpts.run
  rw [hl]
  simp only [Bool.false_eq_true, if_false]
  cases ho : o.outfile with
  | none =>
    simp only [reduceCtorEq, false_iff]
    rintro ⟨⟨out, e, _⟩, _⟩
    rw [ho] at e; cases e
  | some out =>
    simp only
    rw [← checkOutput_ok ho]
    cases hc : checkOutput sys out o.force with
    | panic => simp
    | err => simp
    | ok =>
      simp only [true_and]
      by_cases hf : o.fileList = some []
      · simp [hf]
      · rw [if_neg hf]
        cases hch : sys.chdir o.baseDir with
        | none =>
          simp only [reduceCtorEq, false_iff]
          rintro ⟨_, _, _, cwd, e, _⟩
          rw [StartsIn.iff, hch] at e; cases e
        | some cwd =>
          have hcw : ∀ cwd', StartsIn o sys cwd' ↔ cwd' = cwd := by
            intro cwd'; rw [StartsIn.iff, hch]; simp [eq_comm]
          simp only [hcw, exists_eq_left]
          cases hop : sys.openOk with
          | false => simp
          | true =>
            simp only [Bool.not_true, Bool.false_eq_true, if_false, true_and]
            cases hAA : o.addAll sys cwd with
            | mk evs ar =>
              obtain ⟨a, r⟩ := ar
              cases r <;> simp [hf]

/-- **C77, input files.** `arx create` with input files, on a source that does not change meanwhile and whose directories can
be listed, with any interleaving of the threads, succeeds exactly if the output is in an existing directory and free (or
`--force` is given), the base directory exists, the archive can be written, every input is a relative, existing UTF-8 path in
the prefix that ends in a name, all names below are UTF-8 (with recursion), and no file or link of one input is stored where
another input stores something or a directory above it. -/
theorem C77_inputs {o : CreateOpts} {sys : CreateSys} {s : Src} (hl : o.listCompressions = false) (hfl : o.fileList = none)
    (Q : ∀ cwd, Quiet (sys.cenv cwd) s) (W : s.WF) (hcheck : sys.atCheck = s)
    (hw : ∀ i, (sys.walks i).src = s ∧ FullListing s (sys.walks i).ls ∧ ∀ q, s.fs.nodes q ≠ none → q.length ≤ (sys.walks i).depth)
    (hret : ∀ cwd, StartsIn o sys cwd → Returns o sys s cwd) :
    (o.run sys).2 = .ok ↔ OutputFree o sys ∧ sys.openOk = true ∧ sys.writeOk = true ∧ ∃ cwd, StartsIn o sys cwd ∧
      (∀ f ∈ o.infiles, ArchivableTree s cwd (o.stripPrefix.getD []) o.recursion f) ∧
      o.infiles.Pairwise (fun f g => ∀ u v, OffersTree s cwd (o.stripPrefix.getD []) o.recursion f u →
        OffersTree s cwd (o.stripPrefix.getD []) o.recursion g v → ¬ Clash s u v ∧ ¬ Clash s v u) := by
  rw [CreateOpts.run_ok hl, hfl]
  simp only [ne_eq, reduceCtorEq, not_false_eq_true, true_and]
  refine and_congr_right fun _ => and_congr_right fun _ => and_congr_right fun _ => exists_congr fun cwd => and_congr_right fun hcwd => ?_
  have hadd : ∀ (hp : ∀ f ∈ o.infiles, f ≠ [] ∧ Present s (namesOf cwd f)),
      ((addInputs sys cwd (o.stripPrefix.getD []) o.recursion Adder.new 0 o.infiles).2.2.toCmd = .ok ↔
        (∀ f ∈ o.infiles, ArchivableTree s cwd (o.stripPrefix.getD []) o.recursion f) ∧
        o.infiles.Pairwise (fun f g => ∀ u v, OffersTree s cwd (o.stripPrefix.getD []) o.recursion f u →
          OffersTree s cwd (o.stripPrefix.getD []) o.recursion g v → ¬ Clash s u v ∧ ¬ Clash s v u)) := by
    intro hp
    obtain ⟨L, hL, hrun⟩ := addInputs_walked (pre := o.stripPrefix.getD []) (rc := o.recursion) W hw o.infiles 0 hp (hret cwd hcwd)
    have hcmd : ∀ x : AOut, x.toCmd = .ok ↔ x = .ok := by intro x; cases x <;> simp [AOut.toCmd]
    rw [hcmd, hrun, Adder.addAll_iff (Q cwd) W L]
    obtain ⟨⟨k1, k2⟩, _⟩ := hL.iff (pre := o.stripPrefix.getD []) W
    constructor
    · rintro ⟨a, b⟩; exact ⟨k1.mp a, (k2 a).mp b⟩
    · rintro ⟨a, b⟩; exact ⟨k1.mpr a, (k2 (k1.mpr a)).mpr b⟩
  unfold CreateOpts.addAll
  rw [hfl]
  simp only
  by_cases habs : o.infiles.any (fun f => decide (f.head? = some SEP)) = true
  · rw [if_pos habs]
    simp only [reduceCtorEq, false_iff]
    rintro ⟨h, _⟩
    obtain ⟨f, hf, e⟩ := List.any_eq_true.mp habs
    exact (h f hf).relative (by simpa using e)
  · rw [if_neg habs]
    have hci : checkInputs sys cwd o.infiles = true ↔ ∀ f ∈ o.infiles, f ≠ [] ∧ Present s (namesOf cwd f) := by
      unfold checkInputs
      rw [List.all_eq_true]
      refine forall_congr' fun f => forall_congr' fun hf => ?_
      rw [Bool.and_eq_true, decide_eq_true_eq, hcheck, Src.exists_iff]
    by_cases hc : checkInputs sys cwd o.infiles = true
    · rw [if_neg (by simp [hc])]
      exact hadd (hci.mp hc)
    · rw [if_pos (by simpa using hc)]
      simp only [reduceCtorEq, false_iff]
      rintro ⟨h, _⟩
      refine hc (hci.mpr fun f hf => ?_)
      obtain ⟨h1, _, _, k, q, h2, _⟩ := h f hf
      exact ⟨h1, q, h2.2.1⟩

/-- **C77, file list.** The same for a file list: it succeeds exactly if the list can be read, every line is a relative UTF-8
path in the prefix that leads to something and ends in a name, and no two lines clash. -/
theorem C77_list {o : CreateOpts} {sys : CreateSys} {s : Src} {l : Bytes} (hl : o.listCompressions = false) (hfl : o.fileList = some l)
    (Q : ∀ cwd, Quiet (sys.cenv cwd) s) (W : s.WF) :
    (o.run sys).2 = .ok ↔ OutputFree o sys ∧ l ≠ [] ∧ sys.openOk = true ∧ sys.writeOk = true ∧ ∃ cwd text lines, StartsIn o sys cwd ∧
      sys.text (absFile sys.cwd l) = some text ∧ TextOf lines text ∧ (∀ x ∈ lines, validUtf8 x = true) ∧
      (∀ x ∈ lines, Archivable s cwd (o.stripPrefix.getD []) (x, o.followSymlink)) ∧
      lines.Pairwise (fun x y => ∀ u v, OffersOne s cwd (o.stripPrefix.getD []) (x, o.followSymlink) u →
        OffersOne s cwd (o.stripPrefix.getD []) (y, o.followSymlink) v → ¬ Clash s u v ∧ ¬ Clash s v u) := by
  rw [CreateOpts.run_ok hl, hfl]
  simp only [ne_eq, Option.some.injEq]
  refine and_congr_right fun _ => and_congr_right fun _ => and_congr_right fun _ => and_congr_right fun _ => exists_congr fun cwd => ?_
  have hcmd : ∀ x : AOut, x.toCmd = .ok ↔ x = .ok := by intro x; cases x <;> simp [AOut.toCmd]
  have main : ∀ lines : List Bytes, (Adder.new.addFromList (sys.cenv cwd) (o.stripPrefix.getD []) lines o.followSymlink).2.toCmd = .ok ↔
      (∀ x ∈ lines, Archivable s cwd (o.stripPrefix.getD []) (x, o.followSymlink)) ∧
      lines.Pairwise (fun x y => ∀ u v, OffersOne s cwd (o.stripPrefix.getD []) (x, o.followSymlink) u →
        OffersOne s cwd (o.stripPrefix.getD []) (y, o.followSymlink) v → ¬ Clash s u v ∧ ¬ Clash s v u) := by
    intro lines
    rw [hcmd, Adder.addFromList, Adder.addAll_iff (Q cwd) W, List.pairwise_map]
    refine and_congr ?_ Iff.rfl
    simp only [List.mem_map, forall_exists_index, and_imp, forall_apply_eq_imp_iff₂]
    exact Iff.rfl
  unfold CreateOpts.addAll
  rw [hfl]
  simp only
  cases ht : sys.text (absFile sys.cwd l) with
  | none => simp [readLines]
  | some text =>
    obtain ⟨ls, hls⟩ := TextOf.exists text
    have hlf := hls.lines
    have huniq : ∀ lines, TextOf lines text → lines = ls := fun lines h => by rw [← h.lines, hlf]
    simp only [readLines, hlf]
    by_cases hu : ls.all validUtf8 = true
    · rw [if_pos hu]
      simp only [main]
      constructor
      · rintro ⟨a, b, c⟩; exact ⟨text, ls, a, rfl, hls, List.all_eq_true.mp hu, b, c⟩
      · rintro ⟨t, lines, a, e, h1, _, b, c⟩
        cases e
        have := huniq _ h1; subst this
        exact ⟨a, b, c⟩
    · rw [if_neg hu]
      constructor
      · rintro ⟨_, e⟩; cases e
      · rintro ⟨t, lines, a, e, h1, h2, _⟩
        cases e
        have := huniq _ h1; subst this
        exact absurd (List.all_eq_true.mpr h2) hu

/-- **C77, absolute paths.** The help of `arx create` says that the root is removed from absolute inputs; every command with an
absolute input file fails instead, before the input is read. -/
theorem C77_absolute {o : CreateOpts} {sys : CreateSys} (hl : o.listCompressions = false) (hfl : o.fileList = none)
    {f : Bytes} (hf : f ∈ o.infiles) (ha : f.head? = some SEP) :
    (o.run sys).2 ≠ .ok ∧ ∀ e ∈ (o.run sys).1, ∀ p, e ≠ .input p := by
  have habs : o.infiles.any (fun f => decide (f.head? = some SEP)) = true :=
    List.any_eq_true.mpr ⟨f, hf, by simpa using ha⟩
  have hadd : ∀ cwd, o.addAll sys cwd = ([], Adder.new, .err) := by
    intro cwd
    unfold CreateOpts.addAll
    rw [hfl]
    simp only [habs, if_true]
  constructor
  · intro h
    obtain ⟨_, _, _, _, cwd, _, h⟩ := (CreateOpts.run_ok hl).mp h
    rw [hadd] at h; cases h
  · intro e he p
    unfold CreateOpts.run at he
    simp only [hadd] at he
    rintro rfl
    repeat' first | (simp at he; done) | split at he

/-! ## The hypotheses are met, and both sides occur -/

theorem Chan.queue_le (env : CEnv) (pre root : RPath) : ∀ (n : Nat) (c : Chan),
    (Chan.run env pre root c (List.replicate n true)).queue.length ≤ c.queue.length + c.todo.length := by
  intro n
  induction n with
  | zero => intro c; simp [Chan.run]
  | succ n ih =>
    intro c
    simp only [List.replicate_succ, Chan.run]
    refine Nat.le_trans (ih _) ?_
    unfold Chan.walkerStep
    split
    · exact Nat.le_refl _
    · split
      · simp_all
      · simp_all
      · split <;> simp_all <;> omega

/-- A schedule in which the walking thread runs to its end, and then the main thread, is one that ends. -/
theorem Chan.returns {env : CEnv} {pre root : RPath} {a : Adder} {items : List (Except Unit Bytes)} {n : Nat} (h : items.length < n) :
    (Chan.run env pre root (Chan.start a items) (List.replicate n true ++ List.replicate n false)).result ≠ none := by
  rw [Chan.run_append]
  have := Chan.adder_ends env pre root n _ (Chan.walker_ends env pre root n (Chan.start a items) h)
    (Nat.lt_of_le_of_lt (Chan.queue_le env pre root n _) (by simpa [Chan.start] using h))
  intro e
  rw [e] at this; cases this

/-- `arx create -o x.arx d` meets the hypotheses of `C77_inputs`, and so the right-hand side of it holds -/
theorem exSys_returns : ∀ cwd, StartsIn exCreate exSys cwd → Returns exCreate exSys exSrc cwd := by
  intro cwd h i f hf a
  have e : cwd = [] := by
    rw [StartsIn.iff] at h
    have : exSys.chdir exCreate.baseDir = some [] := by decide +kernel
    rw [this] at h; cases h; rfl
  subst e
  have ef : f = ascii "d" := by simpa [exCreate] using hf
  subst ef
  have hlen : (walkItems [] exSrc exLs 5 (ascii "d") exCreate.recursion).length < 20 := by decide +kernel
  exact Chan.returns (n := 20) hlen

theorem exSys_walks : ∀ i, (exSys.walks i).src = exSrc ∧ FullListing exSrc (exSys.walks i).ls ∧
    ∀ q, exSrc.fs.nodes q ≠ none → q.length ≤ (exSys.walks i).depth := fun _ => ⟨rfl, exLs_full, fun q hq => by
  have := exSrc_paths hq
  simp only [List.mem_cons, List.not_mem_nil, or_false] at this
  rcases this with e | e | e | e | e | e <;> rw [e] <;> simp [exSys]⟩

example : ∃ cwd, StartsIn exCreate exSys cwd ∧ ∀ f ∈ exCreate.infiles, ArchivableTree exSrc cwd [] true f := by
  obtain ⟨_, _, _, cwd, h1, h2, _⟩ := (C77_inputs (o := exCreate) (sys := exSys) (s := exSrc) rfl rfl (fun _ => ⟨fun _ => rfl, fun _ => rfl⟩) exSrc_wf rfl
    exSys_walks exSys_returns).mp (by decide +kernel)
  exact ⟨cwd, h1, h2⟩

/-- The other outcomes: the same input twice (its files clash; without recursion the directory is there once, and that is
fine), a file and the directory it is in, an input that is not there, an input outside of the prefix, and an absolute one. -/
example : ({ exCreate with infiles := [ascii "d", ascii "d"] }.run exSys).2 = .err ∧
    ({ exCreate with infiles := [ascii "d", ascii "d"], noRecurse := true }.run exSys).2 = .ok ∧
    ({ exCreate with infiles := [ascii "d", ascii "d/f"] }.run exSys).2 = .err ∧
    ({ exCreate with infiles := [ascii "d/s", ascii "d/f"] }.run exSys).2 = .ok ∧
    ({ exCreate with infiles := [ascii "d", ascii "n"] }.run exSys).2 = .err ∧
    ({ exCreate with stripPrefix := some (ascii "d/s") }.run exSys).2 ≠ .ok ∧
    ({ exCreate with infiles := [ascii "/d"] }.run exSys).2 = .err := by
  refine ⟨?_, ?_, ?_, ?_, ?_, ?_, ?_⟩ <;> decide +kernel

/-- the list command meets the hypotheses of `C77_list` -/
example : ∃ cwd text lines, StartsIn exListOpts exSys cwd ∧ TextOf lines text ∧
    ∀ x ∈ lines, Archivable exSrc cwd [] (x, false) := by
  obtain ⟨_, _, _, _, cwd, text, lines, h1, _, h2, _, h3, _⟩ := (C77_list (o := exListOpts) (sys := exSys) (s := exSrc) rfl rfl
    (fun _ => ⟨fun _ => rfl, fun _ => rfl⟩) exSrc_wf).mp (by decide +kernel)
  exact ⟨cwd, text, lines, h1, h2, h3⟩

end Arx
