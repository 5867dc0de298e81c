import Verif.Props.PyCreate
import Verif.Props.Reproduce
import Verif.Props.SameCommand
/-!
# C93: a Python program makes the archive that `arx create` makes
-/
namespace Arx
variable {env : CEnv} {s : Src}

/-- if no call raises, the calls add the paths of the walks -/
theorem addsOf_walked_ok (W : s.WF) : ∀ (adds : List PyAdd), (∀ x ∈ adds, x.Fair env s) → ∀ a : Adder,
    (∀ r ∈ (addsOf env a false (addCalls adds)).1, r = .ok) →
    ∃ L, WalkedEach s env.cwd ((existing s env.cwd adds).map (fun x => (x.path, x.recursive))) L ∧
      a.addAll env [] L = ((addsOf env a false (addCalls adds)).2.1, .ok) := by
  intro adds
  induction adds with
  | nil => intro _ a _; exact ⟨[], .nil, rfl⟩
  | cons y adds ih =>
    intro hF a hok
    have Fy := hF y (by simp)
    have hc : addCalls (y :: adds) = .add y.path y.recursive y.walk :: addCalls adds := rfl
    have hF' : ∀ x ∈ adds, x.Fair env s := fun x hx => hF x (by simp [hx])
    by_cases hex : y.Exists s env.cwd
    · obtain ⟨q, order, h0, hq, ho0, ho1, hord, hw⟩ := Fy.walk W hex
      have e1 : existing s env.cwd (y :: adds) = y :: existing s env.cwd adds := by simp [existing, hex]
      rw [hc] at hok ⊢
      have hout : (addFromPath env [] a y.path y.recursive y.walk).2 = .ok := by
        rw [addsOf_add] at hok
        have := hok _ (List.mem_cons_self ..)
        revert this
        cases (addFromPath env [] a y.path y.recursive y.walk).2 <;> simp [AOut.toPy]
      have hne : (addFromPath env [] a y.path y.recursive y.walk).2 ≠ .panic := by rw [hout]; simp
      rw [addsOf_add_ne hne] at hok ⊢
      obtain ⟨L, hL, hadd⟩ := ih hF' _ (fun r hr => hok r (List.mem_cons_of_mem _ hr))
      refine ⟨order.map (fun p => (p.foldl joinChild y.path, decide (p = []))) ++ L, by rw [e1]; exact .cons h0 hq ho0 ho1 hord hL, ?_⟩
      rw [Adder.addAll_append, ← hw a]
      cases ha : addFromPath env [] a y.path y.recursive y.walk with
      | mk a1 o =>
        rw [ha] at hout hadd
        simp only at hout
        subst hout
        exact hadd
    · have e1 : existing s env.cwd (y :: adds) = existing s env.cwd adds := by simp [existing, hex]
      have hm := Fy.missing W hex a
      have hne : (addFromPath env [] a y.path y.recursive y.walk).2 ≠ .panic := by rw [hm]; simp
      rw [hc, addsOf_add_ne hne, hm] at hok ⊢
      obtain ⟨L, hL, hadd⟩ := ih hF' a (fun r hr => hok r (List.mem_cons_of_mem _ hr))
      exact ⟨L, by rw [e1]; exact hL, hadd⟩

theorem PyAdd.Offers.exists {cwd : List Bytes} {x : PyAdd} {u : List Bytes × List Bytes} (h : x.Offers s cwd u) : x.Exists s cwd := by
  obtain ⟨h0, k, q, p, i1, _⟩ := h
  exact ⟨h0, q, i1.2.1⟩

theorem PyAdd.Makes.exists {cwd : List Bytes} {x : PyAdd} {z : List Bytes} (h : x.Makes s cwd z) : x.Exists s cwd := by
  obtain ⟨_, u, hu, _⟩ := h
  exact hu.exists

theorem mem_existing {cwd : List Bytes} {adds : List PyAdd} {x : PyAdd} : x ∈ existing s cwd adds ↔ x ∈ adds ∧ x.Exists s cwd := by
  simp [existing]

theorem existing_split {cwd : List Bytes} {A B : List PyAdd} {x : PyAdd} (h : x.Exists s cwd) :
    existing s cwd (A ++ x :: B) = existing s cwd A ++ x :: existing s cwd B := by
  simp [existing, List.filter_append, h]

/-- From the paths of the walks to the calls. -/
theorem FirstPath.toAdd {cwd : List Bytes} {bytes : ContentAddr → GetBytes} (W : s.WF) {adds : List PyAdd}
    {L : List (Bytes × Bool)} {m : PathMap} (h : FirstPath s cwd [] bytes L m)
    (hw : WalkedEach s cwd ((existing s cwd adds).map (fun x => (x.path, x.recursive))) L)
    (hall : ∀ x ∈ L, Archivable s cwd [] x) : FirstAdd s cwd bytes adds m := by
  have before : ∀ (d : List PyAdd) (Ld : List (Bytes × Bool)), WalkedEach s cwd ((existing s cwd d).map (fun x => (x.path, x.recursive))) Ld →
      (∀ x ∈ Ld, x ∈ L) → ∀ z, (∀ g ∈ d, ¬ g.Makes s cwd z) → ∀ y ∈ Ld, ¬ Arx.Makes s cwd [] y z := by
    rintro d Ld hd hsub z hz y hy ⟨hzne, u, hu, h1, h2⟩
    obtain ⟨f, hf, hfu⟩ := ((WalkedEach.iff (pre := []) W hd).2 (fun x hx => hall x (hsub x hx)) u).mp ⟨y, hy, hu⟩
    obtain ⟨x, hx, rfl⟩ := List.mem_map.mp hf
    obtain ⟨x1, x2⟩ := mem_existing.mp hx
    exact hz x x1 ⟨hzne, u, ⟨x2.1, hfu⟩, h1, h2⟩
  refine ⟨fun z hz => h.nothing z (before adds L hw (fun _ h => h) z hz), ?_, ?_⟩
  · rintro A x B u rfl ⟨hx0, k, q, p, ⟨hk, hq, hh0⟩, hp, hrc, rfl, hne⟩ hsp hA
    rw [existing_split ⟨hx0, q, hq⟩, List.map_append, List.map_cons] at hw
    obtain ⟨Ld, q', order, Lr, hd, rfl, hf, hq', hhead, hpw, hord⟩ := WalkedEach.part _ hw
    simp only at hf hq' hord
    rw [hq] at hq'; cases hq'
    obtain ⟨o1, o2, rfl⟩ := List.append_of_mem ((hord p).mpr ⟨hp, hrc⟩)
    obtain ⟨v1, v2⟩ := W.below_names hp
    refine h.entry (Ld ++ o1.map (fun p => (p.foldl joinChild x.path, decide (p = [])))) (p.foldl joinChild x.path, decide (p = []))
      (o2.map (fun p => (p.foldl joinChild x.path, decide (p = []))) ++ Lr) (k ++ p, q ++ p) (by simp)
      ⟨hk.below v1 v2, hne, W.walked_leads hf hq hp⟩ hsp ?_
    intro y hy hm
    rcases List.mem_append.mp hy with hy | hy
    · exact before A Ld hd (fun x hx => by simp [hx]) _ hA y hy hm
    · obtain ⟨p', hp', rfl⟩ := List.mem_map.mp hy
      obtain ⟨hh, _⟩ := (hord p').mp (by simp [hp'])
      obtain ⟨w1, w2⟩ := W.below_names hh
      obtain ⟨_, u', ⟨hu', _⟩, hpre, _⟩ := hm
      have e := StoredAs.unique hu' (hk.below w1 w2)
      rw [e] at hpre
      have hpp : p <+: p' := (List.prefix_append_right_inj k).mp hpre
      exact (List.pairwise_append.mp hpw).2.2 p' hp' p (by simp) hpp
  · rintro A x B k q z rfl hx0 ⟨hk, hq, _⟩ hz hA
    rw [existing_split ⟨hx0, q, hq⟩, List.map_append, List.map_cons] at hw
    obtain ⟨Ld, q', order, Lr, hd, rfl, hf, hq', hhead, hpw, hord⟩ := WalkedEach.part _ hw
    simp only at hf hq' hord
    rw [hq] at hq'; cases hq'
    cases order with
    | nil => cases hhead
    | cons p order =>
      simp only [List.head?_cons, Option.some.injEq] at hhead
      subst hhead
      refine h.above Ld (x.path, true) _ (k, q) z rfl ⟨hk, ?_, hq⟩ hz (before A Ld hd (fun x hx => by simp [hx]) z hA)
      rintro e
      simp only at e
      rw [e] at hz
      exact hz.1 (List.prefix_nil.mp hz.2.2)

/-- **C80, exactly.** If no call raises, the whole content of the archive: at each path there is what the first call stands for that makes an
entry there. -/
theorem C80_exact (Q : Quiet env s) (W : s.WF) {adds : List PyAdd} (hF : ∀ x ∈ adds, x.Fair env s) (exc : Bool)
    (hok : ∀ r ∈ (PyCreator.new.run env (pyWith adds exc true)).1, r = .ok) :
    ∃ a rs m, (PyCreator.new.run env (pyWith adds exc true)).2.written = [a] ∧ Creator.new.run rs = some a.creator ∧
      SpecRun PathMap.empty rs m ∧ FirstAdd s env.cwd (packBytes a.contents) adds m := by
  rw [pyWith_run] at hok ⊢
  have hres : ∀ r ∈ (addsOf env Adder.new false (addCalls adds)).1, r = .ok := fun r hr => hok r (by simp [hr])
  have hkept := addsOf_kept (env := env) (xs := addCalls adds) fun hp => nomatch hres _ hp
  obtain ⟨L, hL, hadd⟩ := addsOf_walked_ok W adds hF Adder.new hres
  obtain ⟨rs, m, h1, h2, h3⟩ := Adder.addAll_exact Q W L [] (rs := []) (m := PathMap.empty) rfl (.nil _) FirstPath.empty hadd
  have hall := ((Adder.addAll_iff Q W (pre := []) L).mp (by rw [hadd])).1
  refine ⟨(addsOf env Adder.new false (addCalls adds)).2.1, rs, m, ?_, h1, h2, h3.toAdd W hL hall⟩
  simp [hkept]

theorem first_call {P : PyAdd → Prop} {adds : List PyAdd} (h : ∃ x ∈ adds, P x) : ∃ A x B, adds = A ++ x :: B ∧ P x ∧ ∀ y ∈ A, ¬ P y :=
  first_such h

theorem FirstAdd.same (W : s.WF) {cwd : List Bytes} {bytes bytes' : ContentAddr → GetBytes} {adds : List PyAdd} {m m' : PathMap}
    (h : FirstAdd s cwd bytes adds m) (h' : FirstAdd s cwd bytes' adds m') : SameMap bytes bytes' m m' := by
  intro z
  by_cases hz : ∃ x ∈ adds, x.Makes s cwd z
  · obtain ⟨A, f, B, rfl, ⟨hne, u, ⟨hf0, k, q, p, hin, hp, hrc, rfl, hu⟩, hpre, hsp⟩, hA⟩ := first_call hz
    simp only at hpre hsp
    by_cases hk : k <+: z
    · obtain ⟨p0, rfl⟩ := hk
      have hpp : p0 <+: p := (List.prefix_append_right_inj k).mp hpre
      have h0 : s.Has q p0 ∧ ¬ s.Special (q ++ p0) := by
        by_cases e : p0 = p
        · rw [e]; exact ⟨hp, hsp (by rw [e])⟩
        · obtain ⟨y, hy⟩ := Option.ne_none_iff_exists'.mp hp
          obtain ⟨t, ht⟩ := W.dirsTo hy (q ++ p0) ((List.prefix_append_right_inj q).mpr hpp) (by simpa using e)
          refine ⟨by rw [Src.Has, ht]; simp, ?_⟩
          rintro ⟨i, hi, _⟩
          rw [ht] at hi; cases hi
      have hrc0 : p0 = [] ∨ f.recursive = true := by
        rcases hrc with rfl | hrc
        · exact Or.inl (List.prefix_nil.mp hpp)
        · exact Or.inr hrc
      have hu0 : f.Offers s cwd (k ++ p0, q ++ p0) := ⟨hf0, k, q, p0, hin, h0.1, hrc0, rfl, hne⟩
      exact (h.entry A f B _ rfl hu0 h0.2 hA).same (h'.entry A f B _ rfl hu0 h0.2 hA)
    · have hzk : z <+: k := by
        rcases List.prefix_or_prefix_of_prefix hpre (List.prefix_append k p) with h | h
        · exact h
        · exact absurd h hk
      have hpa : ProperAncestor z k := ⟨hne, fun e => hk (e ▸ List.prefix_rfl), hzk⟩
      exact Or.inr ⟨_, _, h.above A f B k q z rfl hf0 hin hpa hA, h'.above A f B k q z rfl hf0 hin hpa hA, rfl, trivial⟩
  · have hn : ∀ x ∈ adds, ¬ x.Makes s cwd z := fun x hx hm => hz ⟨x, hx, hm⟩
    exact Or.inl ⟨h.nothing z hn, h'.nothing z hn⟩

theorem PyAdd.offers_congr {cwd : List Bytes} {x y : PyAdd} (h : (x.path, x.recursive) = (y.path, y.recursive)) (u : List Bytes × List Bytes) :
    x.Offers s cwd u ↔ y.Offers s cwd u := by
  obtain ⟨h1, h2⟩ := Prod.mk.inj h
  unfold PyAdd.Offers
  rw [h1, h2]

theorem PyAdd.makes_congr {cwd : List Bytes} {x y : PyAdd} (h : (x.path, x.recursive) = (y.path, y.recursive)) (z : List Bytes) :
    x.Makes s cwd z ↔ y.Makes s cwd z := by
  unfold PyAdd.Makes
  simp only [PyAdd.offers_congr h]

theorem SameCalls.mem {adds adds' : List PyAdd} (h : SameCalls adds adds') {x : PyAdd} (hx : x ∈ adds) :
    ∃ y ∈ adds', (x.path, x.recursive) = (y.path, y.recursive) := by
  have : (x.path, x.recursive) ∈ adds.map (fun x => (x.path, x.recursive)) := List.mem_map_of_mem hx
  rw [h] at this
  obtain ⟨y, hy, e⟩ := List.mem_map.mp this
  exact ⟨y, hy, e.symm⟩

theorem SameCalls.symm {adds adds' : List PyAdd} (h : SameCalls adds adds') : SameCalls adds' adds := Eq.symm h

theorem SameCalls.split {adds A B : List PyAdd} {x : PyAdd} (h : SameCalls (A ++ x :: B) adds) :
    ∃ A' x' B', adds = A' ++ x' :: B' ∧ SameCalls A A' ∧ (x.path, x.recursive) = (x'.path, x'.recursive) := by
  unfold SameCalls at h
  rw [List.map_append, List.map_cons] at h
  obtain ⟨A', C, rfl, h1, h2⟩ := List.map_eq_append_iff.mp h.symm
  obtain ⟨x', B', rfl, h3, _⟩ := List.map_eq_cons_iff.mp h2
  exact ⟨A', x', B', rfl, h1.symm, h3.symm⟩

theorem FirstAdd.congr {cwd : List Bytes} {bytes : ContentAddr → GetBytes} {adds adds' : List PyAdd} {m : PathMap} (h : FirstAdd s cwd bytes adds m)
    (hs : SameCalls adds adds') : FirstAdd s cwd bytes adds' m := by
  have none : ∀ {A A' : List PyAdd}, SameCalls A A' → ∀ z, (∀ y ∈ A', ¬ y.Makes s cwd z) → ∀ y ∈ A, ¬ y.Makes s cwd z := by
    intro A A' hA z hz y hy hm
    obtain ⟨y', hy', e⟩ := hA.mem hy
    exact hz y' hy' ((PyAdd.makes_congr e z).mp hm)
  refine ⟨fun z hz => h.nothing z (none hs z hz), ?_, ?_⟩
  · rintro A x B u rfl hu hsp hA
    obtain ⟨A', x', B', rfl, h1, h2⟩ := hs.symm.split
    exact h.entry A' x' B' u rfl ((PyAdd.offers_congr h2 u).mp hu) hsp (none h1.symm _ hA)
  · rintro A x B k q z rfl hx hin hz hA
    obtain ⟨A', x', B', rfl, h1, h2⟩ := hs.symm.split
    have e := (Prod.mk.inj h2).1
    rw [e] at hx hin
    exact h.above A' x' B' k q z rfl hx hin hz (none h1.symm _ hA)

theorem FirstInput.toAdd {cwd : List Bytes} {bytes : ContentAddr → GetBytes} {rc : Bool} {roots : List Bytes} {m : PathMap}
    (h : FirstInput s cwd [] bytes rc roots m) (hne : ∀ f ∈ roots, f ≠ []) {adds : List PyAdd}
    (hs : adds.map (fun x => (x.path, x.recursive)) = roots.map (fun f => (f, rc))) : FirstAdd s cwd bytes adds m := by
  have key : ∀ {A : List PyAdd} {R : List Bytes}, A.map (fun x => (x.path, x.recursive)) = R.map (fun f => (f, rc)) → (∀ f ∈ R, f ≠ []) →
      ∀ z, (∀ y ∈ A, ¬ y.Makes s cwd z) → ∀ f ∈ R, ¬ TreeMakes s cwd [] rc f z := by
    rintro A R hA hR z hz f hf ⟨h1, u, hu, h2⟩
    have : (f, rc) ∈ R.map (fun f => (f, rc)) := List.mem_map_of_mem hf
    rw [← hA] at this
    obtain ⟨y, hy, e⟩ := List.mem_map.mp this
    obtain ⟨rfl, rfl⟩ := Prod.mk.inj e
    exact hz y hy ⟨h1, u, ⟨hR _ hf, hu⟩, h2⟩
  have part : ∀ {A B : List PyAdd} {x : PyAdd}, adds = A ++ x :: B → ∃ R R', roots = R ++ x.path :: R' ∧ x.recursive = rc ∧
      A.map (fun x => (x.path, x.recursive)) = R.map (fun f => (f, rc)) := by
    rintro A B x rfl
    rw [List.map_append, List.map_cons] at hs
    obtain ⟨R, C, rfl, h1, h2⟩ := List.map_eq_append_iff.mp hs.symm
    obtain ⟨f, R', rfl, h3, _⟩ := List.map_eq_cons_iff.mp h2
    obtain ⟨e1, e2⟩ := Prod.mk.inj h3
    exact ⟨R, R', by rw [e1], e2.symm, h1.symm⟩
  refine ⟨fun z hz => h.nothing z (key hs hne z hz), ?_, ?_⟩
  · rintro A x B u e hu hsp hA
    obtain ⟨R, R', rfl, h1, h2⟩ := part e
    exact h.entry R x.path R' u rfl (h1 ▸ hu.2) hsp (key h2 (fun f hf => hne f (by simp [hf])) _ hA)
  · rintro A x B k q z e hx hin hz hA
    obtain ⟨R, R', rfl, h1, h2⟩ := part e
    exact h.above R x.path R' k q z rfl hin hz (key h2 (fun f hf => hne f (by simp [hf])) _ hA)

/-- **C93, twice.** The same Python program run twice in the same directory on a source that does not change, with no exception: the two
archives are the same but for the numbers of contents, and are listed alike, whatever the order in which directories are listed, the
interleaving of the threads and the numbering of the entries. -/
theorem C93_python {env env' : CEnv} (Q : Quiet env s) (Q' : Quiet env' s) (hcwd : env'.cwd = env.cwd) (W : s.WF) {adds adds' : List PyAdd}
    (hs : SameCalls adds adds') (hF : ∀ x ∈ adds, x.Fair env s) (hF' : ∀ x ∈ adds', x.Fair env' s) (exc exc' : Bool)
    (hok : ∀ r ∈ (PyCreator.new.run env (pyWith adds exc true)).1, r = .ok)
    (hok' : ∀ r ∈ (PyCreator.new.run env' (pyWith adds' exc' true)).1, r = .ok)
    {a a' : Adder} (ha : (PyCreator.new.run env (pyWith adds exc true)).2.written = [a])
    (ha' : (PyCreator.new.run env' (pyWith adds' exc' true)).2.written = [a'])
    {order order' : List Nat} (ho : IsLayout a.creator order) (ho' : IsLayout a'.creator order')
    (hlen : a.creator.store.length < 2 ^ 32) (hlen' : a'.creator.store.length < 2 ^ 32)
    {depth depth' : Nat} (hd : a.creator.store.length < depth) (hd' : a'.creator.store.length < depth') :
    SameArchive (writeArchive a.creator order) (writeArchive a'.creator order') (packBytes a.contents) (packBytes a'.contents) ∧
      listCmd (writeArchive a.creator order) none depth = listCmd (writeArchive a'.creator order') none depth' ∧
      listCmd (writeArchive a.creator order) (some 1) depth = listCmd (writeArchive a'.creator order') (some 1) depth' := by
  obtain ⟨b, rs, m, w, h1, h2, h3⟩ := C80_exact Q W hF exc hok
  obtain ⟨b', rs', m', w', g1, g2, g3⟩ := C80_exact Q' W hF' exc' hok'
  rw [ha] at w; cases w
  rw [ha'] at w'; cases w'
  rw [hcwd] at g3
  obtain ⟨l, _, _, t, _⟩ := addsOf_all_ok Q W hF exc hok ha
  obtain ⟨l', _, _, t', _⟩ := addsOf_all_ok Q' W hF' exc' hok' ha'
  exact ((h3.congr hs).same W g3).shown t t' h1 g1 h2 g2 ho ho' hlen hlen' hd hd'

/-- **C93, twice, when.** Whether the program is without exception does not depend on listing order or interleaving. -/
theorem C93_python_ok {env env' : CEnv} (Q : Quiet env s) (Q' : Quiet env' s) (hcwd : env'.cwd = env.cwd) (W : s.WF) {adds adds' : List PyAdd}
    (hs : SameCalls adds adds') (hF : ∀ x ∈ adds, x.Fair env s) (hF' : ∀ x ∈ adds', x.Fair env' s) (exc exc' : Bool) :
    (∀ r ∈ (PyCreator.new.run env (pyWith adds exc true)).1, r = .ok) ↔ ∀ r ∈ (PyCreator.new.run env' (pyWith adds' exc' true)).1, r = .ok := by
  rw [C80_success_partial Q W hF, C80_success_partial Q' W hF', hcwd]
  have one : ∀ {A B : List PyAdd}, SameCalls A B → (∀ x ∈ A, x.Exists s env.cwd → ArchivableTree s env.cwd [] x.recursive x.path) →
      ∀ x ∈ B, x.Exists s env.cwd → ArchivableTree s env.cwd [] x.recursive x.path := by
    intro A B hAB h x hx he
    obtain ⟨y, hy, e⟩ := hAB.symm.mem hx
    obtain ⟨e1, e2⟩ := Prod.mk.inj e
    unfold PyAdd.Exists at he
    rw [e1] at he
    rw [e1, e2]
    exact h y hy he
  have pw : ∀ {A : List PyAdd}, A.Pairwise (fun x y => ∀ u v, x.Offers s env.cwd u → y.Offers s env.cwd v → ¬ Clash s u v ∧ ¬ Clash s v u) ↔
      (A.map (fun x => (x.path, x.recursive))).Pairwise (fun f g => ∀ u v, (f.1 ≠ [] ∧ OffersTree s env.cwd [] f.2 f.1 u) →
        (g.1 ≠ [] ∧ OffersTree s env.cwd [] g.2 g.1 v) → ¬ Clash s u v ∧ ¬ Clash s v u) := by
    intro A
    rw [List.pairwise_map]
    exact Iff.rfl
  rw [pw, pw, show adds.map (fun x => (x.path, x.recursive)) = adds'.map (fun x => (x.path, x.recursive)) from hs]
  exact and_congr_left fun _ => ⟨one hs, one hs.symm⟩

/-- **C93, arx create.** A Python program that adds the input files of an `arx create` command one after the other, without exception,
makes the same archive as the command (run in the same directory, without `--strip-prefix`). -/
theorem C93_create {o : CreateOpts} {sys : CreateSys} {env : CEnv} {N : List Bytes} (hfl : o.fileList = none) (hpre : o.stripPrefix = none)
    (W : s.WF) (hcwd : StartsIn o sys env.cwd) (Q : Quiet (sys.cenv env.cwd) s) (hcheck : sys.atCheck = s)
    (hw : ∀ i, (sys.walks i).src = s ∧ FullListing s (sys.walks i).ls ∧ ∀ q, s.fs.nodes q ≠ none → q.length ≤ (sys.walks i).depth)
    {a : Adder} (h : CreateEv.written N a ∈ (o.run sys).1)
    (Q' : Quiet env s) {adds : List PyAdd} (hs : adds.map (fun x => (x.path, x.recursive)) = o.infiles.map (fun f => (f, o.recursion)))
    (hF : ∀ x ∈ adds, x.Fair env s) (exc : Bool) (hok : ∀ r ∈ (PyCreator.new.run env (pyWith adds exc true)).1, r = .ok)
    {a' : Adder} (ha' : (PyCreator.new.run env (pyWith adds exc true)).2.written = [a'])
    {order order' : List Nat} (ho : IsLayout a.creator order) (ho' : IsLayout a'.creator order')
    (hlen : a.creator.store.length < 2 ^ 32) (hlen' : a'.creator.store.length < 2 ^ 32)
    {depth depth' : Nat} (hd : a.creator.store.length < depth) (hd' : a'.creator.store.length < depth') :
    SameArchive (writeArchive a.creator order) (writeArchive a'.creator order') (packBytes a.contents) (packBytes a'.contents) ∧
      listCmd (writeArchive a.creator order) none depth = listCmd (writeArchive a'.creator order') none depth' ∧
      listCmd (writeArchive a.creator order) (some 1) depth = listCmd (writeArchive a'.creator order') (some 1) depth' := by
  obtain ⟨rs, m, h1, h2, h3⟩ := CreateOpts.inputs_exact hfl hcwd Q W hcheck hw h
  obtain ⟨hpres, _⟩ := CreateOpts.inputs_added hfl hcwd hcheck h
  obtain ⟨b', rs', m', w', g1, g2, g3⟩ := C80_exact Q' W hF exc hok
  rw [ha'] at w'; cases w'
  rw [hpre] at h3
  obtain ⟨l, t⟩ := CreateOpts.tried hcwd h
  obtain ⟨l', _, _, t', _⟩ := addsOf_all_ok Q' W hF exc hok ha'
  exact ((h3.toAdd (fun f hf => (hpres f hf).1) hs).same W g3).shown t t' h1 g1 h2 g2 ho ho' hlen hlen' hd hd'

/-- **C93, arx create, when.** The command succeeds exactly if its output can be written, every input exists, and the program is without exception. -/
theorem C93_create_ok {o : CreateOpts} {sys : CreateSys} {env : CEnv} (hl : o.listCompressions = false) (hfl : o.fileList = none)
    (hpre : o.stripPrefix = none) (W : s.WF) (hcwd : StartsIn o sys env.cwd) (Q : ∀ cwd, Quiet (sys.cenv cwd) s) (hcheck : sys.atCheck = s)
    (hw : ∀ i, (sys.walks i).src = s ∧ FullListing s (sys.walks i).ls ∧ ∀ q, s.fs.nodes q ≠ none → q.length ≤ (sys.walks i).depth)
    (hret : Returns o sys s env.cwd)
    (Q' : Quiet env s) {adds : List PyAdd} (hs : adds.map (fun x => (x.path, x.recursive)) = o.infiles.map (fun f => (f, o.recursion)))
    (hF : ∀ x ∈ adds, x.Fair env s) (exc : Bool) :
    (o.run sys).2 = .ok ↔ OutputFree o sys ∧ sys.openOk = true ∧ sys.writeOk = true ∧
      (∀ f ∈ o.infiles, f ≠ [] ∧ Present s (namesOf env.cwd f)) ∧ ∀ r ∈ (PyCreator.new.run env (pyWith adds exc true)).1, r = .ok := by
  have hst : ∀ cwd, StartsIn o sys cwd → cwd = env.cwd := by
    intro cwd h
    have e1 := StartsIn.iff.mp h
    have e2 := StartsIn.iff.mp hcwd
    rw [e1] at e2; cases e2; rfl
  rw [C77_inputs hl hfl Q W hcheck hw (fun cwd h => by rw [hst cwd h]; exact hret), C80_success_partial Q' W hF, hpre]
  refine and_congr_right fun _ => and_congr_right fun _ => and_congr_right fun _ => ?_
  have mem1 : ∀ {f}, f ∈ o.infiles → ∃ x ∈ adds, x.path = f ∧ x.recursive = o.recursion := by
    intro f hf
    have : (f, o.recursion) ∈ o.infiles.map (fun f => (f, o.recursion)) := List.mem_map_of_mem hf
    rw [← hs] at this
    obtain ⟨x, hx, e⟩ := List.mem_map.mp this
    exact ⟨x, hx, (Prod.mk.inj e).1, (Prod.mk.inj e).2⟩
  have mem2 : ∀ {x}, x ∈ adds → x.path ∈ o.infiles ∧ x.recursive = o.recursion := by
    intro x hx
    have : (x.path, x.recursive) ∈ adds.map (fun x => (x.path, x.recursive)) := List.mem_map_of_mem hx
    rw [hs] at this
    obtain ⟨f, hf, e⟩ := List.mem_map.mp this
    obtain ⟨rfl, e2⟩ := Prod.mk.inj e
    exact ⟨hf, e2.symm⟩
  have pw : (∀ f ∈ o.infiles, f ≠ []) → (o.infiles.Pairwise (fun f g => ∀ u v, OffersTree s env.cwd [] o.recursion f u →
        OffersTree s env.cwd [] o.recursion g v → ¬ Clash s u v ∧ ¬ Clash s v u) ↔
      adds.Pairwise (fun x y => ∀ u v, x.Offers s env.cwd u → y.Offers s env.cwd v → ¬ Clash s u v ∧ ¬ Clash s v u)) := by
    intro hne
    have e1 : adds.Pairwise (fun x y => ∀ u v, x.Offers s env.cwd u → y.Offers s env.cwd v → ¬ Clash s u v ∧ ¬ Clash s v u) ↔
        (adds.map (fun x => (x.path, x.recursive))).Pairwise (fun f g => ∀ u v, (f.1 ≠ [] ∧ OffersTree s env.cwd [] f.2 f.1 u) →
          (g.1 ≠ [] ∧ OffersTree s env.cwd [] g.2 g.1 v) → ¬ Clash s u v ∧ ¬ Clash s v u) := by
      rw [List.pairwise_map]; exact Iff.rfl
    rw [e1, hs, List.pairwise_map]
    constructor
    · exact fun h => h.imp fun h u v hu hv => h u v hu.2 hv.2
    · intro h
      refine List.Pairwise.imp_of_mem ?_ h
      exact fun hx hy h u v hu hv => h u v ⟨hne _ hx, hu⟩ ⟨hne _ hy, hv⟩
  constructor
  · rintro ⟨cwd, h1, h2, h3⟩
    have e := hst cwd h1
    subst e
    have hp : ∀ f ∈ o.infiles, f ≠ [] ∧ Present s (namesOf env.cwd f) := by
      intro f hf
      obtain ⟨k, q, i, _⟩ := (h2 f hf).stored
      exact ⟨(h2 f hf).notEmpty, q, i.2.1⟩
    refine ⟨hp, fun x hx _ => ?_, (pw fun f hf => (hp f hf).1).mp h3⟩
    obtain ⟨m1, m2⟩ := mem2 hx
    rw [m2]; exact h2 _ m1
  · rintro ⟨hp, h2, h3⟩
    refine ⟨env.cwd, hcwd, fun f hf => ?_, (pw fun f hf => (hp f hf).1).mpr h3⟩
    obtain ⟨x, hx, rfl, e⟩ := mem1 hf
    rw [← e]
    exact h2 x hx (hp _ hf)

/-! ## Examples -/

/-- the same call, with directories listed backwards -/
def pyAddBack (path : String) (recursive : Bool) : PyAdd :=
  ⟨ascii path, recursive, exSrc, fun d => (exLs d).reverse, 5, List.replicate 20 true ++ List.replicate 20 false⟩

theorem pyAddBack_fair {path : String} {rc : Bool} (h : (walkItems [] exSrc (fun d => (exLs d).reverse) 5 (ascii path) rc).length < 20) :
    (pyAddBack path rc).Fair exEnv exSrc := by
  refine ⟨rfl, exLs_full.reverse, fun q hq => ?_, fun a => Chan.returns (n := 20) h⟩
  have := exSrc_paths hq
  simp only [List.mem_cons, List.not_mem_nil, or_false] at this
  rcases this with e | e | e | e | e | e <;> rw [e] <;> simp [pyAddBack]

/-- `with Creator("x.arx") as c: c.add("d")`, twice -/
def pyOnce : Adder := (PyCreator.new.run exEnv (pyWith [pyAdd "d" true] false true)).2.written.headD Adder.new
def pyTwice : Adder := (PyCreator.new.run exEnv (pyWith [pyAddBack "d" true] false true)).2.written.headD Adder.new

theorem pyWith_one {env : CEnv} {x : PyAdd} (h : PyRes.panic ∉ (addsOf env Adder.new false (addCalls [x])).1) :
    (PyCreator.new.run env (pyWith [x] false true)).2.written = [(PyCreator.new.run env (pyWith [x] false true)).2.written.headD Adder.new] := by
  rw [pyWith_run]
  simp only [addsOf_kept h, Bool.false_eq_true, if_false, List.headD_cons]

theorem pyOnce_written : (PyCreator.new.run exEnv (pyWith [pyAdd "d" true] false true)).2.written = [pyOnce] := pyWith_one (by decide +kernel)
theorem pyTwice_written : (PyCreator.new.run exEnv (pyWith [pyAddBack "d" true] false true)).2.written = [pyTwice] := pyWith_one (by decide +kernel)

theorem pyOnce_fair : ∀ x ∈ [pyAdd "d" true], x.Fair exEnv exSrc := by
  intro x hx
  simp only [List.mem_singleton] at hx
  subst hx
  exact pyAdd_fair (by decide +kernel)

theorem pyTwice_fair : ∀ x ∈ [pyAddBack "d" true], x.Fair exEnv exSrc := by
  intro x hx
  simp only [List.mem_singleton] at hx
  subst hx
  exact pyAddBack_fair (by decide +kernel)

theorem pyOnce_ok : ∀ r ∈ (PyCreator.new.run exEnv (pyWith [pyAdd "d" true] false true)).1, r = .ok := by decide +kernel
theorem pyTwice_ok : ∀ r ∈ (PyCreator.new.run exEnv (pyWith [pyAddBack "d" true] false true)).1, r = .ok := by decide +kernel

/-- the two runs add the entries in different orders -/
example : pyOnce.creator.store.map (fun e => e.name) = [ascii "d", ascii "s", ascii "l", ascii "f"] ∧
    pyTwice.creator.store.map (fun e => e.name) = [ascii "d", ascii "f", ascii "s", ascii "l"] := by decide +kernel

/-- the hypotheses of `C93_python` are met -/
example : SameArchive (writeArchive pyOnce.creator tripOrder) (writeArchive pyTwice.creator backOrder) (packBytes pyOnce.contents)
    (packBytes pyTwice.contents) :=
  (C93_python (adds := [pyAdd "d" true]) (adds' := [pyAddBack "d" true]) exEnv_quiet exEnv_quiet rfl exSrc_wf rfl pyOnce_fair pyTwice_fair false false pyOnce_ok pyTwice_ok pyOnce_written pyTwice_written
    ⟨by decide +kernel, by decide +kernel⟩ ⟨by decide +kernel, by decide +kernel⟩ (by decide +kernel) (by decide +kernel)
    (depth := 5) (depth' := 5) (by decide +kernel) (by decide +kernel)).1

/-- the hypotheses of `C93_create` are met -/
example : SameArchive (writeArchive tripAdder.creator tripOrder) (writeArchive pyTwice.creator backOrder) (packBytes tripAdder.contents)
    (packBytes pyTwice.contents) := by
  obtain ⟨N, hN⟩ := tripAdder_written
  exact (C93_create (o := exCreate) (sys := exSys) (env := exEnv) (s := exSrc) rfl rfl exSrc_wf rfl exEnv_quiet rfl exSys_walks hN
    exEnv_quiet rfl pyTwice_fair false pyTwice_ok pyTwice_written
    ⟨by decide +kernel, by decide +kernel⟩ ⟨by decide +kernel, by decide +kernel⟩ (by decide +kernel) (by decide +kernel)
    (depth := 5) (depth' := 5) (by decide +kernel) (by decide +kernel)).1

/-- With exceptions that are caught, what is archived depends on the order in which a directory is listed: `c.add("d/f")`, then `c.add("d")`,
which raises when it comes to `d/f`. -/
theorem C93_exception_counterexample :
    (PyCreator.new.run exEnv (pyWith [pyAdd "d/f" true, pyAdd "d" true] false true)).1 = [.ok, .ok, .raised, .ok] ∧
    (PyCreator.new.run exEnv (pyWith [pyAddBack "d/f" true, pyAddBack "d" true] false true)).1 = [.ok, .ok, .raised, .ok] ∧
    (PyCreator.new.run exEnv (pyWith [pyAdd "d/f" true, pyAdd "d" true] false true)).2.written.map (fun a => a.creator.store.map (·.name)) =
      [[ascii "d", ascii "f", ascii "s", ascii "l"]] ∧
    (PyCreator.new.run exEnv (pyWith [pyAddBack "d/f" true, pyAddBack "d" true] false true)).2.written.map (fun a => a.creator.store.map (·.name)) =
      [[ascii "d", ascii "f"]] := by
  refine ⟨by decide +kernel, by decide +kernel, by decide +kernel, by decide +kernel⟩

end Arx
