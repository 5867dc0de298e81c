import Verif.Spec.PyCreate
import Verif.Props.CreateCrash
import Verif.Props.TripMount
import Verif.Props.Python
import Verif.Props.TripConv
/-!
# C80: what a Python program archives
-/
namespace Arx
variable {env : CEnv} {s : Src}

/-- On a source that does not change, an attempt looks at what its path leads to. -/
theorem Looked.stat (Q : Quiet env s) (W : s.WF) {x : Attempted} {p q : List Bytes} {st : Stat} (h : Looked env x p st)
    (hq : s.fs.resolve x.follow (namesOf env.cwd x.path) = .ok (.found q)) :
    s.statAt q = .ok st ∧ s.fs.resolve false p = .ok (.found q) := by
  have ls : ∀ {p}, s.lstat p = .ok st → ∃ q0, s.fs.resolve false p = .ok (.found q0) ∧ s.statAt q0 = .ok st := by
    intro p h
    unfold Src.lstat at h
    cases hr : s.fs.resolve false p with
    | error e => rw [hr] at h; cases h
    | ok loc =>
      rw [hr] at h
      cases loc with
      | missing u v => cases h
      | found q0 => exact ⟨q0, rfl, h⟩
  rcases h with ⟨rfl, h1, h2⟩ | ⟨hf, st0, h1, h2, h3, h4⟩
  · rw [Q.call] at h1
    obtain ⟨q0, g1, g2⟩ := ls h1
    cases hf : x.follow with
    | false =>
      rw [hf, g1] at hq; cases hq
      exact ⟨g2, g1⟩
    | true =>
      have : ∀ t u, s.fs.nodes q0 ≠ some (.link t u) := by
        intro t u e
        simp only [Src.statAt, e, Except.ok.injEq] at g2
        exact h2 ⟨by rw [← g2], hf⟩
      rw [hf, FS.resolve_follow this g1] at hq; cases hq
      exact ⟨g2, g1⟩
  · rw [Q.call] at h3 h4
    unfold Src.canonicalize at h3
    rw [hf] at hq
    rw [hq] at h3
    cases h3
    obtain ⟨y, hy, _⟩ := W.toWF.resolve_found hq
    obtain ⟨q0, g1, g2⟩ := ls h4
    rw [W.resolve_self hy] at g1; cases g1
    exact ⟨g2, W.resolve_self hy⟩

/-- On a source that does not change, what an attempt saw is what its path leads to. -/
theorem Saw.archived (Q : Quiet env s) (W : s.WF) {bytes : ContentAddr → GetBytes} {x : Attempted} {n : Node} {q : List Bytes}
    (h : Saw env bytes x n) (hq : s.fs.resolve x.follow (namesOf env.cwd x.path) = .ok (.found q)) :
    Archived s bytes q (some n) ∧ ¬ s.Special q := by
  obtain ⟨p, st, h1, h2, h3⟩ := h
  obtain ⟨g1, g2⟩ := h1.stat Q W hq
  obtain ⟨info, kind⟩ := n
  simp only at h2 h3
  unfold Archived
  unfold Src.statAt at g1
  unfold Src.Special
  cases hn : s.fs.nodes q with
  | none => rw [hn] at g1; cases g1
  | some y =>
    rw [hn] at g1
    cases y with
    | dir t =>
      simp only [Except.ok.injEq] at g1
      subst g1
      cases kind with
      | dir => exact ⟨by rw [h2]; rfl, by simp⟩
      | file a b => exact absurd h3.1 (by simp)
      | link a => exact absurd h3.1 (by simp)
    | link tg t =>
      simp only [Except.ok.injEq] at g1
      subst g1
      cases kind with
      | dir => cases h3
      | file a b => exact absurd h3.1 (by simp)
      | link a =>
        obtain ⟨_, h4⟩ := h3
        rw [Q.call] at h4
        simp only [Src.readLink, g2, hn, Except.ok.injEq] at h4
        subst h4
        exact ⟨by rw [h2]; rfl, by simp⟩
    | file i =>
      simp only [Except.ok.injEq] at g1
      cases hs : s.special i with
      | true =>
        simp only [hs, if_true] at g1
        subst g1
        cases kind with
        | dir => cases h3
        | file a b => exact absurd h3.1 (by simp)
        | link a => exact absurd h3.1 (by simp)
      | false =>
        simp only [hs, Bool.false_eq_true, if_false] at g1
        subst g1
        cases kind with
        | dir => cases h3
        | link a => exact absurd h3.1 (by simp)
        | file size c =>
          obtain ⟨h3, b, h4, h5⟩ := h3
          rw [Q.call] at h4
          have hr : s.fs.resolve true p = .ok (.found q) := FS.resolve_follow (by rw [hn]; intro t u e; cases e) g2
          simp only [Src.readFile, hr, hn, hs, Bool.false_eq_true, if_false, Except.ok.injEq] at h4
          simp only [SKind.file.injEq] at h3
          subst h4 h3
          simp only [hs, Bool.false_eq_true, if_false]
          exact ⟨⟨c, by rw [h2]; rfl, h5⟩, by rintro ⟨j, e, e'⟩; cases e; rw [hs] at e'; cases e'⟩

theorem walkItems_missing {cwd : List Bytes} {ls : ReadDir} {depth : Nat} {root : Bytes} {rc : Bool} (W : s.WF)
    (h : root = [] ∨ ¬ Present s (namesOf cwd root)) : walkItems cwd s ls depth root rc = [.error ()] := by
  unfold walkItems
  by_cases h0 : root = []
  · rw [if_pos h0]
  · rw [if_neg h0]
    rcases h with h | h
    · exact absurd h h0
    · cases hr : s.fs.resolve false (namesOf cwd root) with
      | error e => rfl
      | ok loc =>
        cases loc with
        | missing u v => rfl
        | found q =>
          have hlink : ∃ t u, s.fs.nodes q = some (.link t u) := by
            refine Classical.byContradiction fun hno => h ⟨q, FS.resolve_follow (fun t u e => hno ⟨t, u, e⟩) hr⟩
          obtain ⟨t, u, hl⟩ := hlink
          simp only [hl]
          cases hr2 : s.fs.resolve true (namesOf cwd root) with
          | error e => rfl
          | ok loc =>
            cases loc with
            | missing u v => rfl
            | found q => exact absurd ⟨q, hr2⟩ h

/-- Adding what does not exist does nothing. -/
theorem PyAdd.Fair.missing {x : PyAdd} (F : x.Fair env s) (W : s.WF) (h : ¬ x.Exists s env.cwd) (a : Adder) :
    addFromPath env [] a x.path x.recursive x.walk = (a, .ok) := by
  have hm : x.path = [] ∨ ¬ Present s (namesOf env.cwd x.path) := by
    by_cases e : x.path = []
    · exact Or.inl e
    · exact Or.inr fun hp => h ⟨e, hp⟩
  obtain ⟨e, he⟩ := Option.ne_none_iff_exists'.mp (F.returns a)
  have h1 := Chan.run_result he
  rw [walkItems_missing W hm] at h1 he
  simp only [addFromPath, F.src, walkItems_missing W hm, he, Option.getD_some]
  rw [← h1]; rfl

/-- Adding what exists adds the paths of its walk. -/
theorem PyAdd.Fair.walk {x : PyAdd} (F : x.Fair env s) (W : s.WF) (h : x.Exists s env.cwd) :
    ∃ (q : List Bytes) (order : List (List Bytes)), x.path ≠ [] ∧ s.fs.resolve true (namesOf env.cwd x.path) = .ok (.found q) ∧ order.head? = some [] ∧ order.Pairwise (fun a b => ¬ b <+: a) ∧
      (∀ p, p ∈ order ↔ s.Has q p ∧ (p = [] ∨ x.recursive = true)) ∧
      ∀ a : Adder, addFromPath env [] a x.path x.recursive x.walk =
        a.addAll env [] (order.map (fun p => (p.foldl joinChild x.path, decide (p = [])))) := by
  obtain ⟨h0, q, hq⟩ := h
  have hdepth : ∀ p, s.fs.nodes (q ++ p) ≠ none → p.length ≤ x.walk.depth := by
    intro p hp
    have := F.depth _ hp
    simp only [List.length_append] at this; omega
  obtain ⟨order, h1, h2, h3, h4⟩ := addFromPath_walk (env := env) (pre := []) (rc := x.recursive) W F.src F.listing hdepth h0 hq F.returns
  exact ⟨q, order, h0, hq, h1, h2, h3, h4⟩

/-- how `add` ends -/
def AOut.toPy : AOut → PyRes
  | .ok => .ok
  | .panic => .panic
  | _ => .raised

theorem addsOf_add (a : Adder) (x : PyAdd) (xs : List PyCall) :
    addsOf env a false (.add x.path x.recursive x.walk :: xs) =
      let y := addFromPath env [] a x.path x.recursive x.walk
      let r := addsOf env y.1 (y.2 == .panic && crashPoisons x.path) xs
      (y.2.toPy :: r.1, r.2) := by
  rw [addsOf]
  simp only [Bool.false_eq_true, if_false, Bool.false_or]
  cases (addFromPath env [] a x.path x.recursive x.walk).2 <;> rfl

theorem addsOf_add_ne {a : Adder} {x : PyAdd} (h : (addFromPath env [] a x.path x.recursive x.walk).2 ≠ .panic) (xs : List PyCall) :
    addsOf env a false (.add x.path x.recursive x.walk :: xs) =
      (((addFromPath env [] a x.path x.recursive x.walk).2.toPy :: (addsOf env (addFromPath env [] a x.path x.recursive x.walk).1 false xs).1),
        (addsOf env (addFromPath env [] a x.path x.recursive x.walk).1 false xs).2) := by
  have : ((addFromPath env [] a x.path x.recursive x.walk).2 == AOut.panic) = false := by simpa using h
  rw [addsOf_add]
  simp [this]

/-- The calls of `add`. -/
def addCalls (adds : List PyAdd) : List PyCall := adds.map (fun x => .add x.path x.recursive x.walk)

/-- How the calls end. -/
def endedOf (env : CEnv) (a : Adder) (adds : List PyAdd) : List (PyAdd × PyRes) := adds.zip (addsOf env a false (addCalls adds)).1

/-- `x` stands for the entry `p` below what the path of `y` leads to, `q`. -/
def StandsFor (s : Src) (cwd : List Bytes) (y : PyAdd) (q p : List Bytes) : Prop :=
  y.path ≠ [] ∧ s.fs.resolve true (namesOf cwd y.path) = .ok (.found q) ∧ s.Has q p ∧ (p = [] ∨ y.recursive = true)

theorem addsOf_tried (W : s.WF) : ∀ (adds : List PyAdd) {l : List Attempted} {a : Adder}, Adder.Tried env l a →
    (∀ x ∈ adds, x.Fair env s) → (∀ r ∈ (addsOf env a false (addCalls adds)).1, r ≠ .panic) →
    ∃ l', Adder.Tried env (l ++ l') (addsOf env a false (addCalls adds)).2.1 ∧
      (∀ x ∈ l', x.pre = [] ∧ ∃ y ∈ endedOf env a adds, ∃ q p, StandsFor s env.cwd y.1 q p ∧ x.path = p.foldl joinChild y.1.path ∧
        x.follow = decide (p = [])) ∧
      (∀ y, (y, PyRes.ok) ∈ endedOf env a adds → ∀ q p, StandsFor s env.cwd y q p →
        ∃ x ∈ l', x.out = .ok ∧ x.path = p.foldl joinChild y.path ∧ x.follow = decide (p = [])) := by
  intro adds
  induction adds with
  | nil => intro l a h _ _; exact ⟨[], by simpa [addCalls, addsOf] using h, by simp, by simp [endedOf, addCalls]⟩
  | cons y adds ih =>
    intro l a h hF hnp
    have hc : addCalls (y :: adds) = .add y.path y.recursive y.walk :: addCalls adds := rfl
    unfold endedOf
    rw [hc] at hnp ⊢
    have hpa : (addFromPath env [] a y.path y.recursive y.walk).2 ≠ .panic := by
      intro e
      rw [addsOf_add] at hnp
      simp only [List.mem_cons, forall_eq_or_imp, e] at hnp
      exact hnp.1 rfl
    rw [addsOf_add_ne hpa] at hnp ⊢
    simp only [List.mem_cons, forall_eq_or_imp] at hnp
    simp only [List.zip_cons_cons]
    have Fy := hF y (by simp)
    have hF' : ∀ x ∈ adds, x.Fair env s := fun x hx => hF x (by simp [hx])
    by_cases hex : y.Exists s env.cwd
    · obtain ⟨q, order, h0, hq, _, _, hord, hadd⟩ := Fy.walk W hex
      cases ha : addFromPath env [] a y.path y.recursive y.walk with
      | mk a1 o =>
        rw [ha] at hnp
        have ho : o ≠ .panic := by rintro rfl; exact hnp.1 rfl
        rw [hadd] at ha
        obtain ⟨l1, t1, A⟩ := h.addAll _ ha ho
        obtain ⟨l2, t2, b1, b2⟩ := ih t1 hF' hnp.2
        refine ⟨l1 ++ l2, by simpa [List.append_assoc] using t2, ?_, ?_⟩
        · intro x hx
          rcases List.mem_append.mp hx with hx | hx
          · refine ⟨A.pre x hx, (y, o.toPy), by simp, ?_⟩
            have : (x.path, x.follow) ∈ l1.map (fun x => (x.path, x.follow)) := List.mem_map_of_mem hx
            obtain ⟨p, hp, e⟩ := List.mem_map.mp (A.prefixOf.subset this)
            obtain ⟨e1, e2⟩ := Prod.mk.inj e
            obtain ⟨p1, p2⟩ := (hord p).mp hp
            exact ⟨q, p, ⟨h0, hq, p1, p2⟩, e1.symm, e2.symm⟩
          · obtain ⟨g1, z, g2, g3⟩ := b1 x hx
            exact ⟨g1, z, List.mem_cons_of_mem _ g2, g3⟩
        · intro z hz q' p hp
          rcases List.mem_cons.mp hz with e | hz
          · obtain ⟨rfl, e2⟩ := Prod.mk.inj e
            have : o = .ok := by cases o <;> first | rfl | cases e2
            subst this
            obtain ⟨A1, A2⟩ := A.ok rfl
            obtain ⟨_, p2, p3, p4⟩ := hp
            rw [hq] at p2; cases p2
            have hm := List.mem_map_of_mem (f := fun p : List Bytes => (p.foldl joinChild z.path, decide (p = []))) ((hord p).mpr ⟨p3, p4⟩)
            rw [← A1] at hm
            obtain ⟨x, hx, e⟩ := List.mem_map.mp hm
            obtain ⟨e1, e2⟩ := Prod.mk.inj e
            exact ⟨x, by simp [hx], A2 x hx, e1, e2⟩
          · obtain ⟨x, hx, g⟩ := b2 z hz q' p hp
            exact ⟨x, by simp [hx], g⟩
    · rw [Fy.missing W hex] at hnp ⊢
      obtain ⟨l2, t2, b1, b2⟩ := ih h hF' hnp.2
      refine ⟨l2, t2, ?_, ?_⟩
      · intro x hx
        obtain ⟨g1, z, g2, g3⟩ := b1 x hx
        exact ⟨g1, z, List.mem_cons_of_mem _ g2, g3⟩
      · intro z hz q' p hp
        rcases List.mem_cons.mp hz with e | hz
        · obtain ⟨rfl, _⟩ := Prod.mk.inj e
          exact absurd ⟨hp.1, q', hp.2.1⟩ hex
        · exact b2 z hz q' p hp

theorem storedAs_self (path : Bytes) : StoredAs path [] ((comps path).filter (· ≠ CUR)) := by
  unfold StoredAs
  rfl

/-- What the calls of `add` put into the archive. -/
theorem addsOf_holds (Q : Quiet env s) (W : s.WF) {adds : List PyAdd} (hF : ∀ x ∈ adds, x.Fair env s)
    (hnp : ∀ r ∈ (addsOf env Adder.new false (addCalls adds)).1, r ≠ .panic) :
    ∃ l rs m, Adder.Tried env l (addsOf env Adder.new false (addCalls adds)).2.1 ∧
      Creator.new.run rs = some (addsOf env Adder.new false (addCalls adds)).2.1.creator ∧ SpecRun PathMap.empty rs m ∧
      HoldsAdded s env.cwd (packBytes (addsOf env Adder.new false (addCalls adds)).2.1.contents) (endedOf env Adder.new adds) m := by
  obtain ⟨l, t, b1, b2⟩ := addsOf_tried (env := env) W adds Adder.Tried.new hF hnp
  obtain ⟨rs, m, k1, k2, _, k4⟩ := t.asSeen
  -- where an attempt leads and is stored
  have lead : ∀ {x : Attempted} {y : PyAdd} {q p k : List Bytes}, x.pre = [] → StandsFor s env.cwd y q p → x.path = p.foldl joinChild y.path →
      x.follow = decide (p = []) → StoredAs x.path x.pre k →
      s.fs.resolve x.follow (namesOf env.cwd x.path) = .ok (.found (q ++ p)) ∧ InputAt s env.cwd [] y.path ((comps y.path).filter (· ≠ CUR)) q ∧
        k = (comps y.path).filter (· ≠ CUR) ++ p := by
    intro x y q p k e0 hs e1 e2 hst
    obtain ⟨h0, hq, hp, _⟩ := hs
    obtain ⟨v1, v2⟩ := W.below_names hp
    obtain ⟨x0, hx0, _⟩ := W.toWF.resolve_found hq
    refine ⟨by rw [e1, e2]; exact W.walked_leads h0 hq hp, ⟨storedAs_self _, hq, by simp [Src.Has, hx0]⟩, ?_⟩
    rw [e0, e1] at hst
    exact hst.unique ((storedAs_self y.path).below v1 v2)
  refine ⟨[] ++ l, rs, m, t, k1, k2, ?_, ?_⟩
  · rintro y hy u ⟨h0, k0, q, p, i1, i2, i3, rfl, i5⟩ hsp
    obtain ⟨x, hx, o1, o2, o3⟩ := b2 y hy q p ⟨h0, i1.2.1, i2, i3⟩
    obtain ⟨k, j1, j2⟩ := k4.all x (by simpa using hx) o1
    obtain ⟨l1, l2, l3⟩ := lead (b1 x hx).1 ⟨h0, i1.2.1, i2, i3⟩ o2 o3 j1
    have e0 := i1.1.unique l2.1
    have ek : k = k0 ++ p := by rw [l3, ← e0]
    subst ek
    simp only at hsp ⊢
    rcases j2 with j2 | ⟨p', st, j2, j3⟩ | ⟨n, j2, j3 | ⟨j3, p', st, j4, j5⟩⟩
    · exact absurd j2 i5
    · exfalso
      obtain ⟨g1, _⟩ := j2.stat Q W l1
      unfold Src.statAt at g1
      cases hn : s.fs.nodes (q ++ p) with
      | none => rw [hn] at g1; cases g1
      | some z =>
        rw [hn] at g1
        cases z with
        | dir t => simp only [Except.ok.injEq] at g1; rw [← g1] at j3; cases j3
        | link tg t => simp only [Except.ok.injEq] at g1; rw [← g1] at j3; cases j3
        | file i =>
          cases hs : s.special i with
          | true => exact hsp ⟨i, hn, hs⟩
          | false =>
            simp only [hs, Bool.false_eq_true, if_false, Except.ok.injEq] at g1
            rw [← g1] at j3; cases j3
    · rw [j2]
      exact Or.inl (j3.archived Q W l1).1
    · right
      obtain ⟨g1, _⟩ := j4.stat Q W l1
      unfold Src.statAt at g1
      cases hn : s.fs.nodes (q ++ p) with
      | none => rw [hn] at g1; cases g1
      | some z =>
        rw [hn] at g1
        cases z with
        | dir t => exact ⟨t, n, rfl, j2, j3⟩
        | link tg t => simp only [Except.ok.injEq] at g1; rw [← g1] at j5; cases j5
        | file i =>
          simp only [Except.ok.injEq] at g1
          rw [← g1] at j5
          cases hs : s.special i <;> simp [hs] at j5
  · intro z n hz
    have hne : z ≠ [] := by
      rintro rfl
      rw [(SpecRun.wf k1 k2).root] at hz; cases hz
    rcases k4.only z n hz with ⟨x, hx, _, hst, hsaw⟩ | ⟨_, x, hx, k', hst, hpa⟩
    · obtain ⟨e0, y, hy, q, p, hs, o2, o3⟩ := b1 x (by simpa using hx)
      obtain ⟨l1, l2, l3⟩ := lead e0 hs o2 o3 hst
      refine ⟨y, hy, (z, q ++ p), ⟨hs.1, _, q, p, l2, hs.2.2.1, hs.2.2.2, by rw [l3], hne⟩, List.prefix_refl _, fun _ => (hsaw.archived Q W l1).2⟩
    · obtain ⟨e0, y, hy, q, p, hs, o2, o3⟩ := b1 x (by simpa using hx)
      obtain ⟨l1, l2, l3⟩ := lead e0 hs o2 o3 hst
      obtain ⟨pa1, pa2, pa3⟩ := hpa
      refine ⟨y, hy, (k', q ++ p), ⟨hs.1, _, q, p, l2, hs.2.2.1, hs.2.2.2, by rw [l3], ?_⟩, ?_, ?_⟩
      · rintro e
        simp only at e
        rw [e] at pa3
        exact pa1 (List.prefix_nil.mp pa3)
      · exact pa3
      · exact fun e => absurd e pa2

theorem pyWith_run (adds : List PyAdd) (exc writeOk : Bool) :
    PyCreator.new.run env (pyWith adds exc writeOk) =
      (.ok :: (addsOf env Adder.new false (addCalls adds)).1 ++
          [if (addsOf env Adder.new false (addCalls adds)).2.2 then .panic else if writeOk then .ok else .raised],
        ⟨false, none, if (addsOf env Adder.new false (addCalls adds)).2.2 then [] else [(addsOf env Adder.new false (addCalls adds)).2.1],
          (addsOf env Adder.new false (addCalls adds)).2.2⟩) := by
  have h : ∀ x ∈ addCalls adds, x.isExit = false := by
    intro x hx
    obtain ⟨y, _, rfl⟩ := List.mem_map.mp hx
    rfl
  have e : pyWith adds exc writeOk = [.enter] ++ (addCalls adds ++ [.exit exc writeOk]) := by simp [pyWith, addCalls]
  rw [e, PyCreator.run_append]
  have e1 : PyCreator.run env PyCreator.new [.enter] = ([.ok], ⟨true, some Adder.new, [], false⟩) := rfl
  rw [e1, PyCreator.run_append, PyCreator.run_open env h]
  generalize addsOf env Adder.new false (addCalls adds) = z
  obtain ⟨z1, z2, z3⟩ := z
  cases z3 <;> cases writeOk <;> rfl

/-- nothing is lost without a crash -/
theorem addsOf_kept {xs : List PyCall} (h : PyRes.panic ∉ (addsOf env Adder.new false xs).1) : (addsOf env Adder.new false xs).2.2 = false := by
  cases hb : (addsOf env Adder.new false xs).2.2 with
  | false => rfl
  | true =>
    rcases (addsOf_lost xs Adder.new false).mp hb with h1 | ⟨p, rc, w, h1, _⟩
    · cases h1
    · exact absurd (List.of_mem_zip h1).2 h

/-- **C80, content.** A Python program adds any paths, from a source that does not change meanwhile and whose directories can be
listed, with any interleaving of the threads; some calls may raise exceptions (but none crashes). The archive holds
everything that the calls without exception stand for, and nothing but what the calls stand for. -/
theorem C80_content (Q : Quiet env s) (W : s.WF) {adds : List PyAdd} (hF : ∀ x ∈ adds, x.Fair env s) (exc writeOk : Bool)
    (hnp : PyRes.panic ∉ (PyCreator.new.run env (pyWith adds exc writeOk)).1) :
    ∃ results a rs m, (PyCreator.new.run env (pyWith adds exc writeOk)).1 = .ok :: results ++ [if writeOk then .ok else .raised] ∧
      results.length = adds.length ∧ (PyCreator.new.run env (pyWith adds exc writeOk)).2.written = [a] ∧
      Creator.new.run rs = some a.creator ∧ SpecRun PathMap.empty rs m ∧
      HoldsAdded s env.cwd (packBytes a.contents) (adds.zip results) m := by
  rw [pyWith_run] at hnp ⊢
  have hnp' : PyRes.panic ∉ (addsOf env Adder.new false (addCalls adds)).1 := fun h => hnp (by simp [h])
  obtain ⟨l, rs, m, _, h2, h3, h4⟩ := addsOf_holds Q W hF (fun r hr e => hnp' (e ▸ hr))
  rw [addsOf_kept hnp']
  exact ⟨_, _, rs, m, rfl, by rw [addsOf_length]; simp [addCalls], rfl, h2, h3, h4⟩

/-- **C80, crashes, the archive.** The archive is not written, and `__exit__` crashes, exactly if a call of `add` has crashed
whose path has more than one component. (Its other calls may all have been fine: what they added is lost.) -/
theorem C80_lost (adds : List PyAdd) (exc writeOk : Bool) :
    ∃ results last, (PyCreator.new.run env (pyWith adds exc writeOk)).1 = .ok :: results ++ [last] ∧ results.length = adds.length ∧
      ((PyCreator.new.run env (pyWith adds exc writeOk)).2.written = [] ↔ last = .panic) ∧
      (last = .panic ↔ ∃ x, (x, PyRes.panic) ∈ adds.zip results ∧ Inner x.path) := by
  rw [pyWith_run]
  refine ⟨_, _, rfl, by rw [addsOf_length]; simp [addCalls], ?_, ?_⟩
  · cases (addsOf env Adder.new false (addCalls adds)).2.2 <;> cases writeOk <;> simp
  · have h : (addsOf env Adder.new false (addCalls adds)).2.2 = true ↔ Lost (addCalls adds) (addsOf env Adder.new false (addCalls adds)).1 := by
      rw [addsOf_lost]; simp
    have h2 : (if (addsOf env Adder.new false (addCalls adds)).2.2 = true then PyRes.panic else if writeOk = true then .ok else .raised) = .panic ↔
        (addsOf env Adder.new false (addCalls adds)).2.2 = true := by
      cases (addsOf env Adder.new false (addCalls adds)).2.2 <;> cases writeOk <;> simp
    rw [h2, h]
    unfold Lost
    generalize (addsOf env Adder.new false (addCalls adds)).1 = rs
    rw [addCalls, List.zip_map_left]
    constructor
    · rintro ⟨p, rc, w, hm, hi⟩
      obtain ⟨⟨x, r⟩, hx, e⟩ := List.mem_map.mp hm
      simp only [Prod.map, id, Prod.mk.injEq, PyCall.add.injEq] at e
      obtain ⟨⟨rfl, rfl, rfl⟩, rfl⟩ := e
      exact ⟨x, hx, hi⟩
    · rintro ⟨x, hx, hi⟩
      exact ⟨x.path, x.recursive, x.walk, List.mem_map.mpr ⟨(x, .panic), hx, rfl⟩, hi⟩

open Classical in
/-- the calls with paths that exist -/
noncomputable def existing (s : Src) (cwd : List Bytes) (adds : List PyAdd) : List PyAdd := adds.filter (fun x => decide (x.Exists s cwd))

theorem addsOf_walked (W : s.WF) : ∀ (adds : List PyAdd), (∀ x ∈ adds, x.Fair env s) →
    ∃ L, WalkedEach s env.cwd ((existing s env.cwd adds).map (fun x => (x.path, x.recursive))) L ∧
      ∀ a : Adder, (addsOf env a false (addCalls adds)).1.find? (fun r => decide (r ≠ .ok)) =
        match (a.addAll env [] L).2 with | .ok => none | e => some e.toPy := by
  intro adds
  induction adds with
  | nil => intro _; exact ⟨[], .nil, fun a => rfl⟩
  | cons y adds ih =>
    intro hF
    obtain ⟨L, hL, hadd⟩ := ih (fun x hx => hF x (by simp [hx]))
    have Fy := hF y (by simp)
    have hc : addCalls (y :: adds) = .add y.path y.recursive y.walk :: addCalls adds := rfl
    by_cases hex : y.Exists s env.cwd
    · obtain ⟨q, order, h0, hq, ho0, ho1, hord, hw⟩ := Fy.walk W hex
      have e1 : existing s env.cwd (y :: adds) = y :: existing s env.cwd adds := by simp [existing, hex]
      refine ⟨order.map (fun p => (p.foldl joinChild y.path, decide (p = []))) ++ L, ?_, fun a => ?_⟩
      · rw [e1]
        exact .cons h0 hq ho0 ho1 hord hL
      · rw [hc, addsOf_add, Adder.addAll_append, ← hw a]
        cases ha : addFromPath env [] a y.path y.recursive y.walk with
        | mk a1 o =>
          cases o with
          | ok =>
            have e : (AOut.ok == AOut.panic) = false := by decide
            simp only [AOut.toPy, e, Bool.false_and]; rw [List.find?_cons_of_neg (by decide)]; exact hadd a1
          | _ => rfl
    · have e1 : existing s env.cwd (y :: adds) = existing s env.cwd adds := by simp [existing, hex]
      refine ⟨L, by rw [e1]; exact hL, fun a => ?_⟩
      rw [hc, addsOf_add, Fy.missing W hex, ← hadd a]
      have e : (AOut.ok == AOut.panic) = false := by decide
      simp only [AOut.toPy, e, Bool.false_and]
      rw [List.find?_cons_of_neg (by decide)]

/-- no calls clash -/
theorem existing_pairwise {cwd : List Bytes} (adds : List PyAdd) :
    ((existing s cwd adds).map (fun x => (x.path, x.recursive))).Pairwise (fun f g => ∀ u v,
      OffersTree s cwd [] f.2 f.1 u → OffersTree s cwd [] g.2 g.1 v → ¬ Clash s u v ∧ ¬ Clash s v u) ↔
    adds.Pairwise (fun x y => ∀ u v, x.Offers s cwd u → y.Offers s cwd v → ¬ Clash s u v ∧ ¬ Clash s v u) := by
  rw [List.pairwise_map, existing, List.pairwise_filter]
  have hex : ∀ {x : PyAdd} {u}, x.Offers s cwd u → x.Exists s cwd := by
    rintro x u ⟨h0, k, q, p, i1, _⟩
    exact ⟨h0, q, i1.2.1⟩
  constructor
  · intro h
    exact h.imp fun h u v hu hv => h (by simpa using hex hu) (by simpa using hex hv) u v hu.2 hv.2
  · intro h
    refine h.imp fun h hx hy u v hu hv => ?_
    simp only [decide_eq_true_eq] at hx hy
    exact h u v ⟨hx.1, hu⟩ ⟨hy.1, hv⟩

/-- **C80, success.** All calls return without exception exactly if every path that exists is a relative, UTF-8 path that ends
in a name, with UTF-8 names below (if recursive), and no file or link of one call is stored where another call stores something
or a directory above it. (A path that does not exist is not reported: `C80_counterexample`.) -/
theorem C80_success_partial (Q : Quiet env s) (W : s.WF) {adds : List PyAdd} (hF : ∀ x ∈ adds, x.Fair env s) (exc : Bool) :
    (∀ r ∈ (PyCreator.new.run env (pyWith adds exc true)).1, r = .ok) ↔
      (∀ x ∈ adds, x.Exists s env.cwd → ArchivableTree s env.cwd [] x.recursive x.path) ∧
      adds.Pairwise (fun x y => ∀ u v, x.Offers s env.cwd u → y.Offers s env.cwd v → ¬ Clash s u v ∧ ¬ Clash s v u) := by
  obtain ⟨L, hL, hadd⟩ := addsOf_walked W adds hF
  obtain ⟨⟨k1, k2⟩, _⟩ := WalkedEach.iff (pre := []) W hL
  have h1 : (∀ r ∈ (PyCreator.new.run env (pyWith adds exc true)).1, r = .ok) ↔ (Adder.new.addAll env [] L).2 = .ok := by
    have h2 : (∀ r ∈ (PyCreator.new.run env (pyWith adds exc true)).1, r = .ok) ↔
        (addsOf env Adder.new false (addCalls adds)).1.find? (fun r => decide (r ≠ .ok)) = none := by
      rw [pyWith_run, List.find?_eq_none]
      simp only [if_true, List.cons_append, List.mem_cons, List.mem_append, List.not_mem_nil, or_false, decide_eq_true_eq, Classical.not_not]
      constructor
      · exact fun h r hr => h r (Or.inr (Or.inl hr))
      · rintro h r (rfl | hr | rfl)
        · rfl
        · exact h r hr
        · rw [addsOf_kept fun hp => nomatch h _ hp]; rfl
    rw [h2, hadd]
    cases (Adder.new.addAll env [] L).2 <;> simp
  rw [h1, Adder.addAll_iff Q W, ← existing_pairwise]
  constructor
  · rintro ⟨g1, g2⟩
    refine ⟨fun x hx he => ?_, (k2 g1).mp g2⟩
    exact k1.mp g1 (x.path, x.recursive) (List.mem_map.mpr ⟨x, by simp [existing, hx, he], rfl⟩)
  · rintro ⟨g1, g2⟩
    have : ∀ x ∈ L, Archivable s env.cwd [] x := by
      refine k1.mpr fun f hf => ?_
      obtain ⟨x, hx, rfl⟩ := List.mem_map.mp hf
      obtain ⟨x1, x2⟩ := List.mem_filter.mp hx
      exact g1 x x1 (by simpa using x2)
    exact ⟨this, (k2 this).mpr g2⟩

/-- **C80, crashes.** The first call that does not return crashes, instead of raising an exception, exactly if all calls before
are fine and its path would be stored under a path that ends in `..` (it exists, is relative, UTF-8, not a special file, and not
below a file or link stored before). -/
theorem C80_crash (Q : Quiet env s) (W : s.WF) {adds : List PyAdd} (hF : ∀ x ∈ adds, x.Fair env s) (exc : Bool) :
    (PyCreator.new.run env (pyWith adds exc true)).1.find? (fun r => decide (r ≠ .ok)) = some .panic ↔
      ∃ done x rest k, adds = done ++ x :: rest ∧ (∀ y ∈ done, y.Exists s env.cwd → ArchivableTree s env.cwd [] y.recursive y.path) ∧
        done.Pairwise (fun x y => ∀ u v, x.Offers s env.cwd u → y.Offers s env.cwd v → ¬ Clash s u v ∧ ¬ Clash s v u) ∧
        x.path ≠ [] ∧ NamelessInput s env.cwd [] x.path k ∧
        ∀ y ∈ done, ∀ v, y.Offers s env.cwd v → s.Leaf v.2 → v.1 <+: k → v.1 = k := by
  obtain ⟨L, hL, hadd⟩ := addsOf_walked W adds hF
  have h1 : (PyCreator.new.run env (pyWith adds exc true)).1.find? (fun r => decide (r ≠ .ok)) = some .panic ↔
      (Adder.new.addAll env [] L).2 = .panic := by
    have h2 : (PyCreator.new.run env (pyWith adds exc true)).1.find? (fun r => decide (r ≠ .ok)) =
        (addsOf env Adder.new false (addCalls adds)).1.find? (fun r => decide (r ≠ .ok)) := by
      rw [pyWith_run]
      cases hb : (addsOf env Adder.new false (addCalls adds)).2.2 with
      | false => simp
      | true =>
        have : ∃ r ∈ (addsOf env Adder.new false (addCalls adds)).1, r ≠ .ok := by
          refine Classical.byContradiction fun hno => ?_
          rw [addsOf_kept fun hp => hno ⟨_, hp, by decide⟩] at hb
          cases hb
        obtain ⟨r, hr, hn⟩ := this
        cases hf : (addsOf env Adder.new false (addCalls adds)).1.find? (fun r => decide (r ≠ .ok)) with
        | none => rw [List.find?_eq_none] at hf; exact absurd (decide_eq_true hn) (hf r hr)
        | some z =>
          rw [List.cons_append, List.find?_cons_of_neg (by decide), List.find?_append, hf]; rfl
    rw [h2, hadd]
    cases (Adder.new.addAll env [] L).2 <;> simp [AOut.toPy]
  rw [h1, WalkedEach.panics_iff Q W hL]
  have hsplit : ∀ (adds : List PyAdd) {d r : List PyAdd} {x : PyAdd}, existing s env.cwd adds = d ++ x :: r →
      ∃ done rest, adds = done ++ x :: rest ∧ d = existing s env.cwd done := by
    intro adds
    induction adds with
    | nil => intro d r x e; simp [existing] at e
    | cons y adds ih =>
      intro d r x e
      by_cases hex : y.Exists s env.cwd
      · have e1 : existing s env.cwd (y :: adds) = y :: existing s env.cwd adds := by simp [existing, hex]
        rw [e1] at e
        cases d with
        | nil =>
          simp only [List.nil_append, List.cons.injEq] at e
          exact ⟨[], adds, by rw [e.1]; rfl, rfl⟩
        | cons z d =>
          simp only [List.cons_append, List.cons.injEq] at e
          obtain ⟨rfl, e⟩ := e
          obtain ⟨done, rest, g1, g2⟩ := ih e
          exact ⟨y :: done, rest, by rw [g1]; rfl, by rw [g2]; simp [existing, hex]⟩
      · have e1 : existing s env.cwd (y :: adds) = existing s env.cwd adds := by simp [existing, hex]
        rw [e1] at e
        obtain ⟨done, rest, g1, g2⟩ := ih e
        exact ⟨y :: done, rest, by rw [g1]; rfl, by rw [g2]; simp [existing, hex]⟩
  constructor
  · rintro ⟨d, f, r, k, e, g1, g2, g3, g4⟩
    obtain ⟨d', r', e1, rfl, e2⟩ := List.map_eq_append_iff.mp e
    cases r' with
    | nil => cases e2
    | cons x r' =>
      simp only [List.map_cons, List.cons.injEq] at e2
      obtain ⟨rfl, _⟩ := e2
      have hxe : x.Exists s env.cwd := by
        have : x ∈ existing s env.cwd adds := by rw [e1]; simp
        simpa using (List.mem_filter.mp this).2
      obtain ⟨done, rest, e3, e4⟩ := hsplit adds e1
      have hm : ∀ y ∈ done, y.Exists s env.cwd → (y.path, y.recursive) ∈ d'.map (fun x => (x.path, x.recursive)) := by
        intro y hy he
        rw [e4]
        exact List.mem_map.mpr ⟨y, by simp [existing, hy, he], rfl⟩
      refine ⟨done, x, rest, k, e3, fun y hy he => g1 _ (hm y hy he), ?_, hxe.1, g3, fun y hy v hv => ?_⟩
      · rw [← existing_pairwise, ← e4]; exact g2
      · obtain ⟨h0, k', q, p, i1, i2⟩ := hv
        exact g4 _ (hm y hy ⟨h0, q, i1.2.1⟩) v ⟨k', q, p, i1, i2⟩
  · rintro ⟨done, x, rest, k, rfl, g1, g2, g0, g3, g4⟩
    have hxe : x.Exists s env.cwd := by
      obtain ⟨q, hq, _⟩ := g3.archived
      exact ⟨g0, q, hq⟩
    refine ⟨(existing s env.cwd done).map (fun x => (x.path, x.recursive)), (x.path, x.recursive),
      (existing s env.cwd rest).map (fun x => (x.path, x.recursive)), k, by simp [existing, List.filter_append, hxe], ?_, ?_, g3, ?_⟩
    · intro f hf
      obtain ⟨y, hy, rfl⟩ := List.mem_map.mp hf
      obtain ⟨y1, y2⟩ := List.mem_filter.mp hy
      exact g1 y y1 (by simpa using y2)
    · rw [existing_pairwise]; exact g2
    · intro f hf v hv
      obtain ⟨y, hy, rfl⟩ := List.mem_map.mp hf
      obtain ⟨y1, y2⟩ := List.mem_filter.mp hy
      have : y.Exists s env.cwd := by simpa using y2
      exact g4 y y1 v ⟨this.1, hv⟩

/-- what the calls archive if none raises -/
theorem addsOf_all_ok (Q : Quiet env s) (W : s.WF) {adds : List PyAdd} (hF : ∀ x ∈ adds, x.Fair env s) (exc : Bool)
    (hok : ∀ r ∈ (PyCreator.new.run env (pyWith adds exc true)).1, r = .ok)
    {a : Adder} (ha : (PyCreator.new.run env (pyWith adds exc true)).2.written = [a]) :
    ∃ l rs m, Adder.Tried env l a ∧ Creator.new.run rs = some a.creator ∧ SpecRun PathMap.empty rs m ∧
      (∀ u, (∃ x ∈ adds, x.Offers s env.cwd u) → ¬ s.Special u.2 → Held s (packBytes a.contents) u.2 (m u.1)) ∧
      ∀ z n, m z = some n → ∃ u, (∃ x ∈ adds, x.Offers s env.cwd u) ∧ z <+: u.1 ∧ (z = u.1 → ¬ s.Special u.2) := by
  rw [pyWith_run] at hok ha
  have hres : ∀ r ∈ (addsOf env Adder.new false (addCalls adds)).1, r = .ok := fun r hr => hok r (by simp [hr])
  obtain ⟨l, rs, m, ht, h2, h3, h4⟩ := addsOf_holds Q W hF (fun r hr e => by rw [hres r hr] at e; cases e)
  rw [addsOf_kept fun hp => nomatch hres _ hp] at ha
  have ea : (addsOf env Adder.new false (addCalls adds)).2.1 = a := by simpa using ha
  rw [ea] at ht h2 h4
  have hend : ∀ x ∈ adds, (x, PyRes.ok) ∈ endedOf env Adder.new adds := by
    intro x hx
    obtain ⟨i, hi, rfl⟩ := List.getElem_of_mem hx
    have hlen : i < (addsOf env Adder.new false (addCalls adds)).1.length := by rw [addsOf_length]; simpa [addCalls] using hi
    have := hres _ (List.getElem_mem hlen)
    have hz : i < (endedOf env Adder.new adds).length := by simp only [endedOf, List.length_zip]; omega
    have e : (endedOf env Adder.new adds)[i] = (adds[i], PyRes.ok) := by simp only [endedOf, List.getElem_zip, this]
    rw [← e]; exact List.getElem_mem hz
  refine ⟨l, rs, m, ht, h2, h3, ?_, ?_⟩
  · rintro u ⟨x, hx, hu⟩ hsp
    exact h4.all x (hend x hx) u hu hsp
  · intro z n hz
    obtain ⟨y, hy, u, hu, g1, g2⟩ := h4.only z n hz
    exact ⟨u, ⟨y.1, (List.of_mem_zip (show (y.1, y.2) ∈ _ from hy)).1, hu⟩, g1, g2⟩

/-- **C80, readers.** What a Python program archives without an exception is what every reader shows (see C79). -/
theorem C80_shows (Q : Quiet env s) (W : s.WF) (F : s.Fits) {adds : List PyAdd} (hF : ∀ x ∈ adds, x.Fair env s) (exc : Bool)
    (hok : ∀ r ∈ (PyCreator.new.run env (pyWith adds exc true)).1, r = .ok)
    (hargs : ∀ x ∈ adds, ∀ c ∈ comps x.path, c ≠ PARENT ∧ c.length ≤ 255)
    {a : Adder} (ha : (PyCreator.new.run env (pyWith adds exc true)).2.written = [a])
    {order : List Nat} (ho : IsLayout a.creator order) (hlen : a.creator.store.length + 2 < 2 ^ 32)
    {mo : MountOpts} {ms : MountSys} {dir : Bytes} {rg : Range} {opts : List MountOption}
    (harch : ms.archive = some (writeArchive a.creator order)) (hserve : .serve dir rg opts ∈ (mountCmd mo ms).1) :
    ∃ B, ∀ (cl : Client) (before : List FReq), cl.Served before → ∀ n ≥ B,
      ∃ l c, cl.copy ⟨writeArchive a.creator order, rg, packBytes a.contents⟩ n
          ((FsState.init.run ⟨writeArchive a.creator order, rg, packBytes a.contents⟩ before).2, 0) [] 1 = (some l, c) ∧
        ShowsSource s (fun u => ∃ x ∈ adds, x.Offers s env.cwd u) mo.shown l ∧
        (mo.rootDir = none → OtherReaders (writeArchive a.creator order) (packBytes a.contents) l) := by
  obtain ⟨l, rs, m, ht, h2, h3, h4, h5⟩ := addsOf_all_ok Q W hF exc hok ha
  refine ht.shows Q F h2 h3 h4 h5 ?_ ho hlen harch hserve
  rintro _ ⟨x, hx, h0, k, q, p, i1, i2, _, rfl, _⟩ c hc
  rcases List.mem_append.mp hc with hk | hk
  · obtain ⟨j1, j2⟩ := i1.1.mem hk
    obtain ⟨j3, j4⟩ := hargs x hx c j1
    exact ⟨j2, j3, j4⟩
  · obtain ⟨y, hy⟩ := Option.ne_none_iff_exists'.mp i2
    have := (W.names _ y hy c (by simp [hk])).2
    exact ⟨this.1, this.2.1, F.names _ y hy c (by simp [hk])⟩

/-- **C80, extraction.** What a Python program archives without an exception is what `arx extract` brings back (see C71). -/
theorem C80_extract (Q : Quiet env s) (W : s.WF) {adds : List PyAdd} (hF : ∀ x ∈ adds, x.Fair env s) (exc : Bool)
    (hok : ∀ r ∈ (PyCreator.new.run env (pyWith adds exc true)).1, r = .ok)
    (hargs : ∀ x ∈ adds, ∀ c ∈ comps x.path, c ≠ PARENT ∧ (0 : UInt8) ∉ c)
    (htargets : ∀ q t u, s.fs.nodes q = some (.link t u) → validUtf8 t = true)
    {a : Adder} (ha : (PyCreator.new.run env (pyWith adds exc true)).2.written = [a])
    {order : List Nat} (ho : IsLayout a.creator order) (hlen : a.creator.store.length < 2 ^ 32)
    {x : ExtractOpts} {xs : CmdSys} {lines : List Bytes} (hxa : x.Accepted) (hl : x.Lines xs lines) (hne : x.fileList ≠ none → lines ≠ [])
    (harch : xs.archive = some (writeArchive a.creator order, packBytes a.contents))
    {depth : Nat} {before : FS} {last : List (Nat × WriteRes)} {w : World} {res : XResult}
    (hd : a.creator.store.length < depth) (hrun : x.run xs depth before last = some (w, res)) (hfin : w.finished)
    (hfault : ∀ n, xs.env.fault n = false) (hns : ∀ n, NoErr (xs.env.sched n)) (hnl : NoErr last)
    (hT : EmptyTarget before (x.target xs.cwd)) :
    res = .ok ∧ Restores s (fun u => ∃ x ∈ adds, x.Offers s env.cwd u) x.rootOf (Wanted x lines) w.fs (x.target xs.cwd) := by
  obtain ⟨l, rs, m, ht, h2, h3, h4, h5⟩ := addsOf_all_ok Q W hF exc hok ha
  refine ht.restores Q W h2 h3 h4 h5 ?_ htargets ho hlen hxa hl hne harch hd hrun hfin hfault hns hnl hT
  rintro _ ⟨x, hx, h0, k, q, p, i1, i2, _, rfl, _⟩ c hc
  rcases List.mem_append.mp hc with hk | hk
  · obtain ⟨j1, j2⟩ := i1.1.mem hk
    obtain ⟨j3, j4⟩ := hargs x hx c j1
    exact ⟨j2, j3, j4⟩
  · obtain ⟨y, hy⟩ := Option.ne_none_iff_exists'.mp i2
    exact (W.names _ y hy c (by simp [hk])).2

/-! ### Examples: `c.add("d/s"); c.add("zzz"); c.add("d", recursive=False); …` -/

def pyAdd (path : String) (recursive : Bool) : PyAdd :=
  ⟨ascii path, recursive, exSrc, exLs, 5, List.replicate 20 true ++ List.replicate 20 false⟩

theorem pyAdd_fair {path : String} {rc : Bool} (h : (walkItems [] exSrc exLs 5 (ascii path) rc).length < 20) : (pyAdd path rc).Fair exEnv exSrc := by
  refine ⟨rfl, exLs_full, fun q hq => ?_, fun a => Chan.returns (n := 20) h⟩
  have := exSrc_paths hq
  simp only [List.mem_cons, List.not_mem_nil, or_false] at this
  rcases this with e | e | e | e | e | e <;> rw [e] <;> simp [pyAdd]

def exAdds : List PyAdd := [pyAdd "d/s" true, pyAdd "zzz" true, pyAdd "d" false]

theorem exAdds_fair : ∀ x ∈ exAdds, x.Fair exEnv exSrc := by
  intro x hx
  simp only [exAdds, List.mem_cons, List.not_mem_nil, or_false] at hx
  rcases hx with rfl | rfl | rfl <;> exact pyAdd_fair (by decide +kernel)

/-- **C80 is false for paths that do not exist**: `add` returns without an exception, and the archive has nothing for it. -/
theorem C80_counterexample : ¬ (pyAdd "zzz" true).Exists exSrc exEnv.cwd ∧
    (PyCreator.new.run exEnv (pyWith [pyAdd "zzz" true] false true)).1 = [.ok, .ok, .ok] ∧
    (PyCreator.new.run exEnv (pyWith [pyAdd "zzz" true] false true)).2.written.map (fun a => a.creator.store.length) = [0] := by
  refine ⟨?_, by decide +kernel, by decide +kernel⟩
  rintro ⟨_, q, hq⟩
  obtain ⟨x, hx, _⟩ := exSrc_wf.toWF.resolve_found hq
  have : ∀ q', exSrc.fs.resolve true (namesOf exEnv.cwd (pyAdd "zzz" true).path) ≠ .ok (.found q') := by
    have e : exSrc.fs.resolve true (namesOf exEnv.cwd (pyAdd "zzz" true).path) = .ok (.missing [] (ascii "zzz")) := by decide +kernel
    intro q' h
    rw [e] at h; cases h
  exact this q hq

theorem exAdds_ok : ∀ r ∈ (PyCreator.new.run exEnv (pyWith exAdds false true)).1, r = .ok := by decide +kernel

/-- the right side of `C80_success_partial` is met by a non-trivial case -/
example : ∀ x ∈ exAdds, x.Exists exSrc [] → ArchivableTree exSrc [] [] x.recursive x.path :=
  ((C80_success_partial exEnv_quiet exSrc_wf exAdds_fair false).mp exAdds_ok).1

/-- what the program archives -/
def pyAdder : Adder := (PyCreator.new.run exEnv (pyWith exAdds false true)).2.written.headD Adder.new

theorem exAdds_written : (PyCreator.new.run exEnv (pyWith exAdds false true)).2.written = [pyAdder] := by
  have h : PyRes.panic ∉ (addsOf exEnv Adder.new false (addCalls exAdds)).1 := by decide +kernel
  rw [pyAdder, pyWith_run]
  simp only [addsOf_kept h, Bool.false_eq_true, if_false, List.headD_cons]

example : pyAdder.creator.store.map (·.name) = [ascii "d", ascii "s", ascii "l"] := by decide +kernel

/-- the hypotheses of `C80_shows` are met -/
example : ∃ rg B, ∀ n ≥ B,
    ∃ l c, tripClient.copy ⟨writeArchive pyAdder.creator [0, 1, 2], rg, packBytes pyAdder.contents⟩ n
        ((FsState.init.run ⟨writeArchive pyAdder.creator [0, 1, 2], rg, packBytes pyAdder.contents⟩ [.open 5]).2, 0) [] 1 = (some l, c) ∧
      ShowsSource exSrc (fun u => ∃ x ∈ exAdds, x.Offers exSrc [] u) [] l ∧
      OtherReaders (writeArchive pyAdder.creator [0, 1, 2]) (packBytes pyAdder.contents) l := by
  have hs : ∃ dir rg opts, MountEv.serve dir rg opts ∈ (mountCmd (tripMount none) { tripMountSys with archive := some (writeArchive pyAdder.creator [0, 1, 2]) }).1 :=
    ⟨_, _, _, List.mem_singleton.mpr rfl⟩
  obtain ⟨dir, rg, opts, hs⟩ := hs
  have hargs : ∀ x ∈ exAdds, ∀ c ∈ comps x.path, c ≠ PARENT ∧ c.length ≤ 255 := by
    have : ∀ p ∈ exAdds.map (·.path), ∀ c ∈ comps p, c ≠ PARENT ∧ c.length ≤ 255 := by decide +kernel
    exact fun x hx => this _ (List.mem_map_of_mem hx)
  have ha := exAdds_written
  obtain ⟨B, hB⟩ := C80_shows exEnv_quiet exSrc_wf exSrc_fits exAdds_fair false exAdds_ok hargs ha (order := [0, 1, 2])
    ⟨by decide +kernel, by decide +kernel⟩ (by decide +kernel) rfl hs
  refine ⟨rg, B, fun n hn => ?_⟩
  obtain ⟨l, c, h1, h2, h3⟩ := hB tripClient [.open 5] tripClient_served n hn
  exact ⟨l, c, h1, h2, h3 rfl⟩

def pyCmd : CmdSys := { exCmd with archive := some (writeArchive pyAdder.creator [0, 1, 2], packBytes pyAdder.contents) }
def pyRun : World × XResult := ((exOpts [] none).run pyCmd 5 fs0 finish).getD (⟨fs0, [], true, 0⟩, .writes)

/-- the hypotheses of `C80_extract` are met -/
example : pyRun.2 = .ok ∧ Restores exSrc (fun u => ∃ x ∈ exAdds, x.Offers exSrc [] u) []
    (Wanted (exOpts [] none) []) pyRun.1.fs [ascii "t"] := by
  have ha := exAdds_written
  refine C80_extract (a := pyAdder) (order := [0, 1, 2]) (xs := pyCmd) (x := exOpts [] none) (w := pyRun.1) (res := pyRun.2)
    (depth := 5) (before := fs0) (last := finish) exEnv_quiet exSrc_wf exAdds_fair false exAdds_ok ?_ ?_ ha
    ⟨by decide +kernel, by decide +kernel⟩ (by decide +kernel)
    ⟨by decide, by decide⟩ ?_ ?_ rfl (by decide +kernel) ?_ ?_ (fun _ => rfl) (fun _ x h => by cases h) ?_ exT
  · have : ∀ p ∈ exAdds.map (·.path), ∀ c ∈ comps p, c ≠ PARENT ∧ (0 : UInt8) ∉ c := by decide +kernel
    exact fun x hx => this _ (List.mem_map_of_mem hx)
  · intro q t u h
    have := exSrc_nodes h
    simp only [List.mem_cons, Prod.mk.injEq, List.not_mem_nil, or_false] at this
    rcases this with ⟨_, e⟩ | ⟨_, e⟩ | ⟨_, e⟩ | ⟨_, e⟩ | ⟨_, e⟩ | ⟨_, e⟩ <;> cases e
    decide
  · intro l h; cases h
  · intro h; exact absurd rfl h
  · unfold pyRun
    cases hr : (exOpts [] none).run pyCmd 5 fs0 finish with
    | none =>
      have : ((exOpts [] none).run pyCmd 5 fs0 finish).isSome = true := by decide +kernel
      rw [hr] at this; cases this
    | some r => rfl
  · decide +kernel
  · intro x hx; revert x; decide

example : pyRun.1.fs.nodes [ascii "t", ascii "d", ascii "s", ascii "l"] = some (.link (ascii "../f") fs0.now) ∧
    pyRun.1.fs.nodes [ascii "t", ascii "d", ascii "f"] = none := by decide +kernel

/-- `C80_content` with a call that raises (the file `d/f` is already there), and a crash: `d/..` -/
example : (PyCreator.new.run exEnv (pyWith [pyAdd "d" true, pyAdd "d/f" true, pyAdd "d/s" false] false true)).1 = [.ok, .ok, .raised, .ok, .ok] ∧
    (PyCreator.new.run exEnv (pyWith [pyAdd "d" false, pyAdd "d/.." false] false true)).1.find? (fun r => decide (r ≠ .ok)) = some .panic := by
  constructor <;> decide +kernel

/-- `C80_lost`, both ways: `d/..` loses the archive, `..` does not -/
example : (PyCreator.new.run exEnv (pyWith [pyAdd "d" false, pyAdd "d/.." false] false true)).1 = [.ok, .ok, .panic, .panic] ∧
    (PyCreator.new.run exEnv (pyWith [pyAdd "d" false, pyAdd ".." false] false true)).1 = [.ok, .ok, .panic, .ok] := by
  constructor <;> decide +kernel

end Arx
