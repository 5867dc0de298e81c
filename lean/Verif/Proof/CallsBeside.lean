import Verif.Proof.CallsProof
import Verif.Proof.ExtractGen
/-!
# Extraction beside other processes: what is kept, what the files contain; every interference is a run
-/
namespace Arx

theorem XCall.run_ok {c : XCall} {g g' : FS} {a : XAns} (h : c.run g = .ok (a, g')) :
    (∀ e, a ≠ .err e) ∧ (∀ i f o s, c ≠ .write i f o s) ∧ g.afterCall (c, a) = g' := by
  have key : ∀ {α : Type} {x : Except HErr (α × FS)} {mk : α → XAns}, (∀ y e, mk y ≠ .err e) →
      x.map (fun r => (mk r.1, r.2)) = .ok (a, g') → ∀ e, a ≠ .err e := by
    intro α x mk hmk hx e
    cases x with
    | error x => cases hx
    | ok y =>
      simp only [Except.map, Except.ok.injEq, Prod.mk.injEq] at hx
      rw [← hx.1]; exact hmk _ _
  have h1 : ∀ e, a ≠ .err e := by
    cases c with
    | mkdir p => exact key (α := Unit) (mk := fun _ => .done) (by intro y e h; cases h) h
    | isDir p => intro e; cases h; intro h; cases h
    | openNew p => exact key (mk := fun x => .opened x) (by intro y e h; cases h) h
    | openTrunc p => exact key (mk := fun x => .opened x) (by intro y e h; cases h) h
    | modified f p => exact key (mk := fun x => .time x) (by intro y e h; cases h) h
    | symlink t p => exact key (α := Unit) (mk := fun _ => .done) (by intro y e h; cases h) h
    | unlink p => exact key (α := Unit) (mk := fun _ => .done) (by intro y e h; cases h) h
    | write i f o s => cases h
  have h2 : ∀ i f o s, c ≠ .write i f o s := by
    rintro i f o s rfl
    cases h
  refine ⟨h1, h2, ?_⟩
  cases c with
  | write i f o s => exact absurd rfl (h2 i f o s)
  | _ => cases a <;> first | exact absurd rfl (h1 _) | simp only [FS.afterCall, h]

/-! ## What others do not touch is kept -/

theorem FS.set_missing_keep {g : FS} {follow : Bool} {p d : List Bytes} {n : Bytes} (h : g.resolve follow p = .ok (.missing d n))
    {q : List Bytes} {x y : FNode} (hq : g.nodes q = some x) : (g.set (d ++ [n]) (some y)).nodes q = some x := by
  have := FS.resolve_missing h
  rw [FS.set_nodes]
  split
  · rename_i e
    subst e
    rw [hq] at this
    cases this
  · exact hq

/-- one allowed call of an extraction that replaces nothing -/
theorem Does.keeps {P : Plan} (hmode : P.mode ≠ .newer ∧ P.mode ≠ .overwrite) {past : XTrace} {c : XCall} {a : XAns} {g g' : FS}
    (hd : Does c a g g') (hc : P.Allows past c) {q : List Bytes} {x : FNode} (hq : g.nodes q = some x) :
    g'.nodes q = some x ∧ g.next ≤ g'.next ∧
    (∀ i, i < g.next → (∀ p, (p, i) ∉ opens past) → g'.data i = g.data i) ∧
    (∀ p f, c = .openNew p → a = .opened f → g.next ≤ f) ∧ (∀ p, c ≠ .openTrunc p) := by
  have hmr : ∀ f p mt, ¬ P.MayReplace past f p mt := by
    rintro f p mt (h | ⟨h, _⟩)
    · exact hmode.2 h
    · exact hmode.1 h
  have htr : ∀ p, c ≠ .openTrunc p := by
    rintro p rfl
    obtain ⟨mt, b, _, _, h⟩ := hc
    exact hmr _ _ _ h
  rcases hd with ⟨⟨e, rfl⟩, rfl⟩ | hrun | ⟨i, f, off, s, k, rfl, rfl, rfl⟩
  · exact ⟨hq, Nat.le_refl _, fun _ _ _ => rfl, (by intro p f _ h; cases h), htr⟩
  · cases c with
    | mkdir p =>
      simp only [XCall.run, FS.mkdir] at hrun
      cases hr : g.resolve false p with
      | error e => rw [hr] at hrun; cases hrun
      | ok l =>
        rw [hr] at hrun
        cases l with
        | found q => cases hrun
        | missing d n =>
          cases hrun
          exact ⟨FS.set_missing_keep hr hq, Nat.le_refl _, fun _ _ _ => rfl, (by intro p f h; cases h), htr⟩
    | isDir p => cases hrun; exact ⟨hq, Nat.le_refl _, fun _ _ _ => rfl, (by intro p f h; cases h), htr⟩
    | openNew p =>
      simp only [XCall.run, FS.createNew] at hrun
      cases hr : g.resolve false p with
      | error e => rw [hr] at hrun; cases hrun
      | ok l =>
        rw [hr] at hrun
        cases l with
        | found q => simp only at hrun; split at hrun <;> cases hrun
        | missing d n =>
          cases hrun
          refine ⟨FS.set_missing_keep hr hq, Nat.le_succ _, fun i hi _ => ?_, ?_, htr⟩
          · simp only [FS.setData]
            rw [if_neg (by omega)]
            rfl
          · intro p f _ h; cases h; exact Nat.le_refl _
    | openTrunc p => exact absurd rfl (htr p)
    | modified f p =>
      have : g' = g := by
        simp only [XCall.run, FS.mtime] at hrun
        cases hr : g.resolve f p with
        | error e => rw [hr] at hrun; cases hrun
        | ok l =>
          rw [hr] at hrun
          cases l with
          | missing d n => cases hrun
          | found q =>
            simp only [FS.mtimeAt] at hrun
            cases hn : g.nodes q with
            | none => rw [hn] at hrun; cases hrun
            | some y => rw [hn] at hrun; cases y <;> (cases hrun; rfl)
      subst this
      exact ⟨hq, Nat.le_refl _, fun _ _ _ => rfl, (by intro p f h; cases h), htr⟩
    | symlink t p =>
      simp only [XCall.run, FS.symlink] at hrun
      split at hrun
      · cases hrun
      · split at hrun
        · cases hrun
        · cases hr : g.resolve false p with
          | error e => rw [hr] at hrun; cases hrun
          | ok l =>
            rw [hr] at hrun
            cases l with
            | found q => cases hrun
            | missing d n =>
              cases hrun
              exact ⟨FS.set_missing_keep hr hq, Nat.le_refl _, fun _ _ _ => rfl, (by intro p f h; cases h), htr⟩
    | unlink p =>
      obtain ⟨mt, t, _, _, h⟩ := hc
      exact absurd h (hmr _ _ _)
    | write i f off s => cases hrun
  · refine ⟨hq, Nat.le_refl _, fun j _ hj => ?_, (by intro p f h; cases h), htr⟩
    obtain ⟨p, mt, b, _, ho, _⟩ := hc
    have hjf : j ≠ f := by
      rintro rfl
      exact hj p (List.mem_of_getElem? ho)
    simp only [FS.setData]
    rw [if_neg hjf]

theorem Plan.Obeyed.init {P : Plan} {t : XTrace} {x : XCall × XAns} (h : P.Obeyed (t ++ [x])) : P.Obeyed t := by
  intro past c a rest e
  exact h past c a (rest ++ [x]) (by rw [e]; simp)

theorem Beside.keeps {P : Plan} (hmode : P.mode ≠ .newer ∧ P.mode ≠ .overwrite) {others : XTrace → FS → FS → Prop} {before after : FS}
    {t : XTrace} (h : Beside others before t after) (ho : P.Obeyed t) {q : List Bytes} {x : FNode} (hq : before.nodes q = some x)
    (hi : ∀ i, x = .file i → i < before.next)
    (hoth : ∀ t g g', others t g g' → g.nodes q = some x → EntryKept g g' q x ∧ g.next ≤ g'.next) :
    EntryKept before after q x := by
  have key : EntryKept before after q x ∧ before.next ≤ after.next ∧ ∀ p f, (p, f) ∈ opens t → before.next ≤ f := by
    induction h with
    | start => exact ⟨⟨hq, fun _ _ => rfl⟩, Nat.le_refl _, by intro p f h; cases h⟩
    | @call fs' fs'' t c a h hd ih =>
      obtain ⟨⟨h1, h2⟩, h3, h4⟩ := ih ho.init
      obtain ⟨k1, k2, k3, k4, k5⟩ := hd.keeps hmode (ho t c a [] rfl) h1
      refine ⟨⟨k1, fun i e => ?_⟩, Nat.le_trans h3 k2, ?_⟩
      · rw [k3 i (by have := hi i e; omega) (fun p hp => by have := h4 p i hp; have := hi i e; omega)]
        exact h2 i e
      · intro p f hp
        rw [opens_append] at hp
        rcases List.mem_append.mp hp with hp | hp
        · exact h4 p f hp
        · have hcases : c = .openNew p ∧ a = .opened f := by
            cases c with
            | openNew p' =>
              cases a with
              | opened f' => simp [opens] at hp; obtain ⟨rfl, rfl⟩ := hp; exact ⟨rfl, rfl⟩
              | _ => simp [opens] at hp
            | openTrunc p' => exact absurd rfl (k5 p')
            | _ => cases a <;> simp [opens] at hp
          have := k4 p f hcases.1 hcases.2
          omega
    | @other fs' fs'' t h hot ih =>
      obtain ⟨⟨h1, h2⟩, h3, h4⟩ := ih ho
      obtain ⟨⟨k1, k2⟩, k3⟩ := hoth _ _ _ hot h1
      exact ⟨⟨k1, fun i e => by rw [k2 i e, h2 i e]⟩, Nat.le_trans h3 k3, h4⟩
  exact key.1

/-! ## What the written files contain -/

theorem writeAt_end (b s : Bytes) : writeAt b b.length s = b ++ s := by
  unfold writeAt
  rw [List.take_length, Nat.sub_self, List.drop_eq_nil_of_le (by omega)]
  simp

theorem Plan.Obeyed.unopened {P : Plan} {i : Nat} : ∀ {t : XTrace}, P.Obeyed t → (opens t).length ≤ i → writtenBy i t = [] := by
  intro t
  generalize hn : t.length = n
  induction n generalizing t with
  | zero => intro _ _; rw [List.length_eq_zero_iff.mp hn]; rfl
  | succ n ih =>
    intro ho hl
    rcases nil_or_snoc t with rfl | ⟨t, ⟨c, a⟩, rfl⟩
    · rfl
    have hlt : (opens t).length ≤ i := by
      rw [opens_append, List.length_append] at hl; omega
    rw [writtenBy_append, ih (by simpa using hn) ho.init hlt, List.nil_append]
    cases c with
    | write j f off s =>
      obtain ⟨p, mt, b, _, h1, _⟩ := ho t _ _ [] rfl
      have hj : j < (opens t).length := (List.getElem?_eq_some_iff.mp h1).1
      cases a with
      | wrote k => rw [writtenBy_write, if_neg (by omega)]
      | _ => rfl
    | _ => cases a <;> rfl

/-- what a successful call does to the data of a file -/
theorem Does.data {c : XCall} {a : XAns} {g g' : FS} (hd : Does c a g g') (f : Nat) :
    (∃ p, opens [(c, a)] = [(p, f)] ∧ (g'.data f).bytes = []) ∨
    (∃ i off s k, c = .write i f off s ∧ a = .wrote k ∧ (g'.data f).bytes = writeAt (g.data f).bytes off (s.take k)) ∨
    ((∀ i off s k, c = .write i f off s → a ≠ .wrote k) ∧ (∀ p, opens [(c, a)] ≠ [(p, f)]) ∧ g'.data f = g.data f) := by
  rcases hd with ⟨⟨e, rfl⟩, rfl⟩ | hrun | ⟨i, f', off, s, k, rfl, rfl, rfl⟩
  · right; right
    exact ⟨(by intro i o s k _ h; cases h), (by intro p h; cases c <;> cases h), rfl⟩
  · cases c with
    | mkdir p =>
      right; right
      refine ⟨(by intro i o s k h; cases h), (by intro p h; cases a <;> cases h), ?_⟩
      simp only [XCall.run, FS.mkdir] at hrun
      cases hr : g.resolve false p with
      | error e => rw [hr] at hrun; cases hrun
      | ok l => rw [hr] at hrun; cases l <;> cases hrun; rfl
    | isDir p =>
      right; right
      exact ⟨(by intro i o s k h; cases h), (by intro p h; cases a <;> cases h), by cases hrun; rfl⟩
    | openNew p =>
      simp only [XCall.run, FS.createNew] at hrun
      cases hr : g.resolve false p with
      | error e => rw [hr] at hrun; cases hrun
      | ok l =>
        rw [hr] at hrun
        cases l with
        | found q => simp only at hrun; split at hrun <;> cases hrun
        | missing d n =>
          cases hrun
          by_cases hf : f = g.next
          · subst hf
            left
            exact ⟨p, rfl, by simp [FS.setData]⟩
          · right; right
            refine ⟨(by intro i o s k h; cases h), ?_, ?_⟩
            · intro p' h
              simp [opens] at h
              exact hf h.2.symm
            · simp only [FS.setData]; rw [if_neg hf]; rfl
    | openTrunc p =>
      simp only [XCall.run, FS.openTrunc] at hrun
      cases hr : g.resolve true p with
      | error e => rw [hr] at hrun; cases hrun
      | ok l =>
        rw [hr] at hrun
        cases l with
        | missing d n => cases hrun
        | found q =>
          simp only at hrun
          cases hn : g.nodes q with
          | none => rw [hn] at hrun; cases hrun
          | some y =>
            rw [hn] at hrun
            cases y with
            | file ino =>
              cases hrun
              by_cases hf : f = ino
              · subst hf
                left
                exact ⟨p, rfl, by simp [FS.setData]⟩
              · right; right
                refine ⟨(by intro i o s k h; cases h), ?_, ?_⟩
                · intro p' h
                  simp [opens] at h
                  exact hf h.2.symm
                · simp only [FS.setData]; rw [if_neg hf]
            | _ => cases hrun
    | modified fl p =>
      right; right
      refine ⟨(by intro i o s k h; cases h), (by intro p h; cases a <;> cases h), ?_⟩
      simp only [XCall.run, FS.mtime] at hrun
      cases hr : g.resolve fl p with
      | error e => rw [hr] at hrun; cases hrun
      | ok l =>
        rw [hr] at hrun
        cases l with
        | missing d n => cases hrun
        | found q =>
          simp only [FS.mtimeAt] at hrun
          cases hn : g.nodes q with
          | none => rw [hn] at hrun; cases hrun
          | some y => rw [hn] at hrun; cases y <;> (cases hrun; rfl)
    | symlink t p =>
      right; right
      refine ⟨(by intro i o s k h; cases h), (by intro p h; cases a <;> cases h), ?_⟩
      simp only [XCall.run, FS.symlink] at hrun
      split at hrun
      · cases hrun
      · split at hrun
        · cases hrun
        · cases hr : g.resolve false p with
          | error e => rw [hr] at hrun; cases hrun
          | ok l => rw [hr] at hrun; cases l <;> cases hrun; rfl
    | unlink p =>
      right; right
      refine ⟨(by intro i o s k h; cases h), (by intro p h; cases a <;> cases h), ?_⟩
      simp only [XCall.run, FS.removeFile] at hrun
      cases hr : g.resolve false p with
      | error e => rw [hr] at hrun; cases hrun
      | ok l =>
        rw [hr] at hrun
        cases l with
        | missing d n => cases hrun
        | found q =>
          simp only at hrun
          cases hn : g.nodes q with
          | none => rw [hn] at hrun; cases hrun; rfl
          | some y => rw [hn] at hrun; cases y <;> cases hrun <;> rfl
    | write i f' off s => cases hrun
  · by_cases hf : f = f'
    · subst hf
      right; left
      exact ⟨i, off, s, k, rfl, rfl, by simp [FS.setData]⟩
    · right; right
      refine ⟨?_, (by intro p h; cases h), ?_⟩
      · intro i' o s' k' h
        cases h
        exact absurd rfl hf
      · simp only [FS.setData]; rw [if_neg hf]

theorem Beside.content {P : Plan} {others : XTrace → FS → FS → Prop} {before after : FS}
    {t : XTrace} (h : Beside others before t after) (ho : P.Obeyed t)
    (hoth : ∀ t g g', others t g g' → ∀ p f, (p, f) ∈ opens t → g'.data f = g.data f) :
    ∀ (i : Nat) (p : List Bytes) (f : Nat), (opens t)[i]? = some (p, f) → (∀ (j : Nat) (q : List Bytes), (opens t)[j]? = some (q, f) → j = i) →
      (after.data f).bytes = writtenBy i t := by
  induction h with
  | start => intro i p f h; cases h
  | @other fs' fs'' t h hot ih =>
    intro i p f hi hu
    rw [hoth _ _ _ hot p f (List.mem_of_getElem? hi)]
    exact ih ho i p f hi hu
  | @call fs' fs'' t c a h hd ih =>
    intro i p f hi hu
    rw [opens_append] at hi hu
    have hall := ho t c a [] rfl
    rcases hd.data f with ⟨p', hop, hdata⟩ | ⟨i', off, s, k, rfl, rfl, hdata⟩ | ⟨hnw, hno, hdata⟩
    · -- just opened
      have : (opens t).length = i := hu _ p' (by rw [hop, List.getElem?_append_right (Nat.le_refl _)]; simp)
      subst this
      rw [hdata, writtenBy_append, ho.init.unopened (Nat.le_refl _), List.nil_append]
      cases c <;> cases a <;> first | rfl | (simp [opens] at hop)
    · -- written to
      have e0 : opens [(XCall.write i' f off s, XAns.wrote k)] = [] := rfl
      rw [e0, List.append_nil] at hi hu
      obtain ⟨q, mt, b, _, h1, h2, h3, h4⟩ := hall
      have := hu _ _ h1
      subst this
      have ih := ih ho.init i' p f hi hu
      rw [hdata, writtenBy_append, writtenBy_write, if_pos rfl, ih, h2, writeAt_end]
    · rw [hdata]
      have hw : writtenBy i (t ++ [(c, a)]) = writtenBy i t := by
        rw [writtenBy_append]
        cases c with
        | write j f' off s =>
          cases a with
          | wrote k =>
            rw [writtenBy_write]
            by_cases hj : j = i
            · subst hj
              obtain ⟨q, mt, b, _, h1, h2, h3, h4⟩ := hall
              have e0 : opens [(XCall.write j f' off s, XAns.wrote k)] = [] := rfl
              rw [e0, List.append_nil] at hi
              rw [hi] at h1
              cases h1
              exact absurd rfl (hnw j off s k rfl)
            · rw [if_neg hj, List.append_nil]
          | _ => exact List.append_nil _
        | _ => cases a <;> exact List.append_nil _
      rw [hw]
      have hlt : i < (opens t).length := by
        refine Classical.byContradiction (fun hge => ?_)
        rw [List.getElem?_append_right (by omega)] at hi
        have hsing : ∃ x, opens [(c, a)] = [x] ∨ opens [(c, a)] = [] := by
          cases c <;> cases a <;> first | exact ⟨_, .inl rfl⟩ | exact ⟨([], 0), .inr rfl⟩
        obtain ⟨x, hx | hx⟩ := hsing
        · rw [hx] at hi
          have hz : i - (opens t).length = 0 := by
            refine Classical.byContradiction (fun hz => ?_)
            rw [List.getElem?_eq_none (by simp; omega)] at hi
            cases hi
          rw [hz] at hi
          simp at hi
          subst hi
          exact hno p hx
        · rw [hx] at hi; cases hi
      refine ih ho.init i p f (by rw [List.getElem?_append_left hlt] at hi; exact hi) (fun j q hj => hu j q ?_)
      rw [List.getElem?_append_left (List.getElem?_eq_some_iff.mp hj).1]
      exact hj

/-! ## Every interference -/

/-- the file system after the calls, when the others do `acts n` after the first `n` calls -/
def sharedState (acts : Nat → FS → FS) (fs0 : FS) (t : XTrace) : FS × Nat :=
  t.foldl (fun s x => (acts (s.2 + 1) (s.1.afterCall x), s.2 + 1)) (acts 0 fs0, 0)

/-- the environment that answers as this file system does -/
def sharedEnv (acts : Nat → FS → FS) (sched : XTrace → List (Nat × WriteRes)) (fs0 : FS) : CallEnv where
  answer past c :=
    match c.run (sharedState acts fs0 past).1 with
    | .ok (a, _) => a
    | .error e => .err e
  sched := sched

/-- a property of the calls that is kept by every call -/
structure TraceInv (env : CallEnv) (J : XTrace → Prop) : Prop where
  call : ∀ t c, J t → J (t ++ [(c, env.answer t c)])
  failed : ∀ t i f off s, J t → J (t ++ [(.write i f off s, .err .other)])
  wrote : ∀ t i f off s k, J t → J (t ++ [(.write i f off s, .wrote k)])

section
variable {env : CallEnv} {J : XTrace → Prop}

theorem TraceInv.steps (h : TraceInv env J) : ∀ (l : List (Nat × WriteRes)) (w : CWorld), J w.trace → J (w.steps l).trace := by
  intro l
  induction l with
  | nil => intro w hw; exact hw
  | cons x l ih =>
    intro w hw
    refine ih (w.step x) ?_
    unfold CWorld.step
    split
    · exact hw
    · split
      · exact hw
      · split
        · exact h.failed _ _ _ _ _ hw
        · exact h.wrote _ _ _ _ _ _ hw

theorem TraceInv.one (h : TraceInv env J) (c : XCall) (w : CWorld) (hw : J w.trace) : J (w.call env c).1.trace :=
  h.call _ _ (h.steps _ w hw)

theorem TraceInv.unit (h : TraceInv env J) (c : XCall) (w : CWorld) (hw : J w.trace) : J (w.callUnit env c).1.trace := by
  have := h.one c w hw
  unfold CWorld.callUnit
  revert this
  cases w.call env c with
  | mk w' a => intro h; cases a <;> exact h

theorem TraceInv.open (h : TraceInv env J) (c : XCall) (w : CWorld) (hw : J w.trace) : J (w.callOpen env c).1.trace := by
  have := h.one c w hw
  unfold CWorld.callOpen
  revert this
  cases w.call env c with
  | mk w' a => intro h; cases a <;> exact h

theorem TraceInv.time (h : TraceInv env J) (c : XCall) (w : CWorld) (hw : J w.trace) : J (w.callTime env c).1.trace := by
  have := h.one c w hw
  unfold CWorld.callTime
  revert this
  cases w.call env c with
  | mk w' a => intro h; cases a <;> exact h

theorem TraceInv.isDir (h : TraceInv env J) (p : List Bytes) (w : CWorld) (hw : J w.trace) : J (w.callIsDir env p).1.trace := by
  have := h.one (.isDir p) w hw
  unfold CWorld.callIsDir
  revert this
  cases w.call env (.isDir p) with
  | mk w' a => intro h; cases a <;> exact h

theorem TraceInv.createDirAll (h : TraceInv env J) : ∀ (n : Nat) (w : CWorld) (p : List Bytes), J w.trace →
    J (CWorld.createDirAll env n w p).1.trace := by
  intro n
  induction n with
  | zero => intro w p hw; exact hw
  | succ n ih =>
    intro w p hw
    have hchk : ∀ (w : CWorld) (e : HErr), J w.trace → J (match w.callIsDir env p with
        | (w, true) => (w, .ok ())
        | (w, false) => (w, .error e) : CWorld × Except HErr Unit).1.trace := by
      intro w e hw
      have := h.isDir p w hw
      revert this
      cases w.callIsDir env p with
      | mk w' b => intro h; cases b <;> exact h
    have h1 := h.unit (.mkdir p) w hw
    simp only [CWorld.createDirAll]
    revert h1
    cases w.callUnit env (.mkdir p) with
    | mk w1 r1 =>
      intro h1
      cases r1 with
      | ok u => exact h1
      | error e =>
        cases e with
        | notFound =>
          simp only
          split
          · exact h1
          · have h2 := ih w1 (parentOf p) h1
            revert h2
            cases CWorld.createDirAll env n w1 (parentOf p) with
            | mk w2 r2 =>
              intro h2
              cases r2 with
              | error e => exact h2
              | ok u =>
                have h3 := h.unit (.mkdir p) w2 h2
                simp only
                revert h3
                cases w2.callUnit env (.mkdir p) with
                | mk w3 r3 =>
                  intro h3
                  cases r3 with
                  | ok u => exact h3
                  | error e => exact hchk w3 e h3
        | _ => exact hchk w1 _ h1

theorem TraceInv.mkdirs (h : TraceInv env J) (w : CWorld) (p : List Bytes) (hw : J w.trace) : J (w.mkdirs env p).1.trace := by
  have := h.createDirAll (p.length + 1) w p hw
  unfold CWorld.mkdirs
  revert this
  cases CWorld.createDirAll env (p.length + 1) w p with
  | mk w' r => intro h; cases r <;> exact h

theorem TraceInv.writeFile (h : TraceInv env J) (mode : Overwrite) (w : CWorld) (p : List Bytes) (mt : Nat) (b : Bytes) (hw : J w.trace) :
    J (w.writeFile env mode p mt b).1.trace := by
  have hre : ∀ w : CWorld, J w.trace → J (match w.callOpen env (.openTrunc p) with
      | (w, .error e) => (w, .error (.host e))
      | (w, .ok f) => (w.spawn f b, .ok ()) : CWorld × Except EErr Unit).1.trace := by
    intro w hw
    have := h.open (.openTrunc p) w hw
    revert this
    cases w.callOpen env (.openTrunc p) with
    | mk w' r => intro h; cases r <;> exact h
  have h1 := h.open (.openNew p) w hw
  unfold CWorld.writeFile
  simp only
  revert h1
  cases w.callOpen env (.openNew p) with
  | mk w1 r =>
    intro h1
    cases r with
    | ok f => exact h1
    | error e =>
      cases e with
      | «exists» =>
        cases mode with
        | newer =>
          have h2 := h.time (.modified true p) w1 h1
          simp only
          revert h2
          cases w1.callTime env (.modified true p) with
          | mk w2 r2 =>
            intro h2
            cases r2 with
            | error e => exact h2
            | ok t =>
              simp only
              cases newTime mt with
              | none => exact h2
              | some x =>
                simp only
                split
                · exact hre w2 h2
                · exact h2
        | overwrite => exact hre w1 h1
        | _ => exact h1
      | _ => exact h1

theorem TraceInv.writeLink (h : TraceInv env J) (mode : Overwrite) (w : CWorld) (p : List Bytes) (mt : Nat) (tg : Bytes) (hw : J w.trace) :
    J (w.writeLink env mode p mt tg).1.trace := by
  have hre : ∀ w : CWorld, J w.trace → J (match w.callUnit env (.unlink p) with
      | (w, .error e) => (w, .error (.host e))
      | (w, .ok ()) =>
        match w.callUnit env (.symlink tg p) with
        | (w, .error e) => (w, .error (.host e))
        | (w, .ok ()) => (w, .ok ()) : CWorld × Except EErr Unit).1.trace := by
    intro w hw
    have := h.unit (.unlink p) w hw
    revert this
    cases w.callUnit env (.unlink p) with
    | mk w' r =>
      intro h1
      cases r with
      | error e => exact h1
      | ok u =>
        have h2 := h.unit (.symlink tg p) w' h1
        simp only
        revert h2
        cases w'.callUnit env (.symlink tg p) with
        | mk w2 r2 => intro h2; cases r2 <;> exact h2
  have h1 := h.unit (.symlink tg p) w hw
  unfold CWorld.writeLink
  simp only
  revert h1
  cases w.callUnit env (.symlink tg p) with
  | mk w1 r =>
    intro h1
    cases r with
    | ok f => exact h1
    | error e =>
      cases e with
      | «exists» =>
        cases mode with
        | newer =>
          have h2 := h.time (.modified false p) w1 h1
          simp only
          revert h2
          cases w1.callTime env (.modified false p) with
          | mk w2 r2 =>
            intro h2
            cases r2 with
            | error e => exact h2
            | ok t =>
              simp only
              cases newTime mt with
              | none => exact h2
              | some x =>
                simp only
                split
                · exact hre w2 h2
                · exact h2
        | overwrite => exact hre w1 h1
        | _ => exact h1
      | _ => exact h1

theorem TraceInv.extract (h : TraceInv env J) (h0 : J []) (cfg : XCfg) (depth : Nat) (rg : Range) (last : List (Nat × WriteRes)) :
    J (cfg.callExtract env depth rg last).1.trace := by
  have hk : (callExtractor cfg env).KeepsFor cfg.a extractBuilder (fun c => J c.w.trace) := by
    constructor
    · intro c i r d _ hc
      simp only [callExtractor, XCfg.onEnterC]
      split
      · exact hc
      · have := h.mkdirs c.w (cfg.absPath (RPath.push c.cur d)) hc
        revert this
        cases c.w.mkdirs env (cfg.absPath (RPath.push c.cur d)) with
        | mk w' r => intro h; cases r <;> exact h
    · intro c d hc; exact hc
    · intro c i f _ hc
      simp only [callExtractor, XCfg.onFileC]
      split
      · exact hc
      · split
        · exact hc
        · exact hc
        · exact h.writeFile _ _ _ _ _ hc
    · intro c i l _ hc
      simp only [callExtractor, XCfg.onLinkC]
      split
      · exact hc
      · exact h.writeLink _ _ _ _ _ hc
  have hw := Archive.walkFrom_invFor hk (fun c hc => h.mkdirs c.w cfg.base hc) (fun c hc => hc) depth rg ⟨[], ⟨[], [], true⟩⟩ h0
  simp only [XCfg.callExtract]
  revert hw
  cases cfg.a.walkFrom extractBuilder (callExtractor cfg env) depth rg (⟨[], ⟨[], [], true⟩⟩ : CCtx) with
  | mk c r =>
    intro hw
    have := h.steps last c.w hw
    cases r <;> exact this

end

theorem sharedState_snoc (acts : Nat → FS → FS) (fs0 : FS) (t : XTrace) (x : XCall × XAns) :
    sharedState acts fs0 (t ++ [x]) = (acts (t.length + 1) ((sharedState acts fs0 t).1.afterCall x), t.length + 1) := by
  have hlen : ∀ t, (sharedState acts fs0 t).2 = t.length := by
    intro t
    unfold sharedState
    suffices ∀ (l : XTrace) (s : FS × Nat), (l.foldl (fun s x => (acts (s.2 + 1) (s.1.afterCall x), s.2 + 1)) s).2 = s.2 + l.length by
      rw [this]; simp
    intro l
    induction l with
    | nil => intro s; rfl
    | cons y l ih => intro s; simp only [List.foldl_cons, ih, List.length_cons]; omega
  have h1 := hlen t
  unfold sharedState at h1 ⊢
  rw [List.foldl_append]
  simp only [List.foldl_cons, List.foldl_nil]
  rw [h1]

/-- every interference is a run beside others -/
theorem beside_any (cfg : XCfg) (acts : Nat → FS → FS) (sched : XTrace → List (Nat × WriteRes)) (fs0 : FS) (depth : Nat) (rg : Range)
    (last : List (Nat × WriteRes)) :
    let t := (cfg.callExtract (sharedEnv acts sched fs0) depth rg last).1.trace
    Beside (fun t g g' => g' = acts t.length g) fs0 t (sharedState acts fs0 t).1 := by
  have hstep : ∀ t c a, Beside (fun t g g' => g' = acts t.length g) fs0 t (sharedState acts fs0 t).1 →
      Does c a (sharedState acts fs0 t).1 ((sharedState acts fs0 t).1.afterCall (c, a)) →
      Beside (fun t g g' => g' = acts t.length g) fs0 (t ++ [(c, a)]) (sharedState acts fs0 (t ++ [(c, a)])).1 := by
    intro t c a h hd
    rw [sharedState_snoc]
    refine .other (.call h hd) ?_
    simp
  refine TraceInv.extract (env := sharedEnv acts sched fs0)
    (J := fun t => Beside (fun t g g' => g' = acts t.length g) fs0 t (sharedState acts fs0 t).1) ⟨?_, ?_, ?_⟩ ?_ cfg depth rg last
  · intro t c h
    refine hstep t c _ h ?_
    simp only [sharedEnv]
    cases hr : c.run (sharedState acts fs0 t).1 with
    | error e =>
      refine .inl ⟨⟨e, rfl⟩, ?_⟩
      cases c <;> rfl
    | ok y =>
      obtain ⟨a, g'⟩ := y
      simp only
      rw [(XCall.run_ok hr).2.2]
      exact .inr (.inl hr)
  · intro t i f off s h
    exact hstep t _ _ h (.inl ⟨⟨_, rfl⟩, rfl⟩)
  · intro t i f off s k h
    exact hstep t _ _ h (.inr (.inr ⟨i, f, off, s, k, rfl, rfl, rfl⟩))
  · exact .other (.start fs0) rfl

end Arx
