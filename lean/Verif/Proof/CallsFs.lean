import Verif.Spec.Calls
import Verif.Proof.ExtractGen
/-!
# The extraction on a file system is an instance of the extraction by calls
-/
namespace Arx

/-- the number of calls of the walking thread -/
def ticks (t : XTrace) : Nat := (t.filter (fun x => match x.1 with | .write _ _ _ _ => false | _ => true)).length

/-- the file system after the calls -/
def replay (fs : FS) (t : XTrace) : FS := t.foldl FS.afterCall fs

/-- the environment that answers as a file system does, with the failures and the scheduling of `env` -/
def fsEnv (env : Env) (fs0 : FS) : CallEnv where
  answer past c := if env.fault (ticks past) then .err .other
    else match c.run (replay fs0 past) with
      | .ok (a, _) => a
      | .error e => .err e
  sched past := env.sched (ticks past)

/-- the two states agree -/
structure Same (fs0 : FS) (w : World) (cw : CWorld) : Prop where
  fs : w.fs = replay fs0 cw.trace
  tasks : w.tasks = cw.tasks
  flag : w.okFlag = cw.okFlag
  tick : w.tick = ticks cw.trace
  alone : AloneOn fs0 cw.trace w.fs

theorem ticks_append (s t : XTrace) : ticks (s ++ t) = ticks s + ticks t := by simp [ticks]

theorem replay_snoc (fs : FS) (t : XTrace) (x : XCall × XAns) : replay fs (t ++ [x]) = (replay fs t).afterCall x := by
  simp [replay]

theorem take_take_length (s : Bytes) (k : Nat) : s.take (s.take k).length = s.take k := by
  rw [List.take_eq_take_iff, List.length_take]; omega

section
variable {fs0 : FS}

theorem Same.step {w : World} {cw : CWorld} (h : Same fs0 w cw) (x : Nat × WriteRes) : Same fs0 (w.step x) (cw.step x) := by
  unfold World.step CWorld.step
  rw [← h.tasks]
  cases w.tasks[x.1]? with
  | none => exact h
  | some t =>
    simp only
    by_cases hst : t.st ≠ .running
    · rw [if_pos hst, if_pos hst]; exact h
    · rw [if_neg hst, if_neg hst]
      cases x.2 with
      | err =>
        refine ⟨?_, rfl, rfl, ?_, ?_⟩
        · rw [replay_snoc]; exact h.fs
        · rw [ticks_append]; exact h.tick
        · exact .call h.alone (.inl ⟨⟨_, rfl⟩, rfl⟩)
      | wrote k =>
        refine ⟨?_, ?_, h.flag, ?_, ?_⟩
        · rw [replay_snoc, ← h.fs]
          simp only [FS.afterCall, take_take_length]
        · rfl
        · rw [ticks_append]; exact h.tick
        · refine .call h.alone (.inr (.inr ⟨_, _, _, _, _, rfl, rfl, ?_⟩))
          rw [take_take_length]

theorem Same.steps {w : World} : ∀ (l : List (Nat × WriteRes)) {w : World} {cw : CWorld}, Same fs0 w cw →
    Same fs0 (w.steps l) (cw.steps l) := by
  intro l
  induction l with
  | nil => intro w cw h; exact h
  | cons x l ih => intro w cw h; exact ih (h.step x)

variable {env : Env}

/-- a call of the walking thread -/
theorem Same.sys {w : World} {cw : CWorld} (h : Same fs0 w cw) {α : Type} {op : FS → Except HErr (α × FS)} {c : XCall} {mk : α → XAns}
    (hrun : ∀ fs, c.run fs = (op fs).map (fun r => (mk r.1, r.2))) (hmk : ∀ x e, mk x ≠ .err e)
    (hc : ∀ i f o s, c ≠ .write i f o s) :
    Same fs0 (w.sys env op).1 (cw.call (fsEnv env fs0) c).1 ∧
    (cw.call (fsEnv env fs0) c).2 = match (w.sys env op).2 with
      | .ok x => mk x
      | .error e => .err e := by
  have h1 : Same fs0 (w.steps (env.sched w.tick)) (cw.steps ((fsEnv env fs0).sched cw.trace)) := by
    have : (fsEnv env fs0).sched cw.trace = env.sched w.tick := by rw [h.tick]; rfl
    rw [this]
    exact Same.steps (w := w) _ h
  have htick : (w.steps (env.sched w.tick)).tick = w.tick := (World.steps_fs (env.sched w.tick) w).2.2.2.1
  have hans : (fsEnv env fs0).answer (cw.steps ((fsEnv env fs0).sched cw.trace)).trace c =
      if env.fault w.tick then .err .other else match c.run (w.steps (env.sched w.tick)).fs with
        | .ok (a, _) => a
        | .error e => .err e := by
    have e1 := h1.tick
    have e2 := h1.fs
    rw [htick] at e1
    rw [e2, e1]
    rfl
  have htk : ∀ a, ticks [(c, a)] = 1 := by
    intro a
    cases c with
    | write i f o s => exact absurd rfl (hc i f o s)
    | _ => rfl
  unfold CWorld.call World.sys World.pre
  simp only [hans]
  by_cases hf : env.fault w.tick = true
  · rw [if_pos hf, if_pos hf]
    refine ⟨⟨?_, h1.tasks, h1.flag, ?_, ?_⟩, rfl⟩
    · rw [replay_snoc, ← h1.fs]; rfl
    · rw [ticks_append, htk, ← h1.tick, htick]
    · exact .call h1.alone (.inl ⟨⟨_, rfl⟩, rfl⟩)
  · rw [if_neg hf, if_neg hf]
    have hr := hrun (w.steps (env.sched w.tick)).fs
    revert hr
    cases hop : op (w.steps (env.sched w.tick)).fs with
    | error e =>
      intro hr
      have hr : c.run (w.steps (env.sched w.tick)).fs = .error e := hr
      rw [hr]
      refine ⟨⟨?_, h1.tasks, h1.flag, ?_, ?_⟩, rfl⟩
      · rw [replay_snoc, ← h1.fs]; rfl
      · rw [ticks_append, htk, ← h1.tick, htick]
      · exact .call h1.alone (.inl ⟨⟨_, rfl⟩, rfl⟩)
    | ok y =>
      obtain ⟨x, fs'⟩ := y
      intro hr
      have hr : c.run (w.steps (env.sched w.tick)).fs = .ok (mk x, fs') := hr
      rw [hr]
      have haft : FS.afterCall (w.steps (env.sched w.tick)).fs (c, mk x) = fs' := by
        have hx := hmk x
        generalize mk x = a at hr hx
        cases c with
        | write i f o s => exact absurd rfl (hc i f o s)
        | _ =>
          cases a <;> first
            | exact absurd rfl (hx _)
            | simp only [FS.afterCall, hr]
      refine ⟨⟨?_, h1.tasks, h1.flag, ?_, ?_⟩, rfl⟩
      · simp only
        rw [replay_snoc, ← h1.fs, haft]
      · rw [ticks_append, htk, ← h1.tick, htick]
      · exact .call h1.alone (.inr (.inl hr))

theorem Same.unit {w : World} {cw : CWorld} (h : Same fs0 w cw) {op : FS → Except HErr (Unit × FS)} {c : XCall}
    (hrun : ∀ fs, c.run fs = (op fs).map (fun r => (.done, r.2))) (hc : ∀ i f o s, c ≠ .write i f o s) :
    Same fs0 (w.sys env op).1 (cw.callUnit (fsEnv env fs0) c).1 ∧ (cw.callUnit (fsEnv env fs0) c).2 = (w.sys env op).2 := by
  have := h.sys (env := env) (mk := fun _ => .done) hrun (by intro x e h; cases h) hc
  unfold CWorld.callUnit
  revert this
  cases cw.call (fsEnv env fs0) c with
  | mk cw' a =>
    cases w.sys env op with
    | mk w' r =>
      rintro ⟨h1, h2⟩
      cases r <;> (simp only at h2; subst h2; exact ⟨h1, rfl⟩)

theorem Same.open {w : World} {cw : CWorld} (h : Same fs0 w cw) {op : FS → Except HErr (Nat × FS)} {c : XCall}
    (hrun : ∀ fs, c.run fs = (op fs).map (fun r => (.opened r.1, r.2))) (hc : ∀ i f o s, c ≠ .write i f o s) :
    Same fs0 (w.sys env op).1 (cw.callOpen (fsEnv env fs0) c).1 ∧ (cw.callOpen (fsEnv env fs0) c).2 = (w.sys env op).2 := by
  have := h.sys (env := env) (mk := fun x => .opened x) hrun (by intro x e h; cases h) hc
  unfold CWorld.callOpen
  revert this
  cases cw.call (fsEnv env fs0) c with
  | mk cw' a =>
    cases w.sys env op with
    | mk w' r =>
      rintro ⟨h1, h2⟩
      cases r <;> (simp only at h2; subst h2; exact ⟨h1, rfl⟩)

theorem Same.time {w : World} {cw : CWorld} (h : Same fs0 w cw) {op : FS → Except HErr (Int × FS)} {c : XCall}
    (hrun : ∀ fs, c.run fs = (op fs).map (fun r => (.time r.1, r.2))) (hc : ∀ i f o s, c ≠ .write i f o s) :
    Same fs0 (w.sys env op).1 (cw.callTime (fsEnv env fs0) c).1 ∧ (cw.callTime (fsEnv env fs0) c).2 = (w.sys env op).2 := by
  have := h.sys (env := env) (mk := fun x => .time x) hrun (by intro x e h; cases h) hc
  unfold CWorld.callTime
  revert this
  cases cw.call (fsEnv env fs0) c with
  | mk cw' a =>
    cases w.sys env op with
    | mk w' r =>
      rintro ⟨h1, h2⟩
      cases r <;> (simp only at h2; subst h2; exact ⟨h1, rfl⟩)

theorem Same.isDir {w : World} {cw : CWorld} (h : Same fs0 w cw) (p : List Bytes) :
    Same fs0 (w.isDir env p).1 (cw.callIsDir (fsEnv env fs0) p).1 ∧ (cw.callIsDir (fsEnv env fs0) p).2 = (w.isDir env p).2 := by
  have := h.sys (env := env) (op := fun fs => .ok (fs.isDir p, fs)) (c := .isDir p) (mk := fun x => .bool x) (fun _ => rfl)
    (by intro x e h; cases h) (by intro i f o s h; cases h)
  unfold CWorld.callIsDir World.isDir
  revert this
  cases cw.call (fsEnv env fs0) (.isDir p) with
  | mk cw' a =>
    cases w.sys env (fun fs => .ok (fs.isDir p, fs)) with
    | mk w' r =>
      rintro ⟨h1, h2⟩
      cases r <;> (simp only at h2; subst h2; exact ⟨h1, rfl⟩)

/-- two results agree -/
def SameR {α : Type} (fs0 : FS) (x : World × α) (y : CWorld × α) : Prop := Same fs0 x.1 y.1 ∧ y.2 = x.2

theorem Same.createDirAll : ∀ (n : Nat) {w : World} {cw : CWorld} (p : List Bytes), Same fs0 w cw →
    SameR fs0 (World.createDirAll env n w p) (CWorld.createDirAll (fsEnv env fs0) n cw p) := by
  intro n
  induction n with
  | zero => intro w cw p h; exact ⟨h, rfl⟩
  | succ n ih =>
    intro w cw p h
    have hchk : ∀ {w : World} {cw : CWorld} (e : HErr), Same fs0 w cw → SameR fs0
        (match w.isDir env p with
          | (w, true) => (w, .ok ())
          | (w, false) => (w, .error e) : World × Except HErr Unit)
        (match cw.callIsDir (fsEnv env fs0) p with
          | (w, true) => (w, .ok ())
          | (w, false) => (w, .error e) : CWorld × Except HErr Unit) := by
      intro w cw e h
      have := h.isDir (env := env) p
      revert this
      cases w.isDir env p with
      | mk w1 b =>
        cases cw.callIsDir (fsEnv env fs0) p with
        | mk c1 b' =>
          rintro ⟨h1, h2⟩
          simp only at h2
          subst h2
          cases b' <;> exact ⟨h1, rfl⟩
    have h1 := h.unit (env := env) (op := fun fs => fs.mkdir p) (c := .mkdir p) (fun _ => rfl) (by intro i f o s h; cases h)
    simp only [World.createDirAll, CWorld.createDirAll]
    revert h1
    cases w.sys env (fun fs => fs.mkdir p) with
    | mk w1 r1 =>
      cases cw.callUnit (fsEnv env fs0) (.mkdir p) with
      | mk c1 s1 =>
        rintro ⟨h1, h2⟩
        simp only at h2
        subst h2
        cases s1 with
        | ok u => exact ⟨h1, rfl⟩
        | error e =>
          cases e with
          | notFound =>
            simp only
            by_cases hp : p = []
            · rw [if_pos hp, if_pos hp]; exact ⟨h1, rfl⟩
            · rw [if_neg hp, if_neg hp]
              have h3 := ih (parentOf p) h1
              revert h3
              cases World.createDirAll env n w1 (parentOf p) with
              | mk w2 r2 =>
                cases CWorld.createDirAll (fsEnv env fs0) n c1 (parentOf p) with
                | mk c2 s2 =>
                  rintro ⟨h3, h4⟩
                  simp only at h4
                  subst h4
                  cases s2 with
                  | error e => exact ⟨h3, rfl⟩
                  | ok u =>
                    simp only
                    have h5 := Same.unit (env := env) h3 (op := fun fs => fs.mkdir p) (c := .mkdir p) (fun _ => rfl) (by intro i f o s h; cases h)
                    simp only at h5
                    revert h5
                    cases w2.sys env (fun fs => fs.mkdir p) with
                    | mk w3 r3 =>
                      cases c2.callUnit (fsEnv env fs0) (.mkdir p) with
                      | mk c3 s3 =>
                        rintro ⟨h5, h6⟩
                        simp only at h6
                        subst h6
                        cases s3 with
                        | ok u => exact ⟨h5, rfl⟩
                        | error e => exact hchk e h5
          | _ => exact hchk _ h1

variable {cfg : XCfg}

theorem Same.mkdirs {w : World} {cw : CWorld} (p : List Bytes) (h : Same fs0 w cw) :
    SameR fs0 (cfg.mkdirs w p) (cw.mkdirs (fsEnv cfg.env fs0) p) := by
  have := Same.createDirAll (env := cfg.env) (p.length + 1) p h
  unfold XCfg.mkdirs CWorld.mkdirs
  revert this
  cases World.createDirAll cfg.env (p.length + 1) w p with
  | mk w1 r =>
    cases CWorld.createDirAll (fsEnv cfg.env fs0) (p.length + 1) cw p with
    | mk c1 s =>
      rintro ⟨h1, h2⟩
      simp only at h2
      subst h2
      cases s <;> exact ⟨h1, rfl⟩

theorem Same.spawn {w : World} {cw : CWorld} (h : Same fs0 w cw) (f : Nat) (b : Bytes) : Same fs0 (w.spawn f b) (cw.spawn f b) :=
  ⟨h.fs, by simp only [World.spawn, CWorld.spawn, h.tasks], h.flag, h.tick, h.alone⟩

theorem Same.writeFile {w : World} {cw : CWorld} (h : Same fs0 w cw) (p : List Bytes) (mt : Nat) (b : Bytes) :
    SameR fs0 (cfg.writeFile w p mt b) (cw.writeFile (fsEnv cfg.env fs0) cfg.mode p mt b) := by
  have hre : ∀ {w : World} {cw : CWorld}, Same fs0 w cw → SameR fs0
      (match w.sys cfg.env (fun fs => fs.openTrunc p) with
        | (w, .error e) => (w, .error (.host e))
        | (w, .ok ino) => (w.spawn ino b, .ok ()) : World × Except EErr Unit)
      (match cw.callOpen (fsEnv cfg.env fs0) (.openTrunc p) with
        | (w, .error e) => (w, .error (.host e))
        | (w, .ok f) => (w.spawn f b, .ok ()) : CWorld × Except EErr Unit) := by
    intro w cw h
    have := h.open (env := cfg.env) (op := fun fs => fs.openTrunc p) (c := .openTrunc p) (fun _ => rfl) (by intro i f o s h; cases h)
    revert this
    cases w.sys cfg.env (fun fs => fs.openTrunc p) with
    | mk w1 r =>
      cases cw.callOpen (fsEnv cfg.env fs0) (.openTrunc p) with
      | mk c1 s =>
        rintro ⟨h1, h2⟩
        simp only at h2
        subst h2
        cases s with
        | error e => exact ⟨h1, rfl⟩
        | ok f => exact ⟨h1.spawn f b, rfl⟩
  have h1 := h.open (env := cfg.env) (op := fun fs => fs.createNew p) (c := .openNew p) (fun _ => rfl) (by intro i f o s h; cases h)
  unfold XCfg.writeFile CWorld.writeFile
  simp only
  revert h1
  cases w.sys cfg.env (fun fs => fs.createNew p) with
  | mk w1 r =>
    cases cw.callOpen (fsEnv cfg.env fs0) (.openNew p) with
    | mk c1 s =>
      rintro ⟨h1, h2⟩
      simp only at h2
      subst h2
      cases s with
      | ok f => exact ⟨h1.spawn f b, rfl⟩
      | error e =>
        cases e with
        | «exists» =>
          cases cfg.mode with
          | skip => exact ⟨h1, rfl⟩
          | warn => exact ⟨h1, rfl⟩
          | error => exact ⟨h1, rfl⟩
          | overwrite => exact hre h1
          | newer =>
            simp only
            have h3 := Same.time (env := cfg.env) h1 (op := fun fs => fs.mtime true p) (c := .modified true p) (fun _ => rfl) (by intro i f o s h; cases h)
            simp only at h3
            revert h3
            cases w1.sys cfg.env (fun fs => fs.mtime true p) with
            | mk w2 r2 =>
              cases c1.callTime (fsEnv cfg.env fs0) (.modified true p) with
              | mk c2 s2 =>
                rintro ⟨h3, h4⟩
                simp only at h4
                subst h4
                cases s2 with
                | error e => exact ⟨h3, rfl⟩
                | ok t =>
                  simp only
                  cases newTime mt with
                  | none => exact ⟨h3, rfl⟩
                  | some x =>
                    simp only
                    split
                    · exact hre h3
                    · exact ⟨h3, rfl⟩
        | _ => exact ⟨h1, rfl⟩

theorem Same.writeLink {w : World} {cw : CWorld} (h : Same fs0 w cw) (p : List Bytes) (mt : Nat) (t : Bytes) :
    SameR fs0 (cfg.writeLink w p mt t) (cw.writeLink (fsEnv cfg.env fs0) cfg.mode p mt t) := by
  have hre : ∀ {w : World} {cw : CWorld}, Same fs0 w cw → SameR fs0
      (match w.sys cfg.env (fun fs => fs.removeFile p) with
        | (w, .error e) => (w, .error (.host e))
        | (w, .ok ()) =>
          match w.sys cfg.env (fun fs => fs.symlink t p) with
          | (w, .error e) => (w, .error (.host e))
          | (w, .ok ()) => (w, .ok ()) : World × Except EErr Unit)
      (match cw.callUnit (fsEnv cfg.env fs0) (.unlink p) with
        | (w, .error e) => (w, .error (.host e))
        | (w, .ok ()) =>
          match w.callUnit (fsEnv cfg.env fs0) (.symlink t p) with
          | (w, .error e) => (w, .error (.host e))
          | (w, .ok ()) => (w, .ok ()) : CWorld × Except EErr Unit) := by
    intro w cw h
    have := h.unit (env := cfg.env) (op := fun fs => fs.removeFile p) (c := .unlink p) (fun _ => rfl) (by intro i f o s h; cases h)
    revert this
    cases w.sys cfg.env (fun fs => fs.removeFile p) with
    | mk w1 r =>
      cases cw.callUnit (fsEnv cfg.env fs0) (.unlink p) with
      | mk c1 s =>
        rintro ⟨h1, h2⟩
        simp only at h2
        subst h2
        cases s with
        | error e => exact ⟨h1, rfl⟩
        | ok u =>
          simp only
          have h3 := Same.unit (env := cfg.env) h1 (op := fun fs => fs.symlink t p) (c := .symlink t p) (fun _ => rfl) (by intro i f o s h; cases h)
          simp only at h3
          revert h3
          cases w1.sys cfg.env (fun fs => fs.symlink t p) with
          | mk w2 r2 =>
            cases c1.callUnit (fsEnv cfg.env fs0) (.symlink t p) with
            | mk c2 s2 =>
              rintro ⟨h3, h4⟩
              simp only at h4
              subst h4
              cases s2 <;> exact ⟨h3, rfl⟩
  have h1 := h.unit (env := cfg.env) (op := fun fs => fs.symlink t p) (c := .symlink t p) (fun _ => rfl) (by intro i f o s h; cases h)
  unfold XCfg.writeLink CWorld.writeLink
  simp only
  revert h1
  cases w.sys cfg.env (fun fs => fs.symlink t p) with
  | mk w1 r =>
    cases cw.callUnit (fsEnv cfg.env fs0) (.symlink t p) with
    | mk c1 s =>
      rintro ⟨h1, h2⟩
      simp only at h2
      subst h2
      cases s with
      | ok f => exact ⟨h1, rfl⟩
      | error e =>
        cases e with
        | «exists» =>
          cases cfg.mode with
          | skip => exact ⟨h1, rfl⟩
          | warn => exact ⟨h1, rfl⟩
          | error => exact ⟨h1, rfl⟩
          | overwrite => exact hre h1
          | newer =>
            simp only
            have h3 := Same.time (env := cfg.env) h1 (op := fun fs => fs.mtime false p) (c := .modified false p) (fun _ => rfl) (by intro i f o s h; cases h)
            simp only at h3
            revert h3
            cases w1.sys cfg.env (fun fs => fs.mtime false p) with
            | mk w2 r2 =>
              cases c1.callTime (fsEnv cfg.env fs0) (.modified false p) with
              | mk c2 s2 =>
                rintro ⟨h3, h4⟩
                simp only at h4
                subst h4
                cases s2 with
                | error e => exact ⟨h3, rfl⟩
                | ok t =>
                  simp only
                  cases newTime mt with
                  | none => exact ⟨h3, rfl⟩
                  | some x =>
                    simp only
                    split
                    · exact hre h3
                    · exact ⟨h3, rfl⟩
        | _ => exact ⟨h1, rfl⟩

end

/-! ## Walks of related operators -/

section
variable {E C C' F L D : Type} {op : Operator E C F L D} {op' : Operator E C' F L D} {R : C → C' → Prop}

def Agree {E : Type} {α : Type} (R : C → C' → Prop) (x : C × Except E α) (y : C' × Except E α) : Prop := R x.1 y.1 ∧ y.2 = x.2

structure Operator.Related (op : Operator E C F L D) (op' : Operator E C' F L D) (R : C → C' → Prop) : Prop where
  start : ∀ c c', R c c' → Agree R (op.onStart c) (op'.onStart c')
  stop : ∀ c c', R c c' → Agree R (op.onStop c) (op'.onStop c')
  enter : ∀ c c' d, R c c' → Agree R (op.onEnter c d) (op'.onEnter c' d)
  exit : ∀ c c' d, R c c' → Agree R (op.onExit c d) (op'.onExit c' d)
  file : ∀ c c' f, R c c' → Agree R (op.onFile c f) (op'.onFile c' f)
  link : ∀ c c' l, R c c' → Agree R (op.onLink c l) (op'.onLink c' l)

theorem Agree.lift {α : Type} {x : C × Except E α} {y : C' × Except E α} (h : Agree R x y) : Agree R (liftOp x) (liftOp y) := by
  obtain ⟨c, r⟩ := x
  obtain ⟨c', r'⟩ := y
  obtain ⟨h1, h2⟩ := h
  simp only at h2
  subst h2
  cases r' <;> exact ⟨h1, rfl⟩

theorem forEach_agree {X E : Type} {body : C → X → C × Except E Unit} {body' : C' → X → C' × Except E Unit}
    (h : ∀ c c' x, R c c' → Agree R (body c x) (body' c' x)) : ∀ (l : List X) (c : C) (c' : C'), R c c' →
    Agree R (forEach body c l) (forEach body' c' l) := by
  intro l
  induction l with
  | nil => intro c c' hc; exact ⟨hc, rfl⟩
  | cons x xs ih =>
    intro c c' hc
    have := h c c' x hc
    simp only [forEach]
    revert this
    cases body c x with
    | mk c1 r =>
      cases body' c' x with
      | mk c2 s =>
        rintro ⟨h1, h2⟩
        simp only at h2
        subst h2
        cases s with
        | error e => exact ⟨h1, rfl⟩
        | ok u => exact ih _ _ h1

theorem Archive.walkRange_agree (hop : op.Related op' R) (a : Archive) (B : Builder F L D) : ∀ (f : Nat) (rg : Range) (c : C) (c' : C'),
    R c c' → Agree R (a.walkRange B op f rg c) (a.walkRange B op' f rg c') := by
  intro f
  induction f with
  | zero => intro rg c c' hc; exact ⟨hc, rfl⟩
  | succ f ih =>
    intro rg c c' hc
    unfold Archive.walkRange
    refine forEach_agree ?_ _ _ _ hc
    intro c c' x hc
    cases x with
    | error x => exact ⟨hc, rfl⟩
    | ok y =>
      cases y with
      | file e => exact (hop.file _ _ e hc).lift
      | link e => exact (hop.link _ _ e hc).lift
      | dir r d =>
        have h1 := hop.enter _ _ d hc
        simp only [walkEntry]
        revert h1
        cases op.onEnter c d with
        | mk c1 r1 =>
          cases op'.onEnter c' d with
          | mk c2 s1 =>
            rintro ⟨h1, h2⟩
            simp only at h2
            subst h2
            cases s1 with
            | error x => exact ⟨h1, rfl⟩
            | ok b =>
              cases b with
              | false => exact (hop.exit _ _ d h1).lift
              | true =>
                have h3 := ih r _ _ h1
                simp only [if_true]
                simp only at h3
                revert h3
                cases a.walkRange B op f r c1 with
                | mk c3 r3 =>
                  cases a.walkRange B op' f r c2 with
                  | mk c4 s3 =>
                    rintro ⟨h3, h4⟩
                    simp only at h4
                    subst h4
                    cases s3 with
                    | error x => exact ⟨h3, rfl⟩
                    | ok u => exact (hop.exit _ _ d h3).lift

theorem Archive.walkFrom_agree (hop : op.Related op' R) (a : Archive) (B : Builder F L D) (f : Nat) (rg : Range) (c : C) (c' : C')
    (hc : R c c') : Agree R (a.walkFrom B op f rg c) (a.walkFrom B op' f rg c') := by
  have h1 := hop.start _ _ hc
  simp only [Archive.walkFrom]
  revert h1
  cases op.onStart c with
  | mk c1 r1 =>
    cases op'.onStart c' with
    | mk c2 s1 =>
      rintro ⟨h1, h2⟩
      simp only at h2
      subst h2
      cases s1 with
      | error x => exact ⟨h1, rfl⟩
      | ok u =>
        have h3 := Archive.walkRange_agree hop a B f rg _ _ h1
        simp only at h3 ⊢
        revert h3
        cases a.walkRange B op f rg c1 with
        | mk c3 r3 =>
          cases a.walkRange B op' f rg c2 with
          | mk c4 s3 =>
            rintro ⟨h3, h4⟩
            simp only at h4
            subst h4
            cases s3 with
            | error x => exact ⟨h3, rfl⟩
            | ok u => exact (hop.stop _ _ h3).lift
end

theorem extractor_related (cfg : XCfg) (fs0 : FS) : (extractor cfg).Related (callExtractor cfg (fsEnv cfg.env fs0))
    (fun c c' => c'.cur = c.cur ∧ Same fs0 c.w c'.w) := by
  constructor
  · rintro ⟨cur, w⟩ ⟨cur', cw⟩ ⟨h1, h2⟩
    obtain ⟨h3, h4⟩ := h2.mkdirs (cfg := cfg) cfg.base
    exact ⟨⟨h1, h3⟩, h4⟩
  · rintro ⟨cur, w⟩ ⟨cur', cw⟩ h
    exact ⟨h, rfl⟩
  · rintro ⟨cur, w⟩ ⟨cur', cw⟩ d ⟨h1, h2⟩
    simp only at h1 h2
    subst h1
    simp only [extractor, callExtractor, XCfg.onEnter, XCfg.onEnterC]
    split
    · exact ⟨⟨rfl, h2⟩, rfl⟩
    · have h3 := h2.mkdirs (cfg := cfg) (cfg.absPath (RPath.push cur' d))
      revert h3
      cases cfg.mkdirs w (cfg.absPath (RPath.push cur' d)) with
      | mk w1 r =>
        cases cw.mkdirs (fsEnv cfg.env fs0) (cfg.absPath (RPath.push cur' d)) with
        | mk c1 s =>
          rintro ⟨h3, h4⟩
          simp only at h4
          subst h4
          cases s <;> exact ⟨⟨rfl, h3⟩, rfl⟩
  · rintro ⟨cur, w⟩ ⟨cur', cw⟩ d ⟨h1, h2⟩
    simp only at h1
    subst h1
    exact ⟨⟨rfl, h2⟩, rfl⟩
  · rintro ⟨cur, w⟩ ⟨cur', cw⟩ e ⟨h1, h2⟩
    simp only at h1 h2
    subst h1
    simp only [extractor, callExtractor, XCfg.onFile, XCfg.onFileC]
    split
    · exact ⟨⟨rfl, h2⟩, rfl⟩
    · cases cfg.bytes e.content with
      | err => exact ⟨⟨rfl, h2⟩, rfl⟩
      | missing => exact ⟨⟨rfl, h2⟩, rfl⟩
      | found b =>
        obtain ⟨h3, h4⟩ := h2.writeFile (cfg := cfg) (cfg.absPath (RPath.push cur' e.path)) e.mtime b
        exact ⟨⟨rfl, h3⟩, h4⟩
  · rintro ⟨cur, w⟩ ⟨cur', cw⟩ e ⟨h1, h2⟩
    simp only at h1 h2
    subst h1
    simp only [extractor, callExtractor, XCfg.onLink, XCfg.onLinkC]
    split
    · exact ⟨⟨rfl, h2⟩, rfl⟩
    · obtain ⟨h3, h4⟩ := h2.writeLink (cfg := cfg) (cfg.absPath (RPath.push cur' e.path)) e.mtime e.target
      exact ⟨⟨rfl, h3⟩, h4⟩

/-- the two models agree -/
theorem callExtract_fs (cfg : XCfg) (depth : Nat) (rg : Range) (before : FS) (last : List (Nat × WriteRes)) :
    let r := cfg.callExtract (fsEnv cfg.env before) depth rg last
    let x := cfg.extractRange depth rg before last
    r.2 = x.2 ∧ r.1.tasks = x.1.tasks ∧ AloneOn before r.1.trace x.1.fs := by
  have h := Archive.walkFrom_agree (extractor_related cfg before) cfg.a extractBuilder depth rg ⟨[], World.init before⟩ ⟨[], ⟨[], [], true⟩⟩
    ⟨rfl, ⟨rfl, rfl, rfl, rfl, .start before⟩⟩
  simp only [XCfg.callExtract, XCfg.extractRange]
  revert h
  cases cfg.a.walkFrom extractBuilder (extractor cfg) depth rg ⟨[], World.init before⟩ with
  | mk c r =>
    cases cfg.a.walkFrom extractBuilder (callExtractor cfg (fsEnv cfg.env before)) depth rg (⟨[], ⟨[], [], true⟩⟩ : CCtx) with
    | mk c' s =>
      rintro ⟨⟨_, h1⟩, h2⟩
      simp only at h2
      subst h2
      have h3 := Same.steps (w := c.w) last h1
      cases s with
      | error e => exact ⟨rfl, h3.tasks.symm, h3.alone⟩
      | ok u => exact ⟨by simp only [h3.flag], h3.tasks.symm, h3.alone⟩

end Arx
