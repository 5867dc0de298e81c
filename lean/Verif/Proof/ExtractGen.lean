import Verif.Model.Extract
/-!
# Facts about extraction that hold for every archive (also hostile ones)
-/
namespace Arx

/-! ## Generic rules for walks -/

section
variable {E C F L D : Type} {op : Operator E C F L D}

/-- `I` survives every call. -/
structure Operator.Keeps (op : Operator E C F L D) (I : C → Prop) : Prop where
  enter : ∀ c d, I c → I (op.onEnter c d).1
  exit : ∀ c d, I c → I (op.onExit c d).1
  file : ∀ c f, I c → I (op.onFile c f).1
  link : ∀ c l, I c → I (op.onLink c l).1

theorem liftOp_fst {α : Type} (x : C × Except E α) : (liftOp x).1 = x.1 := by
  obtain ⟨c, r⟩ := x; cases r <;> rfl

theorem forEach_inv {X E : Type} {body : C → X → C × Except E Unit} {I : C → Prop}
    (h : ∀ c x, I c → I (body c x).1) : ∀ (l : List X) (c : C), I c → I (forEach body c l).1 := by
  intro l
  induction l with
  | nil => intro c hc; exact hc
  | cons x xs ih =>
    intro c hc
    have := h c x hc
    simp only [forEach]
    revert this
    cases body c x with
    | mk c' r =>
      intro h'
      cases r with
      | error e => exact h'
      | ok u => exact ih _ h'

theorem walkEntry_inv {I : C → Prop} (hop : op.Keeps I) {sub : Range → C → C × Except (WErr E) Unit}
    (hs : ∀ r c, I c → I (sub r c).1) (c : C) (e : Res (Entry F L D)) (hc : I c) : I (walkEntry op sub c e).1 := by
  match e with
  | .error x => exact hc
  | .ok (.file f) => simp only [walkEntry, liftOp_fst]; exact hop.file c f hc
  | .ok (.link f) => simp only [walkEntry, liftOp_fst]; exact hop.link c f hc
  | .ok (.dir r d) =>
    have h1 := hop.enter c d hc
    simp only [walkEntry]
    revert h1
    cases op.onEnter c d with
    | mk c1 r1 =>
      intro h1
      cases r1 with
      | error x => exact h1
      | ok b =>
        cases b with
        | false => simp only [Bool.false_eq_true, if_false, liftOp_fst]; exact hop.exit _ _ h1
        | true =>
          have h2 := hs r c1 h1
          simp only [if_true]
          revert h2
          cases sub r c1 with
          | mk c2 r2 =>
            intro h2
            cases r2 with
            | error x => exact h2
            | ok u => simp only [liftOp_fst]; exact hop.exit _ _ h2

theorem Archive.walkRange_inv (a : Archive) (B : Builder F L D) {I : C → Prop} (hop : op.Keeps I) :
    ∀ (f : Nat) (rg : Range) (c : C), I c → I (a.walkRange B op f rg c).1 := by
  intro f
  induction f with
  | zero => intro rg c hc; exact hc
  | succ f ih => intro rg c hc; exact forEach_inv (fun c x h => walkEntry_inv hop ih c x h) _ c hc

theorem Archive.walkFrom_inv (a : Archive) (B : Builder F L D) {I : C → Prop} (hop : op.Keeps I)
    (hstart : ∀ c, I c → I (op.onStart c).1) (hstop : ∀ c, I c → I (op.onStop c).1)
    (f : Nat) (rg : Range) (c : C) (hc : I c) : I (a.walkFrom B op f rg c).1 := by
  have h1 := hstart c hc
  simp only [Archive.walkFrom]
  revert h1
  cases op.onStart c with
  | mk c1 r1 =>
    intro h1
    cases r1 with
    | error x => exact h1
    | ok u =>
      have h2 := a.walkRange_inv B hop f rg c1 h1
      simp only
      revert h2
      cases a.walkRange B op f rg c1 with
      | mk c2 r2 =>
        intro h2
        cases r2 with
        | error x => exact h2
        | ok u => simp only [liftOp_fst]; exact hstop _ h2

/-! ### Two walks side by side -/

/-- Two calls end in related contexts with equal verdicts, or the first one has gone wrong. -/
def SimRes {α : Type} (S : C → C → Prop) (Bad : C → Prop) (x y : C × α) : Prop :=
  (S x.1 y.1 ∧ x.2 = y.2) ∨ Bad x.1

structure SimOps (S : C → C → Prop) (Bad : C → Prop) (op op' : Operator E C F L D) : Prop where
  keep : op.Keeps Bad
  enter : ∀ c c' d, S c c' → SimRes S Bad (op.onEnter c d) (op'.onEnter c' d)
  exit : ∀ c c' d, S c c' → SimRes S Bad (op.onExit c d) (op'.onExit c' d)
  file : ∀ c c' f, S c c' → SimRes S Bad (op.onFile c f) (op'.onFile c' f)
  link : ∀ c c' l, S c c' → SimRes S Bad (op.onLink c l) (op'.onLink c' l)

variable {S : C → C → Prop} {Bad : C → Prop} {op' : Operator E C F L D}

theorem SimRes.lift {α : Type} {x y : C × Except E α} (h : SimRes S Bad x y) : SimRes S Bad (liftOp x) (liftOp y) := by
  rcases h with ⟨h1, h2⟩ | h
  · left
    obtain ⟨c, r⟩ := x
    obtain ⟨c', r'⟩ := y
    simp only at h2; subst h2
    cases r <;> exact ⟨h1, rfl⟩
  · right; rw [liftOp_fst]; exact h

theorem walkEntry_sim (H : SimOps S Bad op op') {sub sub' : Range → C → C × Except (WErr E) Unit}
    (hs : ∀ r c c', S c c' → SimRes S Bad (sub r c) (sub' r c')) (hb : ∀ r c, Bad c → Bad (sub r c).1)
    (c c' : C) (e : Res (Entry F L D)) (hc : S c c') : SimRes S Bad (walkEntry op sub c e) (walkEntry op' sub' c' e) := by
  match e with
  | .error x => exact Or.inl ⟨hc, rfl⟩
  | .ok (.file f) => exact (H.file c c' f hc).lift
  | .ok (.link f) => exact (H.link c c' f hc).lift
  | .ok (.dir r d) =>
    rcases H.enter c c' d hc with ⟨h1, h2⟩ | h
    · simp only [walkEntry]
      revert h1 h2
      cases op.onEnter c d with
      | mk c1 r1 =>
        cases op'.onEnter c' d with
        | mk c1' r1' =>
          intro h1 h2
          simp only at h1 h2; subst h2
          cases r1 with
          | error x => exact Or.inl ⟨h1, rfl⟩
          | ok b =>
            cases b with
            | false => simp only [Bool.false_eq_true, if_false]; exact (H.exit _ _ _ h1).lift
            | true =>
              simp only [if_true]
              rcases hs r c1 c1' h1 with ⟨h3, h4⟩ | h
              · revert h3 h4
                cases sub r c1 with
                | mk c2 r2 =>
                  cases sub' r c1' with
                  | mk c2' r2' =>
                    intro h3 h4
                    simp only at h3 h4; subst h4
                    cases r2 with
                    | error x => exact Or.inl ⟨h3, rfl⟩
                    | ok u => exact (H.exit _ _ _ h3).lift
              · right
                revert h
                cases sub r c1 with
                | mk c2 r2 =>
                  intro h
                  cases r2 with
                  | error x => exact h
                  | ok u => simp only [liftOp_fst]; exact H.keep.exit _ _ h
    · right
      simp only [walkEntry]
      revert h
      cases op.onEnter c d with
      | mk c1 r1 =>
        intro h1
        cases r1 with
        | error x => exact h1
        | ok b =>
          cases b with
          | false => simp only [Bool.false_eq_true, if_false, liftOp_fst]; exact H.keep.exit _ _ h1
          | true =>
            have h2 := hb r c1 h1
            simp only [if_true]
            revert h2
            cases sub r c1 with
            | mk c2 r2 =>
              intro h2
              cases r2 with
              | error x => exact h2
              | ok u => simp only [liftOp_fst]; exact H.keep.exit _ _ h2

theorem Archive.walkRange_sim (a : Archive) (B : Builder F L D) (H : SimOps S Bad op op') :
    ∀ (f : Nat) (rg : Range) (c c' : C), S c c' → SimRes S Bad (a.walkRange B op f rg c) (a.walkRange B op' f rg c') := by
  intro f
  induction f with
  | zero => intro rg c c' hc; exact Or.inl ⟨hc, rfl⟩
  | succ f ih =>
    intro rg c c' hc
    simp only [Archive.walkRange]
    generalize a.readRange B rg = l
    induction l generalizing c c' with
    | nil => exact Or.inl ⟨hc, rfl⟩
    | cons x xs ihl =>
      have hb := a.walkRange_inv B H.keep f
      simp only [forEach]
      rcases walkEntry_sim H ih hb c c' x hc with ⟨h1, h2⟩ | h
      · revert h1 h2
        cases walkEntry op (a.walkRange B op f) c x with
        | mk c1 r1 =>
          cases walkEntry op' (a.walkRange B op' f) c' x with
          | mk c1' r1' =>
            intro h1 h2
            simp only at h1 h2; subst h2
            cases r1 with
            | error y => exact Or.inl ⟨h1, rfl⟩
            | ok u => exact ihl _ _ h1
      · right
        revert h
        cases walkEntry op (a.walkRange B op f) c x with
        | mk c1 r1 =>
          intro h
          cases r1 with
          | error y => exact h
          | ok u => exact forEach_inv (fun c x h => walkEntry_inv H.keep hb c x h) xs c1 h

theorem Archive.walkFrom_sim (a : Archive) (B : Builder F L D) (H : SimOps S Bad op op')
    (hstart : ∀ c c', S c c' → SimRes S Bad (op.onStart c) (op'.onStart c'))
    (hstop : ∀ c c', S c c' → SimRes S Bad (op.onStop c) (op'.onStop c'))
    (kstop : ∀ c, Bad c → Bad (op.onStop c).1)
    (f : Nat) (rg : Range) (c c' : C) (hc : S c c') :
    SimRes S Bad (a.walkFrom B op f rg c) (a.walkFrom B op' f rg c') := by
  simp only [Archive.walkFrom]
  have hrest : ∀ c1 c1', S c1 c1' → SimRes S Bad
      (match a.walkRange B op f rg c1 with | (c2, .error x) => (c2, .error x) | (c2, .ok ()) => liftOp (op.onStop c2))
      (match a.walkRange B op' f rg c1' with | (c2, .error x) => (c2, .error x) | (c2, .ok ()) => liftOp (op'.onStop c2)) := by
    intro c1 c1' h1
    rcases a.walkRange_sim B H f rg c1 c1' h1 with ⟨h3, h4⟩ | h
    · revert h3 h4
      cases a.walkRange B op f rg c1 with
      | mk c2 r2 =>
        cases a.walkRange B op' f rg c1' with
        | mk c2' r2' =>
          intro h3 h4
          simp only at h3 h4; subst h4
          cases r2 with
          | error x => exact Or.inl ⟨h3, rfl⟩
          | ok u => exact (hstop _ _ h3).lift
    · right
      revert h
      cases a.walkRange B op f rg c1 with
      | mk c2 r2 =>
        intro h
        cases r2 with
        | error x => exact h
        | ok u => simp only [liftOp_fst]; exact kstop _ h
  rcases hstart c c' hc with ⟨h1, h2⟩ | h
  · revert h1 h2
    cases op.onStart c with
    | mk c1 r1 =>
      cases op'.onStart c' with
      | mk c1' r1' =>
        intro h1 h2
        simp only at h1 h2; subst h2
        cases r1 with
        | error x => exact Or.inl ⟨h1, rfl⟩
        | ok u => exact hrest _ _ h1
  · right
    revert h
    cases op.onStart c with
    | mk c1 r1 =>
      intro h
      cases r1 with
      | error x => exact h
      | ok u =>
        have h2 := a.walkRange_inv B H.keep f rg c1 h
        simp only
        revert h2
        cases a.walkRange B op f rg c1 with
        | mk c2 r2 =>
          intro h2
          cases r2 with
          | error x => exact h2
          | ok u => simp only [liftOp_fst]; exact kstop _ h2

end

/-! ## Path resolution never yields an occupied "free" name -/

theorem resAux_missing {fs : FS} {follow : Bool} {retry : List Bytes → List Bytes → Except HErr Loc}
    (hr : ∀ t c d n, retry t c = .ok (.missing d n) → fs.nodes (d ++ [n]) = none) :
    ∀ (todo cur d : List Bytes) (n : Bytes), resAux fs follow retry todo cur = .ok (.missing d n) →
      fs.nodes (d ++ [n]) = none := by
  intro todo
  induction todo with
  | nil => intro cur d n h; simp [resAux] at h
  | cons c rest ih =>
    intro cur d n h
    simp only [resAux] at h
    split at h
    · exact ih _ _ _ h
    · split at h
      · exact ih _ _ _ h
      · split at h
        · rename_i hn
          split at h
          · cases h; exact hn
          · cases h
        · exact ih _ _ _ h
        · split at h <;> cases h
        · split at h
          · cases h
          · exact hr _ _ _ _ h

theorem resolveN_missing {fs : FS} {follow : Bool} : ∀ (n : Nat) (todo cur d : List Bytes) (nm : Bytes),
    resolveN fs follow n todo cur = .ok (.missing d nm) → fs.nodes (d ++ [nm]) = none := by
  intro n
  induction n with
  | zero => intro todo cur d nm h; simp [resolveN] at h
  | succ n ih => intro todo cur d nm h; exact resAux_missing ih _ _ _ _ h

theorem FS.resolve_missing {fs : FS} {follow : Bool} {p d : List Bytes} {n : Bytes}
    (h : fs.resolve follow p = .ok (.missing d n)) : fs.nodes (d ++ [n]) = none := by
  simp only [FS.resolve] at h
  split at h
  · cases h
  · exact resolveN_missing _ _ _ _ _ h

/-- resolution only looks at the directory entries -/
theorem resAux_congr {fs fs' : FS} (hn : fs.nodes = fs'.nodes) {follow : Bool}
    {retry retry' : List Bytes → List Bytes → Except HErr Loc} (hr : ∀ t c, retry t c = retry' t c) :
    ∀ (todo cur : List Bytes), resAux fs follow retry todo cur = resAux fs' follow retry' todo cur := by
  intro todo
  induction todo with
  | nil => intro cur; rfl
  | cons c rest ih => intro cur; simp only [resAux, hn, ih, hr]

theorem resolveN_congr {fs fs' : FS} (hn : fs.nodes = fs'.nodes) {follow : Bool} : ∀ (n : Nat) (todo cur : List Bytes),
    resolveN fs follow n todo cur = resolveN fs' follow n todo cur := by
  intro n
  induction n with
  | zero => intro _ _; rfl
  | succ n ih => intro todo cur; exact resAux_congr hn ih todo cur

theorem FS.resolve_congr {fs fs' : FS} (hn : fs.nodes = fs'.nodes) (follow : Bool) (p : List Bytes) :
    fs.resolve follow p = fs'.resolve follow p := by
  simp only [FS.resolve, resolveN_congr hn]

/-! ## Effects of the writer tasks -/

theorem World.step_fs (w : World) (x : Nat × WriteRes) :
    (w.step x).fs.nodes = w.fs.nodes ∧ (w.step x).fs.next = w.fs.next ∧ (w.step x).fs.now = w.fs.now ∧
    (w.step x).tick = w.tick ∧ (w.step x).tasks.map (fun t => (t.ino, t.bytes)) = w.tasks.map (fun t => (t.ino, t.bytes)) ∧
    (∀ i, i ∉ w.tasks.map Task.ino → (w.step x).fs.data i = w.fs.data i) := by
  simp only [World.step]
  cases h : w.tasks[x.1]? with
  | none => exact ⟨rfl, rfl, rfl, rfl, rfl, fun _ _ => rfl⟩
  | some t =>
    have hset : ∀ t' : Task, t'.ino = t.ino → t'.bytes = t.bytes →
        (w.tasks.set x.1 t').map (fun t => (t.ino, t.bytes)) = w.tasks.map (fun t => (t.ino, t.bytes)) := by
      intro t' h1 h2
      rw [List.map_set]
      apply List.ext_getElem?
      intro j
      rw [List.getElem?_set]
      split
      · rename_i hj
        subst hj
        have hlt := (List.getElem?_eq_some_iff.mp h).1
        simp [hlt, h, h1, h2]
        have := (List.getElem?_eq_some_iff.mp h).2
        rw [this]; exact ⟨rfl, rfl⟩
      · rfl
    simp only
    split
    · exact ⟨rfl, rfl, rfl, rfl, rfl, fun _ _ => rfl⟩
    · cases x.2 with
      | err => exact ⟨rfl, rfl, rfl, rfl, hset _ rfl rfl, fun _ _ => rfl⟩
      | wrote k =>
        refine ⟨rfl, rfl, rfl, rfl, hset _ rfl rfl, ?_⟩
        intro i hi
        have : i ≠ t.ino := by
          intro e
          exact hi (List.mem_map.mpr ⟨t, List.mem_of_getElem? h, e.symm⟩)
        simp [FS.setData, this]

theorem map_ino_of {l k : List Task} (h : l.map (fun t => (t.ino, t.bytes)) = k.map (fun t => (t.ino, t.bytes))) :
    l.map Task.ino = k.map Task.ino := by
  have := congrArg (List.map Prod.fst) h
  simpa [List.map_map, Function.comp_def] using this

theorem World.steps_fs (l : List (Nat × WriteRes)) : ∀ (w : World),
    (w.steps l).fs.nodes = w.fs.nodes ∧ (w.steps l).fs.next = w.fs.next ∧ (w.steps l).fs.now = w.fs.now ∧
    (w.steps l).tick = w.tick ∧ (w.steps l).tasks.map (fun t => (t.ino, t.bytes)) = w.tasks.map (fun t => (t.ino, t.bytes)) ∧
    (∀ i, i ∉ w.tasks.map Task.ino → (w.steps l).fs.data i = w.fs.data i) := by
  induction l with
  | nil => intro w; exact ⟨rfl, rfl, rfl, rfl, rfl, fun _ _ => rfl⟩
  | cons x xs ih =>
    intro w
    obtain ⟨a1, a2, a3, a4, a5, a6⟩ := w.step_fs x
    obtain ⟨b1, b2, b3, b4, b5, b6⟩ := ih (w.step x)
    refine ⟨b1.trans a1, b2.trans a2, b3.trans a3, b4.trans a4, b5.trans a5, fun i hi => ?_⟩
    have := b6 i (by rw [map_ino_of a5]; exact hi)
    exact this.trans (a6 i hi)

/-! ## Every call of the extractor goes through `sys` -/

/-- An invariant of worlds that survives the writer steps and the calls of the extractor in the modes that
leave existing files alone. -/
structure WorldInv (J : World → Prop) : Prop where
  steps : ∀ w l, J w → J (w.steps l)
  tick : ∀ w n, J w → J { w with tick := n }
  mkdir : ∀ w p fs, J w → w.fs.mkdir p = .ok ((), fs) → J { w with fs := fs }
  create : ∀ w p b ino fs, J w → w.fs.createNew p = .ok (ino, fs) → J (World.spawn { w with fs := fs } ino b)
  symlink : ∀ w t p fs, J w → w.fs.symlink t p = .ok ((), fs) → J { w with fs := fs }

/-- the two ways a call can end -/
theorem World.sys_cases {α : Type} (env : Env) (w : World) (op : FS → Except HErr (α × FS)) :
    (∃ e, w.sys env op = (w.pre env, .error e) ∧
      ((env.fault w.tick = true ∧ e = .other) ∨ (env.fault w.tick = false ∧ op (w.pre env).fs = .error e))) ∨
    (∃ x fs, env.fault w.tick = false ∧ op (w.pre env).fs = .ok (x, fs) ∧
      w.sys env op = ({ w.pre env with fs := fs }, .ok x)) := by
  simp only [World.sys]
  cases hf : env.fault w.tick with
  | true => left; exact ⟨.other, by simp⟩
  | false =>
    cases ho : op (w.pre env).fs with
    | error e => left; exact ⟨e, by simp⟩
    | ok x => obtain ⟨x, fs⟩ := x; right; exact ⟨x, fs, by simp⟩

theorem WorldInv.pre {J : World → Prop} (H : WorldInv J) (env : Env) {w : World} (hw : J w) : J (w.pre env) :=
  H.tick _ _ (H.steps _ _ hw)

theorem World.sys_inv {J : World → Prop} (H : WorldInv J) {α : Type} (env : Env) (op : FS → Except HErr (α × FS))
    (hop : ∀ w x fs, J w → op w.fs = .ok (x, fs) → J { w with fs := fs }) (w : World) (hw : J w) :
    J (w.sys env op).1 := by
  have h1 : J (w.pre env) := H.pre env hw
  rcases w.sys_cases env op with ⟨e, h, _⟩ | ⟨x, fs, _, ho, h⟩
  · rw [h]; exact h1
  · rw [h]; exact hop _ _ _ h1 ho

theorem World.isDir_inv {J : World → Prop} (H : WorldInv J) (env : Env) (p : List Bytes) (w : World) (hw : J w) :
    J (w.isDir env p).1 := by
  have := World.sys_inv H env (fun fs => .ok (fs.isDir p, fs)) (by
    intro w x fs hw h; cases h; exact hw) w hw
  simp only [World.isDir]
  revert this
  cases w.sys env (fun fs => .ok (fs.isDir p, fs)) with
  | mk w' r => intro h; cases r <;> exact h

theorem World.createDirAll_inv {J : World → Prop} (H : WorldInv J) (env : Env) : ∀ (f : Nat) (w : World) (p : List Bytes),
    J w → J (World.createDirAll env f w p).1 := by
  intro f
  induction f with
  | zero => intro w p hw; exact hw
  | succ f ih =>
    intro w p hw
    have hmk : ∀ w, J w → J (w.sys env (fun fs => fs.mkdir p)).1 :=
      fun w hw => World.sys_inv H env _ (fun w x fs hw h => H.mkdir w p fs hw h) w hw
    have htail : ∀ (w : World) (e : HErr), J w →
        J (match w.isDir env p with | (w, true) => (w, (Except.ok () : Except HErr Unit)) | (w, false) => (w, .error e)).1 := by
      intro w e hw
      have := World.isDir_inv H env p w hw
      revert this
      cases w.isDir env p with
      | mk w' b => intro h; cases b <;> exact h
    have h1 := hmk w hw
    simp only [World.createDirAll]
    revert h1
    cases w.sys env (fun fs => fs.mkdir p) with
    | mk w1 r1 =>
      intro h1
      cases r1 with
      | ok u => exact h1
      | error e =>
        cases e with
        | notFound =>
          simp only
          split
          · exact h1
          · have h2 := ih w1 (parentOf p) h1
            revert h2
            cases World.createDirAll env f w1 (parentOf p) with
            | mk w2 r2 =>
              intro h2
              cases r2 with
              | error e => exact h2
              | ok u =>
                have h3 := hmk w2 h2
                simp only
                revert h3
                cases w2.sys env (fun fs => fs.mkdir p) with
                | mk w3 r3 =>
                  intro h3
                  cases r3 with
                  | ok u => exact h3
                  | error e => exact htail w3 e h3
        | _ => exact htail w1 _ h1

theorem XCfg.mkdirs_inv {J : World → Prop} (H : WorldInv J) (cfg : XCfg) (w : World) (p : List Bytes) (hw : J w) :
    J (cfg.mkdirs w p).1 := by
  have := World.createDirAll_inv H cfg.env (p.length + 1) w p hw
  simp only [XCfg.mkdirs]
  revert this
  cases World.createDirAll cfg.env (p.length + 1) w p with
  | mk w' r => intro h; cases r <;> exact h

/-- the modes that leave existing files alone -/
def Overwrite.keeps : Overwrite → Bool
  | .skip | .warn | .error => true
  | .newer | .overwrite => false

theorem XCfg.writeFile_inv {J : World → Prop} (H : WorldInv J) (cfg : XCfg) (hm : cfg.mode.keeps = true) (w : World)
    (abs : List Bytes) (mtime : Nat) (b : Bytes) (hw : J w) : J (cfg.writeFile w abs mtime b).1 := by
  have h1 : J (w.pre cfg.env) := H.pre cfg.env hw
  simp only [XCfg.writeFile]
  rcases w.sys_cases cfg.env (fun fs => fs.createNew abs) with ⟨e, h, _⟩ | ⟨ino, fs, _, ho, h⟩
  · rw [h]
    cases e with
    | «exists» =>
      cases hmode : cfg.mode with
      | skip => exact h1
      | warn => exact h1
      | error => exact h1
      | newer => rw [hmode] at hm; cases hm
      | overwrite => rw [hmode] at hm; cases hm
    | _ => exact h1
  · rw [h]; exact H.create _ abs b ino fs h1 ho

theorem XCfg.writeLink_inv {J : World → Prop} (H : WorldInv J) (cfg : XCfg) (hm : cfg.mode.keeps = true) (w : World)
    (abs : List Bytes) (mtime : Nat) (b : Bytes) (hw : J w) : J (cfg.writeLink w abs mtime b).1 := by
  have h1 := World.sys_inv H cfg.env (fun fs => fs.symlink b abs) (fun w x fs hw h => H.symlink w b abs fs hw h) w hw
  simp only [XCfg.writeLink]
  revert h1
  cases w.sys cfg.env (fun fs => fs.symlink b abs) with
  | mk w' r =>
    intro h1
    cases r with
    | ok u => exact h1
    | error e =>
      cases e with
      | «exists» =>
        cases hmode : cfg.mode with
        | skip => exact h1
        | warn => exact h1
        | error => exact h1
        | newer => rw [hmode] at hm; cases hm
        | overwrite => rw [hmode] at hm; cases hm
      | _ => exact h1

theorem extractor_keeps {J : World → Prop} (H : WorldInv J) (cfg : XCfg) (hm : cfg.mode.keeps = true) :
    (extractor cfg).Keeps (fun c => J c.w) where
  enter c d hc := by
    simp only [extractor, XCfg.onEnter]
    split
    · exact hc
    · have := XCfg.mkdirs_inv H cfg c.w (cfg.absPath (RPath.push c.cur d)) hc
      revert this
      cases cfg.mkdirs c.w (cfg.absPath (RPath.push c.cur d)) with
      | mk w r => intro h; cases r <;> exact h
  exit c d hc := hc
  file c f hc := by
    simp only [extractor, XCfg.onFile]
    split
    · exact hc
    · split
      · exact hc
      · exact hc
      · exact XCfg.writeFile_inv H cfg hm _ _ _ _ hc
  link c l hc := by
    simp only [extractor, XCfg.onLink]
    split
    · exact hc
    · exact XCfg.writeLink_inv H cfg hm _ _ _ _ hc

theorem XCfg.extractRange_inv {J : World → Prop} (H : WorldInv J) (cfg : XCfg) (hm : cfg.mode.keeps = true)
    (depth : Nat) (rg : Range) (fs : FS) (last : List (Nat × WriteRes)) (h0 : J (World.init fs)) :
    J (cfg.extractRange depth rg fs last).1 := by
  have h := cfg.a.walkFrom_inv extractBuilder (extractor_keeps H cfg hm)
    (fun c hc => XCfg.mkdirs_inv H cfg c.w cfg.base hc) (fun c hc => hc) depth rg ⟨[], World.init fs⟩ h0
  simp only [XCfg.extractRange]
  revert h
  cases cfg.a.walkFrom extractBuilder (extractor cfg) depth rg ⟨[], World.init fs⟩ with
  | mk c r =>
    intro h
    cases r <;> exact H.steps _ _ h

/-! ## What existed stays -/

/-- Everything that exists in `fs0` is still there, unchanged, and the writer tasks only own distinct new
inodes. -/
structure Kept (fs0 : FS) (w : World) : Prop where
  next : fs0.next ≤ w.fs.next
  nodes : ∀ p n, fs0.nodes p = some n → w.fs.nodes p = some n
  data : ∀ i, i < fs0.next → w.fs.data i = fs0.data i
  own : ∀ i ∈ w.tasks.map Task.ino, fs0.next ≤ i ∧ i < w.fs.next
  nodup : (w.tasks.map Task.ino).Nodup

theorem FS.set_nodes (fs : FS) (p : List Bytes) (n : Option FNode) (q : List Bytes) :
    (fs.set p n).nodes q = if q = p then n else fs.nodes q := rfl

theorem kept_worldInv (fs0 : FS) : WorldInv (Kept fs0) where
  steps w l h := by
    obtain ⟨a1, a2, _, _, a5, a6⟩ := w.steps_fs l
    have hi := map_ino_of a5
    refine ⟨by rw [a2]; exact h.next, by rw [a1]; exact h.nodes, ?_, by rw [hi, a2]; exact h.own, by rw [hi]; exact h.nodup⟩
    intro i hlt
    rw [a6 i, h.data i hlt]
    intro hc
    have := (h.own i hc).1
    omega
  tick w n h := ⟨h.next, h.nodes, h.data, h.own, h.nodup⟩
  mkdir w p fs h hop := by
    simp only [FS.mkdir] at hop
    split at hop
    · cases hop
    · cases hop
    · rename_i d n hr
      have hnone := FS.resolve_missing hr
      simp only [Except.ok.injEq, Prod.mk.injEq, true_and] at hop
      subst hop
      refine ⟨h.next, ?_, h.data, h.own, h.nodup⟩
      intro q x hq
      have := h.nodes q x hq
      simp only [FS.set_nodes]
      rw [if_neg]
      · exact this
      · intro e; rw [e, hnone] at this; cases this
  create w p b ino fs h hop := by
    simp only [FS.createNew] at hop
    split at hop
    · cases hop
    · split at hop <;> cases hop
    · rename_i d n hr
      have hnone := FS.resolve_missing hr
      simp only [Except.ok.injEq, Prod.mk.injEq] at hop
      obtain ⟨rfl, rfl⟩ := hop
      have hno : w.fs.next ∉ w.tasks.map Task.ino := fun hc => by have := (h.own _ hc).2; omega
      refine ⟨Nat.le_succ_of_le h.next, ?_, ?_, ?_, ?_⟩
      · intro q x hq
        have := h.nodes q x hq
        simp only [World.spawn, FS.setData, FS.set_nodes]
        rw [if_neg]
        · exact this
        · intro e; rw [e, hnone] at this; cases this
      · intro i hi
        simp only [World.spawn, FS.setData]
        have := h.next
        rw [if_neg (by omega)]
        exact h.data i hi
      · intro i hi
        simp only [World.spawn, List.map_append, List.mem_append, List.map_cons, List.map_nil, List.mem_singleton] at hi
        simp only [World.spawn]
        rcases hi with hi | hi
        · have := h.own i hi; omega
        · subst hi; exact ⟨h.next, Nat.lt_succ_self _⟩
      · simp only [World.spawn, List.map_append, List.map_cons, List.map_nil]
        rw [List.nodup_append]
        refine ⟨h.nodup, by simp, ?_⟩
        intro x hx y hy
        simp at hy; subst hy
        intro e; subst e; exact hno hx
  symlink w t p fs h hop := by
    simp only [FS.symlink] at hop
    split at hop
    · cases hop
    · split at hop
      · cases hop
      · split at hop
        · cases hop
        · cases hop
        · rename_i d n hr
          have hnone := FS.resolve_missing hr
          simp only [Except.ok.injEq, Prod.mk.injEq, true_and] at hop
          subst hop
          refine ⟨h.next, ?_, h.data, h.own, h.nodup⟩
          intro q x hq
          have := h.nodes q x hq
          simp only [FS.set_nodes]
          rw [if_neg]
          · exact this
          · intro e; rw [e, hnone] at this; cases this

theorem Kept.init (fs : FS) : Kept fs (World.init fs) :=
  ⟨Nat.le_refl _, fun _ _ h => h, fun _ _ => rfl, by simp [World.init], by simp [World.init]⟩

end Arx
