import Verif.Proof.ExtractMain
/-!
# Without write errors the flag `extract_ok` stays set
-/
namespace Arx

def FlagSame (env : Env) (w w' : World) : Prop := (∀ n, NoErr (env.sched n)) → w'.okFlag = w.okFlag

theorem FlagSame.refl (env : Env) (w : World) : FlagSame env w w := fun _ => rfl

theorem FlagSame.trans {env : Env} {a b c : World} (h : FlagSame env a b) (h' : FlagSame env b c) : FlagSame env a c :=
  fun hn => (h' hn).trans (h hn)

theorem World.steps_flag : ∀ (l : List (Nat × WriteRes)) (w : World), NoErr l → (w.steps l).okFlag = w.okFlag := by
  intro l
  induction l with
  | nil => intro w _; rfl
  | cons x xs ih =>
    intro w h
    have h1 : (w.step x).okFlag = w.okFlag := by
      simp only [World.step]
      split
      · rfl
      · split
        · rfl
        · split
          · rename_i hx; exact absurd hx (h x (by simp))
          · rfl
    have := ih (w.step x) (fun y hy => h y (by simp [hy]))
    exact this.trans h1

theorem FlagSame.pre (env : Env) (w : World) : FlagSame env w (w.pre env) := fun h => World.steps_flag _ w (h _)

theorem FlagSame.sys {α : Type} (env : Env) (w : World) (op : FS → Except HErr (α × FS)) : FlagSame env w (w.sys env op).1 := by
  rcases w.sys_cases env op with ⟨e, h, _⟩ | ⟨x, fs, _, _, h⟩
  · rw [h]; exact .pre env w
  · rw [h]; exact FlagSame.pre env w

theorem FlagSame.spawn (env : Env) (w : World) (i : Nat) (b : Bytes) : FlagSame env w (w.spawn i b) := fun _ => rfl

theorem FlagSame.isDir (env : Env) (w : World) (p : List Bytes) : FlagSame env w (w.isDir env p).1 := by
  have := FlagSame.sys env w (fun fs => .ok (fs.isDir p, fs))
  simp only [World.isDir]
  revert this
  cases w.sys env (fun fs => .ok (fs.isDir p, fs)) with
  | mk w' r => intro h; cases r <;> exact h

theorem FlagSame.createDirAll (env : Env) : ∀ (f : Nat) (w : World) (p : List Bytes), FlagSame env w (World.createDirAll env f w p).1 := by
  intro f
  induction f with
  | zero => intro w p; exact .refl _ w
  | succ f ih =>
    intro w p
    have htail : ∀ (w : World) (x : HErr),
        FlagSame env w (match w.isDir env p with | (w, true) => (w, (Except.ok () : Except HErr Unit)) | (w, false) => (w, .error x)).1 := by
      intro w x
      have := FlagSame.isDir env w p
      revert this
      cases w.isDir env p with
      | mk w1 b1 => intro h; cases b1 <;> exact h
    have h1 := FlagSame.sys env w (fun fs => fs.mkdir p)
    simp only [World.createDirAll]
    revert h1
    cases w.sys env (fun fs => fs.mkdir p) with
    | mk w1 r1 =>
      intro h1
      cases r1 with
      | ok u => exact h1
      | error x =>
        cases x with
        | notFound =>
          simp only
          split
          · exact h1
          · have h2 := ih w1 (parentOf p)
            revert h2
            cases World.createDirAll env f w1 (parentOf p) with
            | mk w2 r2 =>
              intro h2
              cases r2 with
              | error x => exact h1.trans h2
              | ok u =>
                have h3 := FlagSame.sys env w2 (fun fs => fs.mkdir p)
                simp only
                revert h3
                cases w2.sys env (fun fs => fs.mkdir p) with
                | mk w3 r3 =>
                  intro h3
                  cases r3 with
                  | ok u => exact (h1.trans h2).trans h3
                  | error x => exact ((h1.trans h2).trans h3).trans (htail w3 x)
        | _ => exact h1.trans (htail w1 _)

theorem FlagSame.mkdirs (cfg : XCfg) (w : World) (p : List Bytes) : FlagSame cfg.env w (cfg.mkdirs w p).1 := by
  have := FlagSame.createDirAll cfg.env (p.length + 1) w p
  simp only [XCfg.mkdirs]
  revert this
  cases World.createDirAll cfg.env (p.length + 1) w p with
  | mk w' r => intro h; cases r <;> exact h

theorem FlagSame.reopen (cfg : XCfg) (abs : List Bytes) (b : Bytes) (w : World) : FlagSame cfg.env w (cfg.reopen abs b w).1 := by
  have := FlagSame.sys cfg.env w (fun fs => fs.openTrunc abs)
  simp only [XCfg.reopen]
  revert this
  cases w.sys cfg.env (fun fs => fs.openTrunc abs) with
  | mk w' r =>
    intro h
    cases r with
    | error e => exact h
    | ok i => exact h.trans (.spawn _ _ _ _)

theorem FlagSame.relink (cfg : XCfg) (abs : List Bytes) (b : Bytes) (w : World) : FlagSame cfg.env w (cfg.relink abs b w).1 := by
  have := FlagSame.sys cfg.env w (fun fs => fs.removeFile abs)
  simp only [XCfg.relink]
  revert this
  cases w.sys cfg.env (fun fs => fs.removeFile abs) with
  | mk w' r =>
    intro h
    cases r with
    | error e => exact h
    | ok i =>
      have h2 := FlagSame.sys cfg.env w' (fun fs => fs.symlink b abs)
      simp only
      revert h2
      cases w'.sys cfg.env (fun fs => fs.symlink b abs) with
      | mk w2 r2 => intro h2; cases r2 <;> exact h.trans h2

theorem FlagSame.writeFile (cfg : XCfg) (w : World) (abs : List Bytes) (mtime : Nat) (b : Bytes) :
    FlagSame cfg.env w (cfg.writeFile w abs mtime b).1 := by
  have h1 := FlagSame.sys cfg.env w (fun fs => fs.createNew abs)
  simp only [XCfg.writeFile]
  revert h1
  cases w.sys cfg.env (fun fs => fs.createNew abs) with
  | mk w1 r1 =>
    intro h1
    cases r1 with
    | ok i => exact h1.trans (.spawn _ _ _ _)
    | error e =>
      cases e with
      | «exists» =>
        cases cfg.mode with
        | skip => exact h1
        | warn => exact h1
        | error => exact h1
        | overwrite => exact h1.trans (FlagSame.reopen cfg abs b w1)
        | newer =>
          have h2 := FlagSame.sys cfg.env w1 (fun fs => fs.mtime true abs)
          simp only
          revert h2
          cases w1.sys cfg.env (fun fs => fs.mtime true abs) with
          | mk w2 r2 =>
            intro h2
            cases r2 with
            | error e => exact h1.trans h2
            | ok t =>
              simp only
              cases newTime mtime with
              | none => exact h1.trans h2
              | some nt =>
                simp only
                split
                · exact (h1.trans h2).trans (FlagSame.reopen cfg abs b w2)
                · exact h1.trans h2
      | _ => exact h1

theorem FlagSame.writeLink (cfg : XCfg) (w : World) (abs : List Bytes) (mtime : Nat) (b : Bytes) :
    FlagSame cfg.env w (cfg.writeLink w abs mtime b).1 := by
  have h1 := FlagSame.sys cfg.env w (fun fs => fs.symlink b abs)
  simp only [XCfg.writeLink]
  revert h1
  cases w.sys cfg.env (fun fs => fs.symlink b abs) with
  | mk w1 r1 =>
    intro h1
    cases r1 with
    | ok i => exact h1
    | error e =>
      cases e with
      | «exists» =>
        cases cfg.mode with
        | skip => exact h1
        | warn => exact h1
        | error => exact h1
        | overwrite => exact h1.trans (FlagSame.relink cfg abs b w1)
        | newer =>
          have h2 := FlagSame.sys cfg.env w1 (fun fs => fs.mtime false abs)
          simp only
          revert h2
          cases w1.sys cfg.env (fun fs => fs.mtime false abs) with
          | mk w2 r2 =>
            intro h2
            cases r2 with
            | error e => exact h1.trans h2
            | ok t =>
              simp only
              cases newTime mtime with
              | none => exact h1.trans h2
              | some nt =>
                simp only
                split
                · exact (h1.trans h2).trans (FlagSame.relink cfg abs b w2)
                · exact h1.trans h2
      | _ => exact h1

theorem XCfg.extractRange_flag (cfg : XCfg) (hsched : ∀ n, NoErr (cfg.env.sched n)) (depth : Nat) (rg : Range) (fs : FS)
    {last : List (Nat × WriteRes)} (hlast : NoErr last) : (cfg.extractRange depth rg fs last).1.okFlag = true := by
  have hk : (extractor cfg).Keeps (fun c => c.w.okFlag = true) := by
    refine ⟨?_, ?_, ?_, ?_⟩
    · intro c d hc
      simp only [extractor, XCfg.onEnter]
      split
      · exact hc
      · have := FlagSame.mkdirs cfg c.w (cfg.absPath (RPath.push c.cur d)) hsched
        revert this
        cases cfg.mkdirs c.w (cfg.absPath (RPath.push c.cur d)) with
        | mk w r => intro h; cases r <;> exact h.trans hc
    · intro c d hc; exact hc
    · intro c f hc
      simp only [extractor, XCfg.onFile]
      split
      · exact hc
      · split
        · exact hc
        · exact hc
        · exact (FlagSame.writeFile cfg c.w _ _ _ hsched).trans hc
    · intro c f hc
      simp only [extractor, XCfg.onLink]
      split
      · exact hc
      · exact (FlagSame.writeLink cfg c.w _ _ _ hsched).trans hc
  have h := cfg.a.walkFrom_inv extractBuilder hk (fun c hc => (FlagSame.mkdirs cfg c.w cfg.base hsched).trans hc) (fun c hc => hc)
    depth rg ⟨[], World.init fs⟩ rfl
  simp only [XCfg.extractRange]
  revert h
  cases cfg.a.walkFrom extractBuilder (extractor cfg) depth rg ⟨[], World.init fs⟩ with
  | mk c r => intro h; cases r <;> exact (World.steps_flag last c.w hlast).trans h

end Arx
