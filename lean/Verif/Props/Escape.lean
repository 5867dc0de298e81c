import Verif.Props.Inside
/-!
# C17: every archive with a file behind `..` leaves the output directory

`C17_parent_counterexample` is one archive; here is what happens for all of them.
-/
namespace Arx

/-- what exists stays as it is -/
def FsGrows (fs fs' : FS) : Prop := ∀ p x, fs.nodes p = some x → fs'.nodes p = some x

theorem FsGrows.refl (fs : FS) : FsGrows fs fs := fun _ _ h => h
theorem FsGrows.trans {a b c : FS} (h : FsGrows a b) (h' : FsGrows b c) : FsGrows a c := fun p x hx => h' p x (h p x hx)
theorem FsGrows.of_eq {fs fs' : FS} (h : fs'.nodes = fs.nodes) : FsGrows fs fs' := fun p x hx => by rw [h]; exact hx
theorem FsGrows.set {fs fs' : FS} {q : List Bytes} {x : FNode} (h : fs.nodes q = none)
    (h' : fs'.nodes = (fs.set q (some x)).nodes) : FsGrows fs fs' := by
  intro p y hy
  rw [h']
  simp only [FS.set]
  split
  · rename_i e; subst e; rw [h] at hy; cases hy
  · exact hy

theorem resAux_grows {fs fs' : FS} (h : FsGrows fs fs') {follow : Bool} {retry retry' : List Bytes → List Bytes → Except HErr Loc}
    (hr : ∀ t c q, retry t c = .ok (.found q) → retry' t c = .ok (.found q)) :
    ∀ (todo cur q : List Bytes), resAux fs follow retry todo cur = .ok (.found q) → resAux fs' follow retry' todo cur = .ok (.found q) := by
  intro todo
  induction todo with
  | nil => intro cur q e; simpa [resAux] using e
  | cons c rest ih =>
    intro cur q e
    unfold resAux at e ⊢
    by_cases h1 : c = CUR
    · rw [if_pos h1] at e ⊢; exact ih _ _ e
    · rw [if_neg h1] at e ⊢
      by_cases h2 : c = PARENT
      · rw [if_pos h2] at e ⊢; exact ih _ _ e
      · rw [if_neg h2] at e ⊢
        cases hn : fs.nodes (cur ++ [c]) with
        | none => rw [hn] at e; simp only at e; split at e <;> cases e
        | some x =>
          rw [hn] at e
          rw [h _ _ hn]
          cases x with
          | dir t => exact ih _ _ e
          | file i => exact e
          | link t s =>
            simp only at e ⊢
            split
            · rename_i hc; rw [if_pos hc] at e; exact e
            · rename_i hc; rw [if_neg hc] at e; exact hr _ _ _ e

theorem resolveN_grows {fs fs' : FS} (h : FsGrows fs fs') {follow : Bool} : ∀ (n : Nat) (todo cur q : List Bytes),
    resolveN fs follow n todo cur = .ok (.found q) → resolveN fs' follow n todo cur = .ok (.found q) := by
  intro n
  induction n with
  | zero => intro todo cur q e; cases e
  | succ n ih => intro todo cur q e; exact resAux_grows h ih todo cur q e

theorem FS.resolve_grows {fs fs' : FS} (h : FsGrows fs fs') {follow : Bool} {p q : List Bytes} (e : fs.resolve follow p = .ok (.found q)) :
    fs'.resolve follow p = .ok (.found q) := by
  unfold FS.resolve at e ⊢
  split at e
  · cases e
  · rename_i hc; rw [if_neg hc]; exact resolveN_grows h _ _ _ _ e

/-- a file made where a path led to a free name is found there -/
theorem resAux_made {fs fs' : FS} {d : List Bytes} {nm : Bytes} {i : Nat} (hn : fs'.nodes (d ++ [nm]) = some (.file i)) (h : FsGrows fs fs')
    {follow : Bool} {retry retry' : List Bytes → List Bytes → Except HErr Loc}
    (hr : ∀ t c, retry t c = .ok (.missing d nm) → retry' t c = .ok (.found (d ++ [nm]))) :
    ∀ (todo cur : List Bytes), resAux fs follow retry todo cur = .ok (.missing d nm) →
      resAux fs' follow retry' todo cur = .ok (.found (d ++ [nm])) := by
  intro todo
  induction todo with
  | nil => intro cur e; simp [resAux] at e
  | cons c rest ih =>
    intro cur e
    unfold resAux at e ⊢
    by_cases h1 : c = CUR
    · rw [if_pos h1] at e ⊢; exact ih _ e
    · rw [if_neg h1] at e ⊢
      by_cases h2 : c = PARENT
      · rw [if_pos h2] at e ⊢; exact ih _ e
      · rw [if_neg h2] at e ⊢
        cases hx : fs.nodes (cur ++ [c]) with
        | none =>
          rw [hx] at e
          simp only at e
          split at e
          · rename_i hrest
            cases e
            rw [hn]
            simp [hrest]
          · cases e
        | some x =>
          rw [hx] at e
          rw [h _ _ hx]
          cases x with
          | dir t => exact ih _ e
          | file i => simp only at e; split at e <;> cases e
          | link t s =>
            simp only at e ⊢
            split
            · rename_i hc; rw [if_pos hc] at e; cases e
            · rename_i hc; rw [if_neg hc] at e; exact hr _ _ e

theorem resolveN_made {fs fs' : FS} {d : List Bytes} {nm : Bytes} {i : Nat} (hn : fs'.nodes (d ++ [nm]) = some (.file i)) (h : FsGrows fs fs')
    {follow : Bool} : ∀ (n : Nat) (todo cur : List Bytes),
    resolveN fs follow n todo cur = .ok (.missing d nm) → resolveN fs' follow n todo cur = .ok (.found (d ++ [nm])) := by
  intro n
  induction n with
  | zero => intro todo cur e; cases e
  | succ n ih => intro todo cur e; exact resAux_made hn h ih todo cur e

theorem FS.resolve_made {fs fs' : FS} {d : List Bytes} {nm : Bytes} {i : Nat} (hn : fs'.nodes (d ++ [nm]) = some (.file i))
    (h : FsGrows fs fs') {follow : Bool} {p : List Bytes} (e : fs.resolve follow p = .ok (.missing d nm)) :
    fs'.resolve follow p = .ok (.found (d ++ [nm])) := by
  unfold FS.resolve at e ⊢
  split at e
  · cases e
  · rename_i hc; rw [if_neg hc]; exact resolveN_made hn h _ _ _ e

theorem resAux_ne_exists {fs : FS} {follow : Bool} {retry : List Bytes → List Bytes → Except HErr Loc}
    (hr : ∀ t c, retry t c ≠ .error .exists) : ∀ (todo cur : List Bytes), resAux fs follow retry todo cur ≠ .error .exists := by
  intro todo
  induction todo with
  | nil => intro cur h; simp [resAux] at h
  | cons c rest ih =>
    intro cur h
    simp only [resAux] at h
    split at h
    · exact ih _ h
    · split at h
      · exact ih _ h
      · split at h
        · split at h <;> cases h
        · exact ih _ h
        · split at h <;> cases h
        · split at h
          · cases h
          · exact hr _ _ h

theorem resolveN_ne_exists {fs : FS} {follow : Bool} : ∀ (n : Nat) (todo cur : List Bytes), resolveN fs follow n todo cur ≠ .error .exists := by
  intro n
  induction n with
  | zero => intro todo cur h; simp [resolveN] at h
  | succ n ih => intro todo cur h; exact resAux_ne_exists ih _ _ h

theorem FS.resolve_ne_exists (fs : FS) (follow : Bool) (p : List Bytes) : fs.resolve follow p ≠ .error .exists := by
  intro h
  simp only [FS.resolve] at h
  split at h
  · cases h
  · exact resolveN_ne_exists _ _ _ h

/-! ## the calls -/

theorem FsGrows.pre (env : Env) (w : World) : FsGrows w.fs (w.pre env).fs := FsGrows.of_eq (World.pre_nodes env w)

theorem FsGrows.sys {α : Type} (env : Env) (w : World) {op : FS → Except HErr (α × FS)}
    (hop : ∀ fs x fs', op fs = .ok (x, fs') → FsGrows fs fs') : FsGrows w.fs (w.sys env op).1.fs := by
  unfold World.sys
  split
  · exact FsGrows.pre env w
  · split
    · exact FsGrows.pre env w
    · rename_i e; exact (FsGrows.pre env w).trans (hop _ _ _ e)

theorem FS.resolve_missing_none {fs : FS} {follow : Bool} {p d : List Bytes} {n : Bytes} (h : fs.resolve follow p = .ok (.missing d n)) :
    fs.nodes (d ++ [n]) = none := by
  exact FS.resolve_missing h

theorem FS.mkdir_grows (p : List Bytes) (fs : FS) (x : Unit) (fs' : FS) (h : fs.mkdir p = .ok (x, fs')) : FsGrows fs fs' := by
  unfold FS.mkdir at h
  split at h
  · cases h
  · cases h
  · rename_i e; cases h; exact FsGrows.set (FS.resolve_missing_none e) rfl

theorem FS.createNew_grows (p : List Bytes) (fs : FS) (x : Nat) (fs' : FS) (h : fs.createNew p = .ok (x, fs')) : FsGrows fs fs' := by
  unfold FS.createNew at h
  split at h
  · cases h
  · split at h <;> cases h
  · rename_i e; cases h; exact FsGrows.set (FS.resolve_missing_none e) rfl

theorem FS.symlink_grows (t : Bytes) (p : List Bytes) (fs : FS) (x : Unit) (fs' : FS) (h : fs.symlink t p = .ok (x, fs')) : FsGrows fs fs' := by
  unfold FS.symlink at h
  split at h
  · cases h
  · split at h
    · cases h
    · split at h
      · cases h
      · cases h
      · rename_i e; cases h; exact FsGrows.set (FS.resolve_missing_none e) rfl

theorem FsGrows.isDir (env : Env) (w : World) (p : List Bytes) : FsGrows w.fs (w.isDir env p).1.fs := by
  have h := FsGrows.sys env w (op := fun fs => .ok (fs.isDir p, fs)) (by intro fs x fs' e; cases e; exact FsGrows.refl _)
  unfold World.isDir
  revert h
  cases w.sys env (fun fs => Except.ok (fs.isDir p, fs)) with
  | mk w' r => cases r <;> exact id

theorem FsGrows.createDirAll (env : Env) : ∀ (f : Nat) (w : World) (p : List Bytes), FsGrows w.fs (World.createDirAll env f w p).1.fs := by
  intro f
  induction f with
  | zero => intro w p; exact FsGrows.refl _
  | succ f ih =>
    intro w p
    unfold World.createDirAll
    have h1 := FsGrows.sys env w (FS.mkdir_grows p)
    revert h1
    cases w.sys env (fun fs => fs.mkdir p) with
    | mk w1 r1 =>
      intro h1
      have tail : ∀ (w2 : World) (e : HErr), FsGrows w.fs w2.fs → FsGrows w.fs (match w2.isDir env p with
          | (w, true) => (w, (.ok () : Except HErr Unit))
          | (w, false) => (w, .error e)).1.fs := by
        intro w2 e hw
        have h2 := hw.trans (FsGrows.isDir env w2 p)
        revert h2
        cases w2.isDir env p with
        | mk w3 b => cases b <;> exact id
      cases r1 with
      | ok u => exact h1
      | error e =>
        cases e with
        | notFound =>
          simp only
          split
          · exact h1
          · have h2 := h1.trans (ih w1 (parentOf p))
            revert h2
            cases World.createDirAll env f w1 (parentOf p) with
            | mk w2 r2 =>
              intro h2
              cases r2 with
              | error e => exact h2
              | ok u =>
                simp only
                have h3 := h2.trans (FsGrows.sys env w2 (FS.mkdir_grows p))
                revert h3
                cases w2.sys env (fun fs => fs.mkdir p) with
                | mk w3 r3 =>
                  intro h3
                  cases r3 with
                  | ok u => exact h3
                  | error e => exact tail w3 e h3
        | _ => exact tail w1 _ h1

theorem FsGrows.mkdirs (cfg : XCfg) (w : World) (p : List Bytes) : FsGrows w.fs (cfg.mkdirs w p).1.fs := by
  have h := FsGrows.createDirAll cfg.env (p.length + 1) w p
  unfold XCfg.mkdirs
  revert h
  cases World.createDirAll cfg.env (p.length + 1) w p with
  | mk w' r => cases r <;> exact id

/-- the overwrite modes in which nothing that exists is replaced -/
def Overwrite.Keeps (m : Overwrite) : Prop := m = .skip ∨ m = .warn ∨ m = .error

theorem XCfg.writeFile_grows {cfg : XCfg} (hm : cfg.mode.Keeps) (w : World) (abs : List Bytes) (mtime : Nat) (b : Bytes) :
    FsGrows w.fs (cfg.writeFile w abs mtime b).1.fs ∧
    ((cfg.writeFile w abs mtime b).2 = .ok () → ∃ q, (cfg.writeFile w abs mtime b).1.fs.resolve false abs = .ok (.found q)) := by
  have hg := FsGrows.sys cfg.env w (FS.createNew_grows abs)
  unfold XCfg.writeFile
  simp only
  have key : ∀ w1 r1, w.sys cfg.env (fun fs => fs.createNew abs) = (w1, r1) →
      (∀ i, r1 = .ok i → ∃ q, w1.fs.resolve false abs = .ok (.found q)) ∧ (r1 = .error .exists → ∃ q, w1.fs.resolve false abs = .ok (.found q)) := by
    intro w1 r1 e
    unfold World.sys at e
    split at e
    · cases e
      exact ⟨(fun i h => by cases h), (fun h => by cases h)⟩
    · simp only at e
      cases hc : (w.pre cfg.env).fs.createNew abs with
      | error x =>
        rw [hc] at e
        cases e
        refine ⟨(fun i h => by cases h), fun h => ?_⟩
        cases h
        unfold FS.createNew at hc
        split at hc
        · rename_i x hres
          -- resolution itself does not answer `exists`
          exact absurd hres (by cases hc; exact FS.resolve_ne_exists _ _ _)
        · rename_i q hres; exact ⟨q, hres⟩
        · cases hc
      | ok x =>
        obtain ⟨i, fs'⟩ := x
        rw [hc] at e
        cases e
        refine ⟨fun j _ => ?_, (fun h => by cases h)⟩
        have hg' := FS.createNew_grows abs _ _ _ hc
        unfold FS.createNew at hc
        split at hc
        · cases hc
        · split at hc <;> cases hc
        · rename_i d n hres
          cases hc
          exact ⟨_, FS.resolve_made (i := (w.pre cfg.env).fs.next) (by simp [FS.set, FS.setData]) hg' hres⟩
  revert hg key
  cases w.sys cfg.env (fun fs => fs.createNew abs) with
  | mk w1 r1 =>
    intro hg key
    obtain ⟨k1, k2⟩ := key w1 r1 rfl
    cases r1 with
    | ok i => exact ⟨hg, fun _ => k1 i rfl⟩
    | error e =>
      cases e with
      | «exists» =>
        rcases hm with hm | hm | hm <;> rw [hm] <;> simp only
        · exact ⟨hg, fun _ => k2 rfl⟩
        · exact ⟨hg, fun _ => k2 rfl⟩
        · exact ⟨hg, fun h => by cases h⟩
      | _ => exact ⟨hg, fun h => by cases h⟩

theorem XCfg.writeLink_grows {cfg : XCfg} (hm : cfg.mode.Keeps) (w : World) (abs : List Bytes) (mtime : Nat) (t : Bytes) :
    FsGrows w.fs (cfg.writeLink w abs mtime t).1.fs := by
  have hg := FsGrows.sys cfg.env w (FS.symlink_grows t abs)
  unfold XCfg.writeLink
  simp only
  revert hg
  cases w.sys cfg.env (fun fs => fs.symlink t abs) with
  | mk w1 r1 =>
    intro hg
    cases r1 with
    | ok i => exact hg
    | error e =>
      cases e with
      | «exists» => rcases hm with hm | hm | hm <;> rw [hm] <;> exact hg
      | _ => exact hg

/-! ## the walk -/

section
variable {cfg : XCfg} {M : PathMap} {P : List (List Bytes)} {d0 : List Bytes} {fs0 : FS}

/-- what holds during the walk: nothing that existed was replaced; the paths of the visited files lead to something -/
def PlacedInv (cfg : XCfg) (fs0 : FS) (M : PathMap) (d0 : List Bytes) (d : List Bytes) (V : List Bytes → Prop) (ctx : XCtx) : Prop :=
  ∃ r, d = d0 ++ r ∧ ctx.cur = joinPath r ∧ FsGrows fs0 ctx.w.fs ∧
    ∀ p n s c b, V (d0 ++ p) → M.sub d0 p = some n → n.kind = .file s c → cfg.bytes c = .found b →
      ∃ q, ctx.w.fs.resolve false (cfg.base ++ p) = .ok (.found q)

theorem Good.placedRule (G : Good cfg.a M P) (hn : ∀ p n, M.sub d0 p = some n → CUR ∉ p) (hfiles : cfg.files = [])
    (hm : cfg.mode.Keeps) : WalkRule P (cfg.a.entOf P extractBuilder) (extractor cfg) (PlacedInv cfg fs0 M d0) (fun _ => True) := by
  have hall : ∀ cur b, cfg.shouldExtract cur b = true := by intro cur b; simp [XCfg.shouldExtract, hfiles]
  have prep : ∀ {d c V ctx}, d ++ [c] ∈ P → PlacedInv cfg fs0 M d0 d V ctx → ∃ r n, d = d0 ++ r ∧ M.sub d0 (r ++ [c]) = some n ∧
      M (d ++ [c]) = some n ∧ ctx.cur = joinPath r ∧ RPath.push ctx.cur c = joinPath (r ++ [c]) ∧
      comps (joinPath (r ++ [c])) = r ++ [c] ∧ (∀ x ∈ r ++ [c], x ≠ CUR) ∧ (∀ x ∈ r ++ [c], ValidName x) := by
    rintro d c V ctx hp ⟨r, rfl, h1, h4⟩
    obtain ⟨n, hn'⟩ := (G.dom _).mp hp
    have hm' : M.sub d0 (r ++ [c]) = some n := by rw [PathMap.sub_ne (by simp)]; simpa using hn'
    have hval : ∀ x ∈ r ++ [c], ValidName x := fun x hx => G.wf.names _ _ hn' x (by rw [List.append_assoc]; exact List.mem_append_right _ hx)
    refine ⟨r, n, rfl, hm', hn', h1, ?_, comps_joinPath hval, fun x hx e => hn _ _ hm' (e ▸ hx), hval⟩
    rw [h1, push_joinPath (fun x hx => hval x (by simp [hx])) (hval c (by simp))]
  have below : ∀ {p q : List Bytes} {n : Node}, p ∈ P → q ∈ P → M p = some n → n.kind ≠ .dir → p <+: q → q = p := by
    intro p q n hp hq hM hk hpre
    apply Classical.byContradiction
    intro hne
    obtain ⟨k, hk'⟩ := (G.dom q).mp hq
    have hpne : p ≠ [] := by rintro rfl; rw [G.wf.root] at hM; cases hM
    obtain ⟨n', h1, h2⟩ := G.wf.ancestors q k p hk' ⟨hpne, fun e => hne e.symm, hpre⟩
    rw [hM] at h1; cases h1
    cases hk2 : n.kind with
    | dir => exact hk hk2
    | file a b => rw [Node.isDir, hk2] at h2; cases h2
    | link a => rw [Node.isDir, hk2] at h2; cases h2
  refine ⟨fun _ _ _ _ _ _ _ _ _ => trivial, ?_, ?_, ?_, ?_⟩
  · intro d c V e ctx hp hI hV he
    obtain ⟨r, n, hd, hsub, hM, hcur, hpush, hcomps, hncur, hval⟩ := prep hp hI
    obtain ⟨r', hr', _, hgrow, hdone⟩ := hI
    obtain rfl : r' = r := by rw [hd] at hr'; exact (List.append_cancel_left hr').symm
    obtain ⟨n', hn', h⟩ := G.xent hp
    rw [hM] at hn'; cases hn'
    rw [he] at h
    obtain ⟨hname, ⟨s, hk⟩, hmt⟩ := h
    simp only [extractor, XCfg.onFile, hname, hpush, hall, Bool.not_true, Bool.false_eq_true, if_false]
    cases hb : cfg.bytes e.content with
    | err => trivial
    | missing =>
      refine ⟨r', hd, hcur, hgrow, ?_⟩
      rintro p n2 s2 c2 b2 (hv | ⟨hpP, hpre⟩) h1 h2 h3
      · exact hdone p n2 s2 c2 b2 hv h1 h2 h3
      · have := below hp hpP hM (by rw [hk]; simp) hpre
        rw [hd, List.append_assoc] at this
        have := List.append_cancel_left this
        subst this
        rw [hsub] at h1; cases h1
        rw [hk] at h2; cases h2
        rw [hb] at h3; cases h3
    | found b =>
      obtain ⟨w1, w2⟩ := cfg.writeFile_grows hm ctx.w (cfg.absPath (joinPath (r' ++ [c]))) e.mtime b
      simp only
      revert w1 w2
      cases cfg.writeFile ctx.w (cfg.absPath (joinPath (r' ++ [c]))) e.mtime b with
      | mk w' res =>
        intro w1 w2
        cases res with
        | error x => trivial
        | ok u =>
          refine ⟨r', hd, hcur, hgrow.trans w1, ?_⟩
          rintro p n2 s2 c2 b2 (hv | ⟨hpP, hpre⟩) h1 h2 h3
          · obtain ⟨q, hq⟩ := hdone p n2 s2 c2 b2 hv h1 h2 h3
            exact ⟨q, FS.resolve_grows w1 hq⟩
          · have := below hp hpP hM (by rw [hk]; simp) hpre
            rw [hd, List.append_assoc] at this
            have := List.append_cancel_left this
            subst this
            obtain ⟨q, hq⟩ := w2 rfl
            rw [XCfg.absPath, hcomps] at hq
            exact ⟨q, hq⟩
  · intro d c V e ctx hp hI hV he
    obtain ⟨r, n, hd, hsub, hM, hcur, hpush, hcomps, hncur, hval⟩ := prep hp hI
    obtain ⟨r', hr', _, hgrow, hdone⟩ := hI
    obtain rfl : r' = r := by rw [hd] at hr'; exact (List.append_cancel_left hr').symm
    obtain ⟨n', hn', h⟩ := G.xent hp
    rw [hM] at hn'; cases hn'
    rw [he] at h
    obtain ⟨hname, hk, hmt, hu⟩ := h
    simp only [extractor, XCfg.onLink, hname, hpush, hall, Bool.not_true, Bool.false_eq_true, if_false]
    have w1 := cfg.writeLink_grows hm ctx.w (cfg.absPath (joinPath (r' ++ [c]))) e.mtime e.target
    revert w1
    cases cfg.writeLink ctx.w (cfg.absPath (joinPath (r' ++ [c]))) e.mtime e.target with
    | mk w' res =>
      intro w1
      cases res with
      | error x => trivial
      | ok u =>
        refine ⟨r', hd, hcur, hgrow.trans w1, ?_⟩
        rintro p n2 s2 c2 b2 (hv | ⟨hpP, hpre⟩) h1 h2 h3
        · obtain ⟨q, hq⟩ := hdone p n2 s2 c2 b2 hv h1 h2 h3
          exact ⟨q, FS.resolve_grows w1 hq⟩
        · have := below hp hpP hM (by rw [hk]; simp) hpre
          rw [hd, List.append_assoc] at this
          have := List.append_cancel_left this
          subst this
          rw [hsub] at h1; cases h1
          rw [hk] at h2; cases h2
  · intro d c V rg e ctx hp hI hV he
    obtain ⟨r, n, hd, hsub, hM, hcur, hpush, hcomps, hncur, hval⟩ := prep hp hI
    obtain ⟨r', hr', _, hgrow, hdone⟩ := hI
    obtain rfl : r' = r := by rw [hd] at hr'; exact (List.append_cancel_left hr').symm
    obtain ⟨n', hn', h⟩ := G.xent hp
    rw [hM] at hn'; cases hn'
    rw [he] at h
    obtain ⟨hname, hk⟩ := h
    have w1 := FsGrows.mkdirs cfg ctx.w (cfg.absPath (joinPath (r' ++ [c])))
    simp only [extractor, XCfg.onEnter, hname, hpush, hall, Bool.not_true, Bool.false_eq_true, if_false]
    revert w1
    cases cfg.mkdirs ctx.w (cfg.absPath (joinPath (r' ++ [c]))) with
    | mk w' res =>
      intro w1
      cases res with
      | error x => trivial
      | ok u =>
        refine ⟨r' ++ [c], by rw [hd]; simp, rfl, hgrow.trans w1, ?_⟩
        rintro p n2 s2 c2 b2 (hv | heq) h1 h2 h3
        · obtain ⟨q, hq⟩ := hdone p n2 s2 c2 b2 hv h1 h2 h3
          exact ⟨q, FS.resolve_grows w1 hq⟩
        · rw [hd, List.append_assoc] at heq
          have := List.append_cancel_left heq
          subst this
          rw [hsub] at h1; cases h1
          rw [hk] at h2; cases h2
  · intro d c V rg e ctx hp hI0 hI he
    obtain ⟨V0, ctx0, hI0, hV0⟩ := hI0
    obtain ⟨r, n, hd, hsub, hM, _, _, hcomps, hncur, hval⟩ := prep hp hI0
    obtain ⟨r2, hr, hcur, hX⟩ := hI
    subst hd
    rw [List.append_assoc, List.append_cancel_left_eq] at hr
    subst hr
    simp only [extractor]
    refine ⟨r, rfl, ?_, hX⟩
    simp only [hcur]
    exact pop_joinPath (fun x hx => hval x (by simp [hx])) (hval c (by simp)) (hncur c (by simp))

theorem Good.placed (G : Good cfg.a M P) (hn : ∀ p n, M.sub d0 p = some n → CUR ∉ p) (hfiles : cfg.files = [])
    (hm : cfg.mode.Keeps) {rg : Range} (hrg : RangeIs P d0 rg.offset rg.count) {depth : Nat}
    (hdepth : cfg.a.entries.length < depth) {last : List (Nat × WriteRes)} {w : World}
    (hx : cfg.extractRange depth rg fs0 last = (w, .ok)) :
    FsGrows fs0 w.fs ∧ ∀ p n s c b, M.sub d0 p = some n → n.kind = .file s c → cfg.bytes c = .found b →
      ∃ q, w.fs.resolve false (cfg.base ++ p) = .ok (.found q) := by
  have hstart := FsGrows.mkdirs cfg (World.init fs0) cfg.base
  have key : ∀ x, (cfg.a.walkFrom extractBuilder (extractor cfg) depth rg ⟨[], World.init fs0⟩) = x → x.2 = .ok () →
      FsGrows fs0 x.1.w.fs ∧ ∀ p n s c b, M.sub d0 p = some n → n.kind = .file s c → cfg.bytes c = .found b →
        ∃ q, x.1.w.fs.resolve false (cfg.base ++ p) = .ok (.found q) := by
    intro x hxe hok
    subst hxe
    revert hok
    simp only [Archive.walkFrom]
    have e1 : (extractor cfg).onStart ⟨[], World.init fs0⟩ =
      (⟨[], (cfg.mkdirs (World.init fs0) cfg.base).1⟩, (cfg.mkdirs (World.init fs0) cfg.base).2) := rfl
    have e2 : ∀ c, (extractor cfg).onStop c = (c, .ok ()) := fun _ => rfl
    rw [e1]
    revert hstart
    cases cfg.mkdirs (World.init fs0) cfg.base with
    | mk w1 r1 =>
      cases r1 with
      | error x => intro _ h; cases h
      | ok u =>
        intro hstart
        simp only [e2, liftOp]
        have hI : PlacedInv cfg fs0 M d0 d0 (fun _ => False) ⟨[], w1⟩ := ⟨[], by simp, rfl, hstart, fun _ _ _ _ _ h => h.elim⟩
        have hrule := specWalk_rule (G.placedRule hn hfiles hm) (fun d => (G.kidsOf d).1) (by
          intro p hp q hq hpre
          obtain ⟨n, hn⟩ := (G.dom p).mp hp
          by_cases hqp : q = p
          · subst hqp; exact hp
          · obtain ⟨k, hk, _⟩ := G.wf.ancestors p n q hn ⟨hq, hqp, hpre⟩
            exact (G.dom q).mpr ⟨k, hk⟩) depth d0 (fun _ => False) ⟨[], w1⟩ (G.deepEnough hdepth d0) hI (fun p hp => hp.elim)
        rw [← G.walkRange_eq extractBuilder (extractor cfg) depth d0 rg ⟨[], w1⟩ hrg] at hrule
        revert hrule
        cases cfg.a.walkRange extractBuilder (extractor cfg) depth rg (⟨[], w1⟩ : XCtx) with
        | mk c2 r2 =>
          cases r2 with
          | error x => intro _ h; cases h
          | ok u =>
            rintro ⟨r, _, _, h1, h2⟩ _
            refine ⟨h1, fun p n s c b k1 k2 k3 => h2 p n s c b ?_ k1 k2 k3⟩
            have hne : p ≠ [] := by rintro rfl; simp [PathMap.sub] at k1
            rw [PathMap.sub_ne hne] at k1
            exact .inr ⟨(G.dom _).mpr ⟨n, k1⟩, List.prefix_append _ _, by simpa using hne⟩
  simp only [XCfg.extractRange] at hx
  generalize hr : cfg.a.walkFrom extractBuilder (extractor cfg) depth rg ⟨[], World.init fs0⟩ = r at hx
  obtain ⟨ctx, res⟩ := r
  cases res with
  | error e => cases hx
  | ok u =>
    simp only at hx
    obtain ⟨k1, k2⟩ := key _ hr rfl
    have hw : w = ctx.w.steps last := by
      have := congrArg Prod.fst hx
      exact this.symm
    have hnodes : w.fs.nodes = ctx.w.fs.nodes := by rw [hw]; exact (World.steps_fs _ _).1
    refine ⟨k1.trans (FsGrows.of_eq hnodes), fun p n s c b h1 h2 h3 => ?_⟩
    obtain ⟨q, hq⟩ := k2 p n s c b h1 h2 h3
    exact ⟨q, FS.resolve_grows (FsGrows.of_eq hnodes) hq⟩

end

theorem resAux_through {fs : FS} {follow : Bool} {retry : List Bytes → List Bytes → Except HErr Loc} (rest : List Bytes) :
    ∀ (todo cur : List Bytes), (∀ c ∈ todo, PlainName c) →
      (∀ q, q <+: todo → q ≠ [] → ∃ t, fs.nodes (cur ++ q) = some (.dir t)) →
      resAux fs follow retry (todo ++ rest) cur = resAux fs follow retry rest (cur ++ todo) := by
  intro todo
  induction todo with
  | nil => intro cur _ _; simp
  | cons c todo ih =>
    intro cur hn hd
    obtain ⟨h1, h2, _⟩ := hn c (by simp)
    obtain ⟨t, ht⟩ := hd [c] (by simp) (by simp)
    rw [List.cons_append]
    rw [resAux, if_neg h1, if_neg h2, ht]
    simp only
    rw [ih (cur ++ [c]) (fun x hx => hn x (by simp [hx]))
      (fun q hq hne => by
        have := hd (c :: q) (by simpa using hq) (by simp)
        simpa using this)]
    simp

theorem resAux_up {fs : FS} {follow : Bool} {retry : List Bytes → List Bytes → Except HErr Loc} (rest : List Bytes) :
    ∀ (k : Nat) (cur : List Bytes),
      resAux fs follow retry (List.replicate k PARENT ++ rest) cur = resAux fs follow retry rest (cur.take (cur.length - k)) := by
  intro k
  induction k with
  | zero => intro cur; simp
  | succ k ih =>
    intro cur
    rw [List.replicate_succ, List.cons_append, resAux, if_neg (by decide), if_pos rfl, ih]
    congr 1
    rw [List.dropLast_eq_take, List.take_take, List.length_take]
    congr 1
    omega

/-- **C17 is false of every archive with a file behind `..`.** Let a created archive (whose paths do not contain `.`), or a
directory of it, have a file `f` that is `k` directories named `..` down, and let the whole of it be extracted, with success
and in a mode that replaces nothing, to an existing directory `base`. If nothing was there before, there is now something named
`f` in the directory `k` levels above `base` — outside of `base`. -/
theorem C17_escapes {rs : List AddReq} {m : PathMap} {cfg : XCfg} {rg : Range} {d0 : List Bytes} {before after : FS}
    (h : Source rs m cfg.a rg d0) (hn : ∀ p n, m.sub d0 p = some n → CUR ∉ p) (hfiles : cfg.files = [])
    (hm : cfg.mode = .skip ∨ cfg.mode = .warn ∨ cfg.mode = .error)
    (hbase : cfg.base ≠ []) (hplain : ∀ c ∈ cfg.base, PlainName c)
    (hdirs : ∀ q, q <+: cfg.base → q ≠ [] → ∃ t, before.nodes q = some (.dir t))
    {k : Nat} (hk : 1 ≤ k) {f : Bytes} (hf : f ≠ PARENT) {n : Node} {s : Nat} {c : ContentAddr} {b : Bytes}
    (hp : m.sub d0 (List.replicate k PARENT ++ [f]) = some n) (hkind : n.kind = .file s c) (hb : cfg.bytes c = .found b)
    (hfree : before.nodes (cfg.base.take (cfg.base.length - k) ++ [f]) = none)
    (hx : Extraction cfg rg before after .ok) :
    after.nodes (cfg.base.take (cfg.base.length - k) ++ [f]) ≠ none ∧
    ¬ cfg.base <+: cfg.base.take (cfg.base.length - k) ++ [f] := by
  obtain ⟨P, G, hrg⟩ := h.good
  obtain ⟨depth, last, w, hd, hx, _, rfl⟩ := hx
  obtain ⟨hgrow, hplaced⟩ := G.placed hn hfiles hm hrg hd hx
  refine ⟨?_, ?_⟩
  · obtain ⟨q, hq⟩ := hplaced _ n s c b hp hkind hb
    intro hnone
    unfold FS.resolve at hq
    split at hq
    · cases hq
    · have hcur : f ≠ CUR := fun e => hn _ _ hp (by simp [e])
      rw [resolveN, resAux_through _ cfg.base [] hplain (fun q hq hne => by
        obtain ⟨t, ht⟩ := hdirs q hq hne
        exact ⟨t, by simpa using hgrow _ _ ht⟩), List.nil_append, resAux_up, resAux, if_neg hcur, if_neg hf, hnone] at hq
      simp at hq
  · intro hpre
    have hlen := hpre.length_le
    simp only [List.length_append, List.length_take, List.length_cons, List.length_nil] at hlen
    have hpos := List.length_pos_iff.mpr hbase
    have heq := hpre.eq_of_length (by simp only [List.length_append, List.length_take, List.length_cons, List.length_nil]; omega)
    obtain ⟨t, ht⟩ := hdirs cfg.base (List.prefix_refl _) hbase
    rw [← heq, ht] at hfree
    cases hfree

/-- the archive of `C17_parent_counterexample`, extracted to the existing directory `/u/t`: `/u/x` is new -/
def escapeFs : FS := mkFs [([ascii "u"], .dir 1), ([ascii "u", ascii "t"], .dir 2)] (fun _ => ⟨[], 0⟩) 0
def escapeX : XCfg := ⟨upArchive, exBytes, [], true, [ascii "u", ascii "t"], .error, quiet⟩

example : ∃ after, Extraction escapeX upArchive.root escapeFs after .ok ∧ escapeFs.nodes [ascii "u", ascii "x"] = none ∧
    after.nodes [ascii "u", ascii "x"] ≠ none := by
  obtain ⟨m, hm, _⟩ := spec_exists upWritten
  have hx : Extraction escapeX upArchive.root escapeFs (escapeX.extractRange 5 upArchive.root escapeFs finish).1.fs .ok :=
    ⟨5, finish, _, by decide, Prod.ext rfl (by decide), by decide, rfl⟩
  refine ⟨_, hx, by decide, ?_⟩
  obtain ⟨n, hn, h1, h2, h3, h⟩ := map_kind upWritten hm (ascii "../x") (by decide) rfl
  have e4 : comps (ascii "../x") = List.replicate 1 PARENT ++ [ascii "x"] := by decide
  rw [e4] at hn
  have hk : n.kind = .file 3 ⟨1, 0⟩ := by
    cases hk : n.kind <;> simp only [hk] at h
    · obtain ⟨f, g, hf⟩ := h; cases hf
    · obtain ⟨f, hf, hs, hc⟩ := h; cases hf; rw [← hs, ← hc]; rfl
    · obtain ⟨f, hf, _⟩ := h; cases hf
  have hcur : ∀ p n, m.sub [] p = some n → CUR ∉ p := by
    intro p n hp
    have hne : p ≠ [] := by rintro rfl; simp [PathMap.sub] at hp
    rw [PathMap.sub_ne hne, List.nil_append] at hp
    obtain ⟨i, hi, hu⟩ := map_cases upWritten hm hp
    have hl : upArchive.entries.length = 2 := by decide
    rw [hl] at hi hu
    match i, hi with
    | 0, _ => have : pathUp upArchive 2 0 = some [PARENT] := by decide
              rw [this] at hu; cases hu; decide
    | 1, _ => have : pathUp upArchive 2 1 = some [PARENT, ascii "x"] := by decide
              rw [this] at hu; cases hu; decide
  exact (C17_escapes (cfg := escapeX) (k := 1) ⟨upWritten, hm, .inl ⟨rfl, rfl⟩⟩ hcur rfl (.inr (.inr rfl)) (by decide) (by
    intro c hc
    unfold PlainName
    revert c
    decide) (by
    intro q hq hne
    have : q = [ascii "u"] ∨ q = [ascii "u", ascii "t"] := by
      obtain ⟨r, hr⟩ := hq
      match q, hr with
      | [], _ => exact absurd rfl hne
      | [a], hr => left; cases hr; rfl
      | [a, b], hr => right; cases hr; rfl
      | a :: b :: c :: l, hr => cases hr
    rcases this with rfl | rfl
    · exact ⟨1, by decide⟩
    · exact ⟨2, by decide⟩) (by decide) (by decide) hn hk rfl (by decide) hx).1

/-! ## Any path that leads out -/

theorem resAux_found {fs : FS} {retry : List Bytes → List Bytes → Except HErr Loc} {f : Bytes} (hc : f ≠ CUR) (hf : f ≠ PARENT) {x : List Bytes} :
    ∀ (todo cur : List Bytes), (∀ q, q <+: todo → q ≠ [] → ∀ t s, fs.nodes (leadsFrom cur q) ≠ some (.link t s)) →
      resAux fs false retry (todo ++ [f]) cur = .ok (.found x) → fs.nodes (leadsFrom cur todo ++ [f]) ≠ none := by
  intro todo
  induction todo with
  | nil =>
    intro cur _ h hnone
    rw [show leadsFrom cur [] = cur from rfl] at hnone
    rw [List.nil_append, resAux, if_neg hc, if_neg hf, hnone] at h
    simp at h
  | cons c todo ih =>
    intro cur hl h
    have step : leadsFrom cur (c :: todo) = leadsFrom (leadStep cur c) todo := rfl
    have hl' : ∀ q, q <+: todo → q ≠ [] → ∀ t s, fs.nodes (leadsFrom (leadStep cur c) q) ≠ some (.link t s) := by
      intro q hq hne
      exact hl (c :: q) (by simpa using hq) (by simp)
    rw [step]
    apply ih _ hl'
    rw [List.cons_append, resAux] at h
    unfold leadStep
    by_cases h1 : c = CUR
    · rw [if_pos h1] at h ⊢; exact h
    · rw [if_neg h1] at h ⊢
      by_cases h2 : c = PARENT
      · rw [if_pos h2] at h ⊢; exact h
      · rw [if_neg h2] at h ⊢
        have hthis := hl [c] (by simp) (by simp)
        have e : leadsFrom cur [c] = cur ++ [c] := by simp [leadsFrom, leadStep, h1, h2]
        rw [e] at hthis
        cases hk : fs.nodes (cur ++ [c]) with
        | none => rw [hk] at h; simp at h
        | some n =>
          rw [hk] at h
          cases n with
          | dir t => exact h
          | file i => simp at h
          | link t s => exact absurd hk (hthis t s)

/-- **C17 is false whenever a path leads out.** Let a created archive (whose paths do not contain `.`), or a directory of it,
have a file at `p` with `p` of any shape (`a/../../b/f`, …) and let the whole of it be extracted, with success and in a mode that
replaces nothing, to an existing directory `base`. If there is no symbolic link on the way of `p` from `base`, `p` leads to a
place outside of `base`, and there was nothing, then there is something now: not only `base` has changed. With
`C17_tree_inside`, for archives without symbolic links this is what the property depends on. -/
theorem C17_escapes_any {rs : List AddReq} {m : PathMap} {cfg : XCfg} {rg : Range} {d0 : List Bytes} {before after : FS}
    (h : Source rs m cfg.a rg d0) (hn : ∀ p n, m.sub d0 p = some n → CUR ∉ p) (hfiles : cfg.files = [])
    (hm : cfg.mode = .skip ∨ cfg.mode = .warn ∨ cfg.mode = .error)
    (hplain : ∀ c ∈ cfg.base, PlainName c)
    (hdirs : ∀ q, q <+: cfg.base → q ≠ [] → ∃ t, before.nodes q = some (.dir t))
    {d : List Bytes} {f : Bytes} (hf : f ≠ PARENT) {n : Node} {s : Nat} {c : ContentAddr} {b : Bytes}
    (hp : m.sub d0 (d ++ [f]) = some n) (hkind : n.kind = .file s c) (hb : cfg.bytes c = .found b)
    (hlinks : ∀ q, q <+: d → q ≠ [] → ∀ t x, after.nodes (leadsFrom cfg.base q) ≠ some (.link t x))
    (hout : ¬ cfg.base <+: leadsFrom cfg.base (d ++ [f])) (hfree : before.nodes (leadsFrom cfg.base (d ++ [f])) = none)
    (hx : Extraction cfg rg before after .ok) :
    after.nodes (leadsFrom cfg.base (d ++ [f])) ≠ none ∧ ¬ OnlyBelow cfg.base before after := by
  have hcur : f ≠ CUR := fun e => hn _ _ hp (by simp [e])
  have hlead : leadsFrom cfg.base (d ++ [f]) = leadsFrom cfg.base d ++ [f] := by
    simp [leadsFrom, leadStep, hcur, hf]
  have hsome : after.nodes (leadsFrom cfg.base (d ++ [f])) ≠ none := by
    obtain ⟨P, G, hrg⟩ := h.good
    obtain ⟨depth, last, w, hd, hx, _, rfl⟩ := hx
    obtain ⟨hgrow, hplaced⟩ := G.placed hn hfiles hm hrg hd hx
    obtain ⟨q, hq⟩ := hplaced _ n s c b hp hkind hb
    unfold FS.resolve at hq
    split at hq
    · cases hq
    · rw [resolveN, resAux_through _ cfg.base [] hplain (fun q hq hne => by
        obtain ⟨t, ht⟩ := hdirs q hq hne
        exact ⟨t, by simpa using hgrow _ _ ht⟩), List.nil_append] at hq
      rw [hlead]
      exact resAux_found hcur hf d cfg.base hlinks hq
  refine ⟨hsome, fun hbelow => ?_⟩
  rcases hbelow.nodes _ hout with he | ⟨hpre, _, _⟩
  · rw [hfree] at he; exact hsome he
  · obtain ⟨t, ht⟩ := hdirs _ hpre (by rw [hlead]; simp)
    rw [hfree] at ht; cases ht

/-- an archive with the file `a/../../x` -/
def outReqs : List AddReq := [⟨ascii "a/../../x", .ok (some (.file 3 ⟨1, 0⟩)), exMeta⟩]
def outSt : Creator := (Creator.new.run outReqs).getD Creator.new
def outArchive : Archive := writeArchive outSt [0, 1, 2, 3]
theorem outWritten : Written outReqs outArchive := by
  obtain ⟨m, paths, hs, R⟩ := run_rel (st := outSt) (rs := outReqs) (by rfl)
  exact ⟨outSt, [0, 1, 2, 3], rfl, R.layoutLoop_sound 4 _ _ (by rw [R.len]) (by decide), rfl, by decide⟩
def outX : XCfg := ⟨outArchive, exBytes, [], true, [ascii "u", ascii "t"], .error, quiet⟩

def dirNode : FNode → Bool
  | .dir _ => true
  | _ => false

theorem outX_ok : ∃ w, outX.extractRange 5 outArchive.root escapeFs finish = (w, .ok) ∧ w.finished ∧
    (∃ y, w.fs.nodes [ascii "u", ascii "t", ascii "a"] = some (.dir y)) ∧ (∃ y, w.fs.nodes [ascii "u", ascii "t"] = some (.dir y)) ∧
    (∃ y, w.fs.nodes [ascii "u"] = some (.dir y)) := by
  have h : (outX.extractRange 5 outArchive.root escapeFs finish).2 = .ok ∧ (outX.extractRange 5 outArchive.root escapeFs finish).1.finished ∧
      (((outX.extractRange 5 outArchive.root escapeFs finish).1.fs.nodes [ascii "u", ascii "t", ascii "a"]).map dirNode = some true) ∧
      (((outX.extractRange 5 outArchive.root escapeFs finish).1.fs.nodes [ascii "u", ascii "t"]).map dirNode = some true) ∧
      (((outX.extractRange 5 outArchive.root escapeFs finish).1.fs.nodes [ascii "u"]).map dirNode = some true) := by decide +kernel
  revert h
  generalize outX.extractRange 5 outArchive.root escapeFs finish = r
  obtain ⟨w, res⟩ := r
  have key : ∀ x : Option FNode, x.map dirNode = some true → ∃ y, x = some (.dir y) := by
    intro x hx
    cases x with
    | none => cases hx
    | some x => cases x with
      | dir y => exact ⟨y, rfl⟩
      | file _ => cases hx
      | link _ _ => cases hx
  rintro ⟨h1, h2, h3, h4, h5⟩
  simp only at h1
  subst h1
  exact ⟨w, rfl, h2, key _ h3, key _ h4, key _ h5⟩

/-- … extracted to the existing directory `/u/t` makes `/u/x` -/
example : ∃ after, Extraction outX outArchive.root escapeFs after .ok ∧ after.nodes [ascii "u", ascii "x"] ≠ none ∧
    ¬ OnlyBelow [ascii "u", ascii "t"] escapeFs after := by
  obtain ⟨m, hm, _⟩ := spec_exists outWritten
  obtain ⟨w, hw, hfin, ha, ht, hu⟩ := outX_ok
  have hx : Extraction outX outArchive.root escapeFs w.fs .ok := ⟨5, finish, w, by decide, hw, hfin, rfl⟩
  refine ⟨_, hx, ?_⟩
  obtain ⟨n, hn, h1, h2, h3, h⟩ := map_kind outWritten hm (ascii "a/../../x") (by decide) rfl
  have e4 : comps (ascii "a/../../x") = [ascii "a", PARENT, PARENT] ++ [ascii "x"] := by decide
  rw [e4] at hn
  have hk : n.kind = .file 3 ⟨1, 0⟩ := by
    cases hk : n.kind <;> simp only [hk] at h
    · obtain ⟨f, g, hf⟩ := h; cases hf
    · obtain ⟨f, hf, hs, hc⟩ := h; cases hf; rw [← hs, ← hc]; rfl
    · obtain ⟨f, hf, _⟩ := h; cases hf
  have hcur : ∀ p n, m.sub [] p = some n → CUR ∉ p := by
    intro p n hp
    have hne : p ≠ [] := by rintro rfl; simp [PathMap.sub] at hp
    rw [PathMap.sub_ne hne, List.nil_append] at hp
    obtain ⟨i, hi, hu⟩ := map_cases outWritten hm hp
    have hl : outArchive.entries.length = 4 := by decide
    rw [hl] at hi hu
    match i, hi with
    | 0, _ => have : pathUp outArchive 4 0 = some [ascii "a"] := by decide
              rw [this] at hu; cases hu; decide
    | 1, _ => have : pathUp outArchive 4 1 = some [ascii "a", PARENT] := by decide
              rw [this] at hu; cases hu; decide
    | 2, _ => have : pathUp outArchive 4 2 = some [ascii "a", PARENT, PARENT] := by decide
              rw [this] at hu; cases hu; decide
    | 3, _ => have : pathUp outArchive 4 3 = some [ascii "a", PARENT, PARENT, ascii "x"] := by decide
              rw [this] at hu; cases hu; decide
  refine C17_escapes_any (cfg := outX) (d := [ascii "a", PARENT, PARENT]) (f := ascii "x") ⟨outWritten, hm, .inl ⟨rfl, rfl⟩⟩ hcur rfl (.inr (.inr rfl)) (by
    intro c hc
    unfold PlainName
    revert c
    decide) ?_ (by decide) hn hk rfl ?_ (by decide) (by decide) hx
  · intro q hq hne
    have : q = [ascii "u"] ∨ q = [ascii "u", ascii "t"] := by
      obtain ⟨r, hr⟩ := hq
      match q, hr with
      | [], _ => exact absurd rfl hne
      | [a], hr => left; cases hr; rfl
      | [a, b], hr => right; cases hr; rfl
      | a :: b :: c :: l, hr => cases hr
    rcases this with rfl | rfl
    · exact ⟨1, by decide⟩
    · exact ⟨2, by decide⟩
  · intro q hq hne t x hlink
    have hin : q = [ascii "a"] ∨ q = [ascii "a", PARENT] ∨ q = [ascii "a", PARENT, PARENT] := by
      obtain ⟨r, hr⟩ := hq
      match q, hr with
      | [], _ => exact absurd rfl hne
      | [a], hr => left; cases hr; rfl
      | [a, b], hr => right; left; cases hr; rfl
      | [a, b, c], hr => right; right; cases hr; rfl
      | a :: b :: c :: d :: l, hr => cases hr
    have hdir : ∀ q t x, (∃ y, w.fs.nodes q = some (.dir y)) → w.fs.nodes q ≠ some (.link t x) := by
      rintro q t x ⟨y, hy⟩ h; rw [hy] at h; cases h
    rcases hin with rfl | rfl | rfl
    · exact hdir _ _ _ ha hlink
    · exact hdir _ _ _ ht hlink
    · exact hdir _ _ _ hu hlink

end Arx
