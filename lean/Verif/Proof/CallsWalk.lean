import Verif.Proof.CallsProof
import Verif.Proof.ExtractMain
/-!
# The calls of the extraction of a created archive, and of any table
-/
namespace Arx

theorem Handled.mono {cfg : XCfg} {t t' : XTrace} {p : List Bytes} {n : Node} (h : Handled cfg t p n) (ht : t <+: t') :
    Handled cfg t' p n := by
  have hm : ∀ x, x ∈ t → x ∈ t' := fun x hx => ht.subset hx
  have ho : ∀ x, x ∈ opens t → x ∈ opens t' := by
    obtain ⟨s, rfl⟩ := ht
    intro x hx
    rw [opens_append]
    exact List.mem_append_left _ hx
  have hk : ∀ follow, (cfg.mode = .skip ∨ cfg.mode = .warn ∨
      (cfg.mode = .newer ∧ ∃ x, (XCall.modified follow p, XAns.time x) ∈ t ∧ (n.info.mtime : Int) * 1000000000 < x)) →
      (cfg.mode = .skip ∨ cfg.mode = .warn ∨
      (cfg.mode = .newer ∧ ∃ x, (XCall.modified follow p, XAns.time x) ∈ t' ∧ (n.info.mtime : Int) * 1000000000 < x)) := by
    rintro follow (h | h | ⟨h, x, h1, h2⟩)
    · exact .inl h
    · exact .inr (.inl h)
    · exact .inr (.inr ⟨h, x, hm _ h1, h2⟩)
  unfold Handled at h ⊢
  simp only at h ⊢
  cases hkind : n.kind with
  | dir => rw [hkind] at h; simp only at h ⊢; exact h.imp (hm _) (hm _)
  | link t =>
    rw [hkind] at h
    simp only at h ⊢
    rcases h with h | ⟨h1, h2⟩
    · exact .inl (hm _ h)
    · exact .inr ⟨hm _ h1, hk _ h2⟩
  | file s c =>
    rw [hkind] at h
    simp only at h ⊢
    cases hb : cfg.bytes c with
    | err => rw [hb] at h; exact h
    | missing => trivial
    | found b =>
      rw [hb] at h
      rcases h with ⟨f, h⟩ | ⟨h1, h2⟩
      · exact .inl ⟨f, ho _ h⟩
      · exact .inr ⟨hm _ h1, hk _ h2⟩

theorem parentOf_noCur {p : List Bytes} (h : ∀ c ∈ p, c ≠ CUR) : parentOf p = p.dropLast := by
  unfold parentOf
  rw [List.filter_eq_self.mpr (fun c hc => by simpa using h c hc)]

section
variable {cfg : XCfg} {M : PathMap} {P : List (List Bytes)} {d0 : List Bytes}

theorem sub_above (wf : M.WF) {p q : List Bytes} {n : Node} (hm : M.sub d0 p = some n) (hq : q <+: p) (hne : q ≠ []) (hqp : q ≠ p) :
    ∃ k, M.sub d0 q = some k ∧ k.kind = .dir := by
  obtain ⟨_, h⟩ := PathMap.sub_some hm
  obtain ⟨k, hk, hd⟩ := wf.ancestors _ _ (d0 ++ q) h ⟨by simp [hne], by simpa using hqp, by rw [List.prefix_append_right_inj]; exact hq⟩
  exact ⟨k, by rw [PathMap.sub_ne hne]; exact hk, Kind.isDir_iff.mp hd⟩

theorem plan_up (wf : M.WF) (N : NoDots cfg.base (M.sub d0)) :
    ∀ p, (cfg.plan (M.sub d0)).dir p → (cfg.plan (M.sub d0)).dir (parentOf p) := by
  rintro p (hp | ⟨q, n, rfl, hm, hk, hs⟩)
  · left
    rw [parentOf_noCur (fun c hc => N.base c (hp.subset hc))]
    exact (List.dropLast_prefix p).trans hp
  · rw [parentOf_noCur (fun c hc => by
      rcases List.mem_append.mp hc with h | h
      · exact N.base c h
      · exact N.names _ _ hm c h)]
    rcases nil_or_snoc q with rfl | ⟨r, c, rfl⟩
    · simp [PathMap.sub] at hm
    · rw [← List.append_assoc, List.dropLast_concat]
      by_cases hr : r = []
      · subst hr; left; simp
      · obtain ⟨k, h1, h2⟩ := sub_above (q := r) wf hm (List.prefix_append _ _) hr (by simp)
        exact .inr ⟨r, k, rfl, h1, h2, hs.up (List.prefix_append _ _) (by simp) (fun x hx => N.names _ _ hm x hx)⟩

/-- the invariant of the walk -/
def CW (cfg : XCfg) (M : PathMap) (d0 d : List Bytes) (V : List Bytes → Prop) (ctx : CCtx) : Prop :=
  ∃ r, d = d0 ++ r ∧ ctx.cur = joinPath r ∧ CInv (cfg.plan (M.sub d0)) ctx.w ∧
    ∀ q n, M.sub d0 q = some n → Selected cfg.files cfg.recurse q n.isDir → V (d0 ++ q) → Handled cfg ctx.w.trace (cfg.base ++ q) n

theorem Good.callRule (G : Good cfg.a M P) (N : NoDots cfg.base (M.sub d0)) (env : CallEnv) :
    WalkRule P (cfg.a.entOf P extractBuilder) (callExtractor cfg env) (CW cfg M d0) (fun c => CInv (cfg.plan (M.sub d0)) c.w) := by
  have hup := plan_up (cfg := cfg) (d0 := d0) G.wf N
  have prep : ∀ {d c V ctx}, d ++ [c] ∈ P → CW cfg M d0 d V ctx → ∃ r n, d = d0 ++ r ∧ M.sub d0 (r ++ [c]) = some n ∧
      M (d ++ [c]) = some n ∧ ctx.cur = joinPath r ∧ RPath.push ctx.cur c = joinPath (r ++ [c]) ∧
      comps (joinPath (r ++ [c])) = r ++ [c] ∧ (∀ x ∈ r ++ [c], x ≠ CUR) ∧ (∀ x ∈ r ++ [c], ValidName x) ∧
      CInv (cfg.plan (M.sub d0)) ctx.w ∧
      (∀ q n, M.sub d0 q = some n → Selected cfg.files cfg.recurse q n.isDir → V (d0 ++ q) → Handled cfg ctx.w.trace (cfg.base ++ q) n) := by
    rintro d c V ctx hp ⟨r, rfl, h1, h2, h3⟩
    obtain ⟨n, hn⟩ := (G.dom _).mp hp
    have hm : M.sub d0 (r ++ [c]) = some n := by rw [PathMap.sub_ne (by simp)]; simpa using hn
    have hval : ∀ x ∈ r ++ [c], ValidName x := fun x hx => G.wf.names _ _ hn x (by simpa using .inr (by simpa using hx))
    refine ⟨r, n, rfl, hm, hn, h1, ?_, comps_joinPath hval, N.names _ _ hm, hval, h2, h3⟩
    rw [h1, push_joinPath (fun x hx => hval x (by simp [hx])) (hval c (by simp))]
  -- a leaf
  have leaf : ∀ {r : List Bytes} {c : Bytes} {n : Node} {V : List Bytes → Prop} {w w' : CWorld} {cur : RPath},
      M.sub d0 (r ++ [c]) = some n → n.isDir = false → cur = joinPath r →
      (∀ q n, M.sub d0 q = some n → Selected cfg.files cfg.recurse q n.isDir → V (d0 ++ q) → Handled cfg w.trace (cfg.base ++ q) n) →
      CInv (cfg.plan (M.sub d0)) w' → w.trace <+: w'.trace →
      (Selected cfg.files cfg.recurse (r ++ [c]) n.isDir → Handled cfg w'.trace (cfg.base ++ (r ++ [c])) n) →
      CW cfg M d0 (d0 ++ r) (fun p => V p ∨ (p ∈ P ∧ d0 ++ r ++ [c] <+: p)) ⟨cur, w'⟩ := by
    intro r c n V w w' cur hm hnd hcur hV hI hpre hH
    refine ⟨r, rfl, hcur, hI, fun q k hq hs hv => ?_⟩
    rcases hv with hv | ⟨_, hle⟩
    · exact (hV q k hq hs hv).mono hpre
    · rw [List.append_assoc, List.prefix_append_right_inj] at hle
      by_cases he : r ++ [c] = q
      · subst he; rw [hm] at hq; cases hq; exact hH hs
      · obtain ⟨k', hk', hkd⟩ := sub_above G.wf hq hle (by simp) he
        rw [hm] at hk'; cases hk'
        rw [isDir_kind hkd] at hnd; cases hnd
  -- unselected: nothing below is selected
  have unsel : ∀ {r : List Bytes} {c : Bytes} {n : Node} {q : List Bytes} {k : Node}, M.sub d0 (r ++ [c]) = some n →
      ¬ Selected cfg.files cfg.recurse (r ++ [c]) n.isDir → M.sub d0 q = some k → Selected cfg.files cfg.recurse q k.isDir →
      ¬ r ++ [c] <+: q := by
    intro r c n q k hm hns hq hs hle
    by_cases he : r ++ [c] = q
    · subst he; rw [hm] at hq; cases hq; exact hns hs
    · obtain ⟨k', hk', hkd⟩ := sub_above G.wf hq hle (by simp) he
      rw [hm] at hk'; cases hk'
      rw [isDir_kind hkd] at hns
      exact hns (hs.up hle he (fun x hx => N.names _ _ hq x hx))
  refine ⟨?_, ?_, ?_, ?_, ?_⟩
  · intro d c V x ctx hp hI hV he
    obtain ⟨r, _, _, h, _⟩ := hI
    exact h
  · -- a file
    intro d c V e ctx hp hI hV he
    obtain ⟨r, n, hd, hm, hM, hcur, hpush, hcomps, hncur, hval, hX, hH⟩ := prep hp hI
    subst hd
    obtain ⟨n', hn', h⟩ := G.xent hp
    rw [hM] at hn'; cases hn'
    rw [he] at h
    obtain ⟨hname, ⟨s, hk⟩, hmt⟩ := h
    have hnd : n.isDir = false := by rw [Node.isDir, hk]; rfl
    have hsel := shouldExtract_iff cfg hcomps (by simp) hncur false
    simp only [callExtractor, XCfg.onFileC, hname, hpush]
    by_cases hs : Selected cfg.files cfg.recurse (r ++ [c]) false
    · rw [hsel.mpr hs]
      simp only [Bool.not_true, Bool.false_eq_true, if_false]
      cases hb : cfg.bytes e.content with
      | err => exact hX
      | missing =>
        refine leaf hm hnd hcur hH hX (List.prefix_refl _) (fun _ => ?_)
        simp only [Handled, hk, hb]
      | found b =>
        simp only
        rw [XCfg.absPath, hcomps]
        have hf : (cfg.plan (M.sub d0)).file (cfg.base ++ (r ++ [c])) e.mtime b := ⟨r ++ [c], n, s, e.content, rfl, hm, hk, hs, hmt, hb⟩
        have hpost := hX.writeFile (env := env) hf
        have hmode : (cfg.plan (M.sub d0)).mode = cfg.mode := rfl
        rw [hmode] at hpost
        revert hpost
        cases ctx.w.writeFile env cfg.mode (cfg.base ++ (r ++ [c])) e.mtime b with
        | mk w' res =>
          rintro ⟨h1, h2, h3⟩
          cases res with
          | error x => exact h1
          | ok u =>
            refine leaf hm hnd hcur hH h1 h2 (fun _ => ?_)
            have h3 := h3 rfl
            simp only [Handled, hk, hb, ← hmt]
            exact h3
    · have hf : cfg.shouldExtract (joinPath (r ++ [c])) false = false := by
        cases hx : cfg.shouldExtract (joinPath (r ++ [c])) false with
        | true => exact absurd (hsel.mp hx) hs
        | false => rfl
      rw [hf]
      simp only [Bool.not_false, if_true]
      exact leaf hm hnd hcur hH hX (List.prefix_refl _) (fun h => absurd (hnd ▸ h) hs)
  · -- a link
    intro d c V e ctx hp hI hV he
    obtain ⟨r, n, hd, hm, hM, hcur, hpush, hcomps, hncur, hval, hX, hH⟩ := prep hp hI
    subst hd
    obtain ⟨n', hn', h⟩ := G.xent hp
    rw [hM] at hn'; cases hn'
    rw [he] at h
    obtain ⟨hname, hk, hmt, hu⟩ := h
    have hnd : n.isDir = false := by rw [Node.isDir, hk]; rfl
    have hsel := shouldExtract_iff cfg hcomps (by simp) hncur false
    simp only [callExtractor, XCfg.onLinkC, hname, hpush]
    by_cases hs : Selected cfg.files cfg.recurse (r ++ [c]) false
    · rw [hsel.mpr hs]
      simp only [Bool.not_true, Bool.false_eq_true, if_false]
      rw [XCfg.absPath, hcomps]
      have hf : (cfg.plan (M.sub d0)).link (cfg.base ++ (r ++ [c])) e.mtime e.target := ⟨r ++ [c], n, rfl, hm, hk, hs, hmt⟩
      have hpost := hX.writeLink (env := env) hf
      have hmode : (cfg.plan (M.sub d0)).mode = cfg.mode := rfl
      rw [hmode] at hpost
      revert hpost
      cases ctx.w.writeLink env cfg.mode (cfg.base ++ (r ++ [c])) e.mtime e.target with
      | mk w' res =>
        rintro ⟨h1, h2, h3⟩
        cases res with
        | error x => exact h1
        | ok u =>
          refine leaf hm hnd hcur hH h1 h2 (fun _ => ?_)
          have h3 := h3 rfl
          simp only [Handled, hk, ← hmt]
          exact h3
    · have hf : cfg.shouldExtract (joinPath (r ++ [c])) false = false := by
        cases hx : cfg.shouldExtract (joinPath (r ++ [c])) false with
        | true => exact absurd (hsel.mp hx) hs
        | false => rfl
      rw [hf]
      simp only [Bool.not_false, if_true]
      exact leaf hm hnd hcur hH hX (List.prefix_refl _) (fun h => absurd (hnd ▸ h) hs)
  · -- entering a directory
    intro d c V rg e ctx hp hI hV he
    obtain ⟨r, n, hd, hm, hM, hcur, hpush, hcomps, hncur, hval, hX, hH⟩ := prep hp hI
    subst hd
    obtain ⟨n', hn', h⟩ := G.xent hp
    rw [hM] at hn'; cases hn'
    rw [he] at h
    obtain ⟨hname, hk⟩ := h
    have hnd : n.isDir = true := isDir_kind hk
    have hsel := shouldExtract_iff cfg hcomps (by simp) hncur true
    simp only [callExtractor, XCfg.onEnterC, hname, hpush]
    by_cases hs : Selected cfg.files cfg.recurse (r ++ [c]) true
    · rw [hsel.mpr hs]
      simp only [Bool.not_true, Bool.false_eq_true, if_false]
      rw [XCfg.absPath, hcomps]
      have hpost := hX.mkdirs (env := env) hup (p := cfg.base ++ (r ++ [c])) (.inr ⟨r ++ [c], n, rfl, hm, hk, hs⟩)
      revert hpost
      cases ctx.w.mkdirs env (cfg.base ++ (r ++ [c])) with
      | mk w' res =>
        rintro ⟨h1, h2, h3⟩
        cases res with
        | error x => exact h1
        | ok u =>
          refine ⟨r ++ [c], by simp, rfl, h1, fun q k hq hs' hv => ?_⟩
          rcases hv with hv | hv
          · exact (hH q k hq hs' hv).mono h2
          · have : q = r ++ [c] := by simpa using hv
            subst this
            rw [hm] at hq; cases hq
            simp only [Handled, hk]
            exact h3 rfl
    · have hf : cfg.shouldExtract (joinPath (r ++ [c])) true = false := by
        cases hx : cfg.shouldExtract (joinPath (r ++ [c])) true with
        | true => exact absurd (hsel.mp hx) hs
        | false => rfl
      rw [hf]
      simp only [Bool.not_false, if_true]
      refine ⟨r ++ [c], by simp, rfl, hX, fun q k hq hs' hv => ?_⟩
      rcases hv with hv | ⟨_, hle⟩
      · exact hH q k hq hs' hv
      · rw [List.append_assoc, List.prefix_append_right_inj] at hle
        exact absurd hle (unsel hm (by rw [hnd]; exact hs) hq hs')
  · -- leaving a directory
    intro d c V rg e ctx hp hI0 hI he
    obtain ⟨V0, ctx0, hI0, hV0⟩ := hI0
    obtain ⟨r, n, hd, hm, hM, _, _, hcomps, hncur, hval, _, _⟩ := prep hp hI0
    obtain ⟨r2, hr, hcur, hX, hH⟩ := hI
    subst hd
    rw [List.append_assoc, List.append_cancel_left_eq] at hr
    subst hr
    simp only [callExtractor]
    refine ⟨r, rfl, ?_, hX, hH⟩
    simp only [hcur]
    exact pop_joinPath (fun x hx => hval x (by simp [hx])) (hval c (by simp)) (hncur c (by simp))

/-- the calls of the extraction of a created archive -/
theorem Good.callExtract (G : Good cfg.a M P) (N : NoDots cfg.base (M.sub d0)) (env : CallEnv) {rg : Range}
    (hrg : RangeIs P d0 rg.offset rg.count) {depth : Nat} (hdepth : cfg.a.entries.length < depth) (last : List (Nat × WriteRes)) :
    let r := cfg.callExtract env depth rg last
    CInv (cfg.plan (M.sub d0)) r.1 ∧
    (r.2 = .ok → r.1.okFlag = true ∧
      ∀ q n, M.sub d0 q = some n → Selected cfg.files cfg.recurse q n.isDir → Handled cfg r.1.trace (cfg.base ++ q) n) := by
  have hup := plan_up (cfg := cfg) (d0 := d0) G.wf N
  have key : WalkPost (fun c : CCtx => CInv (cfg.plan (M.sub d0)) c.w ∧
      ∀ q n, M.sub d0 q = some n → Selected cfg.files cfg.recurse q n.isDir → Handled cfg c.w.trace (cfg.base ++ q) n)
      (fun c => CInv (cfg.plan (M.sub d0)) c.w)
      (cfg.a.walkFrom extractBuilder (callExtractor cfg env) depth rg ⟨[], ⟨[], [], true⟩⟩) := by
    have hstart := (CInv.start (cfg.plan (M.sub d0))).mkdirs (env := env) hup (p := cfg.base) (.inl (List.prefix_refl _))
    simp only [Archive.walkFrom]
    have e1 : (callExtractor cfg env).onStart ⟨[], ⟨[], [], true⟩⟩ =
      (⟨[], (CWorld.mkdirs env ⟨[], [], true⟩ cfg.base).1⟩, (CWorld.mkdirs env ⟨[], [], true⟩ cfg.base).2) := rfl
    have e2 : ∀ c, (callExtractor cfg env).onStop c = (c, .ok ()) := fun _ => rfl
    rw [e1]
    revert hstart
    cases CWorld.mkdirs env ⟨[], [], true⟩ cfg.base with
    | mk w1 r1 =>
      rintro ⟨hs, _, _⟩
      cases r1 with
      | error x => exact hs
      | ok u =>
        simp only [e2, liftOp]
        have hI : CW cfg M d0 d0 (fun _ => False) ⟨[], w1⟩ := ⟨[], by simp, rfl, hs, fun _ _ _ _ h => h.elim⟩
        have hrule := specWalk_rule (G.callRule N env) (fun d => (G.kidsOf d).1) (by
          intro p hp q hq hpre
          obtain ⟨n, hn⟩ := (G.dom p).mp hp
          by_cases hqp : q = p
          · subst hqp; exact hp
          · obtain ⟨k, hk, _⟩ := G.wf.ancestors p n q hn ⟨hq, hqp, hpre⟩
            exact (G.dom q).mpr ⟨k, hk⟩) depth d0 (fun _ => False) ⟨[], w1⟩ (G.deepEnough hdepth d0) hI (fun p hp => hp.elim)
        rw [← G.walkRange_eq extractBuilder (callExtractor cfg env) depth d0 rg ⟨[], w1⟩ hrg] at hrule
        revert hrule
        cases cfg.a.walkRange extractBuilder (callExtractor cfg env) depth rg (⟨[], w1⟩ : CCtx) with
        | mk c2 r2 =>
          cases r2 with
          | error x => exact id
          | ok u =>
            rintro ⟨r, h1, _, h3, h4⟩
            refine ⟨h3, fun q n hq hs => h4 q n hq hs ?_⟩
            obtain ⟨hne, hq⟩ := PathMap.sub_some hq
            exact Or.inr ⟨(G.dom _).mpr ⟨n, hq⟩, by simp, by simpa using hne⟩
  simp only [XCfg.callExtract]
  revert key
  cases cfg.a.walkFrom extractBuilder (callExtractor cfg env) depth rg (⟨[], ⟨[], [], true⟩⟩ : CCtx) with
  | mk c r =>
    cases r with
    | error x =>
      intro h
      exact ⟨(CInv.steps last h).1, fun h => by cases h⟩
    | ok u =>
      rintro ⟨h1, h2⟩
      have h3 := CInv.steps last h1
      refine ⟨h3.1, fun h => ?_⟩
      simp only at h ⊢
      refine ⟨?_, fun q n hq hs => (h2 q n hq hs).mono h3.2⟩
      cases hb : (c.w.steps last).okFlag with
      | true => rfl
      | false => rw [hb] at h; simp at h

end

/-! ## Any table -/

theorem create_row {a : Archive} {i : Nat} {e : Entry XFile XLink Bytes} (he : a.create extractBuilder i = .ok e) :
    ∃ r, a.entries[i]? = some r ∧
      match e with
      | .file f => r.variant = 0 ∧ f.path = r.name ∧ f.mtime = r.mtime ∧ f.content = r.content
      | .link l => r.variant = 2 ∧ l.path = r.name ∧ l.mtime = r.mtime ∧ l.target = r.target
      | .dir _ d => r.variant = 1 ∧ d = r.name := by
  unfold Archive.create at he
  cases hr : a.entries[i]? with
  | none => rw [hr] at he; cases he
  | some r =>
    rw [hr] at he
    simp only at he
    refine ⟨r, rfl, ?_⟩
    cases ht : EntryType.tryFrom r.variant with
    | none => rw [ht] at he; cases he
    | some t =>
      have hv : (t = .file → r.variant = 0) ∧ (t = .dir → r.variant = 1) ∧ (t = .link → r.variant = 2) := by
        unfold EntryType.tryFrom at ht
        split at ht <;> simp_all <;> (subst ht; simp)
      rw [ht] at he
      cases t with
      | file =>
        simp only [extractBuilder] at he
        split at he
        · cases he; exact ⟨hv.1 rfl, rfl, rfl, rfl⟩
        · cases he
      | dir =>
        simp only [extractBuilder] at he
        split at he
        · cases he; exact ⟨hv.2.1 rfl, rfl⟩
        · cases he
      | link =>
        simp only [extractBuilder] at he
        split at he
        · cases he
        · split at he
          · cases he
          · cases he; exact ⟨hv.2.2 rfl, rfl, rfl, rfl⟩

theorem callExtractor_keeps (cfg : XCfg) (env : CallEnv) :
    (callExtractor cfg env).KeepsFor cfg.a extractBuilder (fun c => CInv cfg.tablePlan c.w) := by
  constructor
  · intro c i r d _ hc
    simp only [callExtractor, XCfg.onEnterC]
    split
    · exact hc
    · have := hc.mkdirs (env := env) (fun _ _ => trivial) (p := cfg.absPath (RPath.push c.cur d)) trivial
      revert this
      cases c.w.mkdirs env (cfg.absPath (RPath.push c.cur d)) with
      | mk w' r => rintro ⟨h, _⟩; cases r <;> exact h
  · intro c d hc; exact hc
  · intro c i f hf hc
    obtain ⟨r, h1, h2, _, h3, h4⟩ := create_row hf
    simp only [callExtractor, XCfg.onFileC]
    split
    · exact hc
    · split
      · exact hc
      · exact hc
      · rename_i b hb
        exact (hc.writeFile (env := env) (p := cfg.absPath (RPath.push c.cur f.path)) (mt := f.mtime) (b := b)
          ⟨i, r, h1, h2, h3, by rw [← h4]; exact hb⟩).1
  · intro c i l hl hc
    obtain ⟨r, h1, h2, _, h3, h4⟩ := create_row hl
    simp only [callExtractor, XCfg.onLinkC]
    split
    · exact hc
    · exact (hc.writeLink (env := env) (p := cfg.absPath (RPath.push c.cur l.path)) (mt := l.mtime) (t := l.target)
          ⟨i, r, h1, h2, h3, h4⟩).1

theorem callExtract_any (cfg : XCfg) (env : CallEnv) (depth : Nat) (rg : Range) (last : List (Nat × WriteRes)) :
    CInv cfg.tablePlan (cfg.callExtract env depth rg last).1 ∧
    ((cfg.callExtract env depth rg last).2 = .ok → (cfg.callExtract env depth rg last).1.okFlag = true) := by
  have h := Archive.walkFrom_invFor (callExtractor_keeps cfg env) (fun c hc => (hc.mkdirs (env := env) (fun _ _ => trivial) (p := cfg.base) trivial).1)
    (fun c hc => hc) depth rg ⟨[], ⟨[], [], true⟩⟩ (CInv.start _)
  simp only [XCfg.callExtract]
  revert h
  cases cfg.a.walkFrom extractBuilder (callExtractor cfg env) depth rg (⟨[], ⟨[], [], true⟩⟩ : CCtx) with
  | mk c r =>
    intro h
    have h3 := (CInv.steps last h).1
    cases r with
    | error x => exact ⟨h3, fun h => by cases h⟩
    | ok u =>
      refine ⟨h3, fun h => ?_⟩
      simp only at h ⊢
      cases hb : (c.w.steps last).okFlag with
      | true => rfl
      | false => rw [hb] at h; simp at h

end Arx
