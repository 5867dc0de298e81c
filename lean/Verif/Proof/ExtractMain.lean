import Verif.Proof.ExtractPlain
import Verif.Proof.WrittenProof
/-!
# Extraction to a plain target
-/
namespace Arx

/-- what the extractor reads for the entry at a path -/
theorem Good.xent {a : Archive} {M : PathMap} {P : List (List Bytes)} (G : Good a M P) {d : List Bytes} {c : Bytes}
    (hp : d ++ [c] ∈ P) : ∃ n, M (d ++ [c]) = some n ∧
      match a.entOf P extractBuilder (d ++ [c]) with
      | .error _ => validUtf8 c = false ∨ ∃ t, n.kind = .link t ∧ validUtf8 t = false
      | .ok (.file e) => e.path = c ∧ (∃ s, n.kind = .file s e.content) ∧ e.mtime = n.info.mtime
      | .ok (.link e) => e.path = c ∧ n.kind = .link e.target ∧ e.mtime = n.info.mtime ∧ validUtf8 e.target = true
      | .ok (.dir _ e) => e = c ∧ n.kind = .dir := by
  obtain ⟨i, hi⟩ := List.mem_iff_getElem?.mp hp
  obtain ⟨row, n, h1, h2, h3, h4⟩ := G.create_spec extractBuilder hi
  refine ⟨n, h2, ?_⟩
  rw [Archive.entOf, G.idxOf_eq hi, h4]
  obtain ⟨k1, k2, _, _, _, k6, k7⟩ := h3
  rw [List.getLast?_concat, Option.some.injEq] at k1
  cases hk : n.kind with
  | dir =>
    simp only [extractBuilder]
    by_cases hu : validUtf8 row.name = true
    · simp [hu, Except.map, k1]
    · simp only [hu, Bool.false_eq_true, if_false, Except.map]; left; rw [k1]; simpa using hu
  | file s ct =>
    rw [hk] at k7
    simp only at k7
    simp only [extractBuilder]
    by_cases hu : validUtf8 row.name = true
    · simp [hu, Except.map, k1, k7.2.2.1, k6]
    · simp only [hu, Bool.false_eq_true, if_false, Except.map]; left; rw [k1]; simpa using hu
  | link t =>
    rw [hk] at k7
    simp only at k7
    simp only [extractBuilder]
    by_cases hu : validUtf8 row.name = true
    · by_cases hv : validUtf8 row.target = true
      · have hv' : validUtf8 t = true := by rw [← k7.2.1]; exact hv
        simp [hu, hv', Except.map, k1, k7.2.1, k6]
      · simp only [hu, hv, Except.map]
        right; exact ⟨t, rfl, by rw [← k7.2.1]; simpa using hv⟩
    · simp only [hu, Except.map]; left; rw [k1]; simpa using hu

/-- what is read is UTF-8 -/
theorem Good.xent_utf8 {a : Archive} {M : PathMap} {P : List (List Bytes)} (G : Good a M P) {d : List Bytes} {c : Bytes}
    (hp : d ++ [c] ∈ P) {n : Node} (hn : M (d ++ [c]) = some n) {e : Entry XFile XLink Bytes}
    (he : a.entOf P extractBuilder (d ++ [c]) = .ok e) :
    validUtf8 c = true ∧ ∀ t, n.kind = .link t → validUtf8 t = true := by
  obtain ⟨i, hi⟩ := List.mem_iff_getElem?.mp hp
  obtain ⟨row, n', h1, h2, h3, h4⟩ := G.create_spec extractBuilder hi
  rw [hn] at h2; cases h2
  rw [Archive.entOf, G.idxOf_eq hi, h4] at he
  obtain ⟨k1, k2, _, _, _, k6, k7⟩ := h3
  rw [List.getLast?_concat, Option.some.injEq] at k1
  rw [k1]
  cases hk : n.kind with
  | dir =>
    simp only [hk, extractBuilder] at he
    refine ⟨?_, fun t ht => by cases ht⟩
    by_cases hu : validUtf8 row.name = true
    · exact hu
    · simp [hu, Except.map] at he
  | file s ct =>
    simp only [hk, extractBuilder] at he
    refine ⟨?_, fun t ht => by cases ht⟩
    by_cases hu : validUtf8 row.name = true
    · exact hu
    · simp [hu, Except.map] at he
  | link t =>
    rw [hk] at k7
    simp only at k7
    simp only [hk, extractBuilder] at he
    by_cases hu : validUtf8 row.name = true
    · refine ⟨hu, fun t' ht => ?_⟩
      cases ht
      rw [← k7.2.1]
      by_cases hv : validUtf8 row.target = true
      · exact hv
      · simp [hu, hv, Except.map] at he
    · simp [hu, Except.map] at he

theorem PathMap.sub_ne {M : PathMap} {d p : List Bytes} (hp : p ≠ []) : M.sub d p = M (d ++ p) := by
  simp [PathMap.sub, hp]

theorem PathMap.sub_some {M : PathMap} {d p : List Bytes} {n : Node} (h : M.sub d p = some n) :
    p ≠ [] ∧ M (d ++ p) = some n := by
  simp only [PathMap.sub] at h
  split at h
  · cases h
  · rename_i hp; exact ⟨hp, h⟩

theorem xsetup {cfg : XCfg} {fs0 : FS} {M : PathMap} (wf : M.WF) (d0 : List Bytes)
    (T : PlainTarget fs0 cfg.base (M.sub d0)) : XSetup cfg fs0 (M.sub d0) where
  plain := T
  root := by simp [PathMap.sub]
  up p c n h hp := by
    obtain ⟨_, h⟩ := PathMap.sub_some h
    obtain ⟨k, hk, hd⟩ := wf.ancestors _ _ (d0 ++ p) h ⟨by simp [hp], by simp, by simp⟩
    exact ⟨k, by rw [PathMap.sub_ne hp]; exact hk, hd⟩
  valid p n h c hc := by
    obtain ⟨_, h⟩ := PathMap.sub_some h
    exact wf.names _ _ h c (by simp [hc])

/-- the entries read so far are UTF-8; the directory being walked has been read on purpose, or everything in it counts
as dealt with -/
def RPart (cfg : XCfg) (m : PathMap) (r : List Bytes) (V : List Bytes → Prop) : Prop :=
  (r = [] ∨ Selected cfg.files cfg.recurse r true ∨ ∀ q n, m q = some n → r <+: q → q ≠ r → V q) ∧
  ∀ q c n, m (q ++ [c]) = some n → V (q ++ [c]) → Reached cfg.files cfg.recurse (q ++ [c]) →
    validUtf8 c = true ∧ ∀ t, n.kind = .link t → validUtf8 t = true

/-- the invariant of the walk -/
def WInv (cfg : XCfg) (fs0 : FS) (M : PathMap) (d0 : List Bytes) (d : List Bytes) (V : List Bytes → Prop) (ctx : XCtx) : Prop :=
  ∃ r, d = d0 ++ r ∧ ctx.cur = joinPath r ∧ (∀ c ∈ r, ValidName c ∧ c ≠ CUR) ∧ (∀ r', r' <+: r → r' ≠ [] → V (d0 ++ r')) ∧
    XInv cfg fs0 (M.sub d0) (fun q => V (d0 ++ q)) ctx.w ∧ RPart cfg (M.sub d0) r (fun q => V (d0 ++ q))

def WErrd (cfg : XCfg) (fs0 : FS) (M : PathMap) (d0 : List Bytes) (ctx : XCtx) : Prop :=
  XWeak cfg fs0 (M.sub d0) ctx.w ∧ ¬ NoObstacle cfg fs0 (M.sub d0)

theorem XSetup.above {cfg : XCfg} {fs0 : FS} {m : PathMap} (S : XSetup cfg fs0 m) : ∀ (l : Nat) {p q : List Bytes} {n : Node},
    p.length ≤ l → m p = some n → q <+: p → q ≠ [] → q ≠ p → ∃ k, m q = some k ∧ k.kind = .dir := by
  intro l
  induction l with
  | zero =>
    intro p q n hl hm hq hne _
    have : p = [] := List.length_eq_zero_iff.mp (by omega)
    subst this
    exact absurd (List.prefix_nil.mp hq) hne
  | succ l ih =>
    intro p q n hl hm hq hne hqp
    rcases nil_or_snoc p with rfl | ⟨d, c, rfl⟩
    · exact absurd (List.prefix_nil.mp hq) hne
    · rcases prefix_concat.mp hq with rfl | hq
      · exact absurd rfl hqp
      · have hd : d ≠ [] := by rintro rfl; exact hne (List.prefix_nil.mp hq)
        obtain ⟨k, hk, hkd⟩ := S.up _ _ _ hm hd
        by_cases hqd : q = d
        · subst hqd; exact ⟨k, hk, Kind.isDir_iff.mp hkd⟩
        · exact ih (by simp at hl; omega) hk hq hne hqd

theorem isDir_kind {n : Node} (h : n.kind = .dir) : n.isDir = true := by rw [Node.isDir, h]; rfl

/-- the directories a selected entry lies in are there -/
theorem XInv.parents {cfg : XCfg} {fs0 : FS} {m : PathMap} {V : List Bytes → Prop} {w : World} (h : XInv cfg fs0 m V w)
    (S : XSetup cfg fs0 m) {r : List Bytes} {c : Bytes} {n : Node} (hm : m (r ++ [c]) = some n)
    (hs : Selected cfg.files cfg.recurse (r ++ [c]) n.isDir) (hV : ∀ r', r' <+: r → r' ≠ [] → V r') :
    DirsTo w.fs (cfg.base ++ r) := by
  intro q hq hne
  by_cases hqb : q <+: cfg.base
  · exact h.dirs q hqb hne
  · obtain ⟨r', hr', rfl⟩ : ∃ r', r' <+: r ∧ q = cfg.base ++ r' := by
      rcases List.prefix_or_prefix_of_prefix hq (List.prefix_append cfg.base r) with h1 | ⟨t, ht⟩
      · exact absurd h1 hqb
      · exact ⟨t, by rw [← ht] at hq; rw [List.prefix_append_right_inj] at hq; exact hq, ht.symm⟩
    have hr'ne : r' ≠ [] := by rintro rfl; exact hqb (by simp)
    have hcur : ∀ x ∈ r ++ [c], x ≠ CUR := fun x hx => (S.plain.names _ _ hm x hx).1
    have hlt : r' ≠ r ++ [c] := by rintro rfl; have := hr'.length_le; simp at this; omega
    have hpre : r' <+: r ++ [c] := hr'.trans (List.prefix_append _ _)
    obtain ⟨k, hk, hkd⟩ := S.above _ (Nat.le_refl _) hm hpre hr'ne hlt
    have hsel : Selected cfg.files cfg.recurse r' k.isDir := by
      rw [isDir_kind hkd]; exact hs.up hpre hlt hcur
    have := h.done r' k hk hsel (hV r' hr' hr'ne)
    simp only [Expect, hkd] at this
    exact this.1

section
variable {cfg : XCfg} {fs0 : FS} {M : PathMap} {P : List (List Bytes)} {d0 : List Bytes}

/-- The extractor keeps the invariant. -/
theorem Good.walkRule (G : Good cfg.a M P) (T : PlainTarget fs0 cfg.base (M.sub d0)) :
    WalkRule P (cfg.a.entOf P extractBuilder) (extractor cfg) (WInv cfg fs0 M d0) (WErrd cfg fs0 M d0) := by
  have S := xsetup G.wf d0 T
  -- common preparation
  have prep : ∀ {d c V ctx}, d ++ [c] ∈ P → WInv cfg fs0 M d0 d V ctx → ∃ r n, d = d0 ++ r ∧ M.sub d0 (r ++ [c]) = some n ∧
      M (d ++ [c]) = some n ∧ ctx.cur = joinPath r ∧ RPath.push ctx.cur c = joinPath (r ++ [c]) ∧
      comps (joinPath (r ++ [c])) = r ++ [c] ∧ (∀ x ∈ r ++ [c], x ≠ CUR) ∧ (∀ x ∈ r ++ [c], ValidName x) ∧
      (∀ r', r' <+: r → r' ≠ [] → V (d0 ++ r')) ∧
      XInv cfg fs0 (M.sub d0) (fun q => V (d0 ++ q)) ctx.w ∧ RPart cfg (M.sub d0) r (fun q => V (d0 ++ q)) := by
    rintro d c V ctx hp ⟨r, rfl, h1, h2, h3, h4, h5⟩
    obtain ⟨n, hn⟩ := (G.dom _).mp hp
    have hm : M.sub d0 (r ++ [c]) = some n := by rw [PathMap.sub_ne (by simp)]; simpa using hn
    have hval := S.valid _ _ hm
    refine ⟨r, n, rfl, hm, hn, h1, ?_, comps_joinPath hval, fun x hx => (S.plain.names _ _ hm x hx).1, hval, h3, h4, h5⟩
    rw [h1, push_joinPath (fun x hx => hval x (by simp [hx])) (hval c (by simp))]
  -- nothing lies below a leaf
  have leaf : ∀ {r : List Bytes} {c : Bytes} {n : Node} {V : List Bytes → Prop} {w : World},
      M.sub d0 (r ++ [c]) = some n → n.isDir = false →
      XInv cfg fs0 (M.sub d0) (fun q => V (d0 ++ q) ∨ q = r ++ [c]) w →
      XInv cfg fs0 (M.sub d0) (fun q => V (d0 ++ q) ∨ (d0 ++ q ∈ P ∧ d0 ++ r ++ [c] <+: d0 ++ q)) w := by
    intro r c n V w hm hnd h
    refine h.congr (fun q k hq _ => ?_)
    have hqP : d0 ++ q ∈ P := (G.dom _).mpr ⟨k, (PathMap.sub_some hq).2⟩
    constructor
    · rintro (hv | rfl)
      · exact Or.inl hv
      · exact Or.inr ⟨hqP, by simp⟩
    · rintro (hv | ⟨_, hpre⟩)
      · exact Or.inl hv
      · right
        rw [List.append_assoc, List.prefix_append_right_inj] at hpre
        refine Classical.byContradiction (fun hne => ?_)
        obtain ⟨k', hk', hkd⟩ := S.above _ (Nat.le_refl _) hq hpre (by simp) (fun e => hne e.symm)
        rw [hm] at hk'; cases hk'
        rw [isDir_kind hkd] at hnd; cases hnd
  -- unselected: nothing to do
  have unsel : ∀ {r : List Bytes} {c : Bytes} {n : Node} {V : List Bytes → Prop} {w : World},
      M.sub d0 (r ++ [c]) = some n → ¬ Selected cfg.files cfg.recurse (r ++ [c]) n.isDir →
      XInv cfg fs0 (M.sub d0) (fun q => V (d0 ++ q)) w →
      XInv cfg fs0 (M.sub d0) (fun q => V (d0 ++ q) ∨ (d0 ++ q ∈ P ∧ d0 ++ r ++ [c] <+: d0 ++ q)) w := by
    intro r c n V w hm hns h
    refine h.congr (fun q k hq hsel => ⟨Or.inl, ?_⟩)
    rintro (hv | ⟨_, hpre⟩)
    · exact hv
    · exfalso
      rw [List.append_assoc, List.prefix_append_right_inj] at hpre
      have hcur : ∀ x ∈ q, x ≠ CUR := fun x hx => (S.plain.names _ _ hq x hx).1
      by_cases hqe : r ++ [c] = q
      · subst hqe; rw [hm] at hq; cases hq; exact hns hsel
      · obtain ⟨k', hk', hkd⟩ := S.above _ (Nat.le_refl _) hq hpre (by simp) hqe
        rw [hm] at hk'; cases hk'
        rw [isDir_kind hkd] at hns
        exact hns (hsel.up hpre hqe hcur)
  have notV : ∀ {d c : _} {V : List Bytes → Prop} {r : List Bytes}, d = d0 ++ r → (∀ p, V p → ¬ d ++ [c] <+: p) →
      ¬ V (d0 ++ (r ++ [c])) := by
    rintro d c V r rfl hV hv
    exact hV _ hv (by simp)
  -- what was read, after a leaf or a directory that is not entered
  have rleaf : ∀ {r : List Bytes} {c : Bytes} {n : Node} {V : List Bytes → Prop},
      M.sub d0 (r ++ [c]) = some n → (validUtf8 c = true ∧ ∀ t, n.kind = .link t → validUtf8 t = true) →
      (n.isDir = true → ¬ Selected cfg.files cfg.recurse (r ++ [c]) true) →
      RPart cfg (M.sub d0) r (fun q => V (d0 ++ q)) →
      RPart cfg (M.sub d0) r (fun q => V (d0 ++ q) ∨ (d0 ++ q ∈ P ∧ d0 ++ r ++ [c] <+: d0 ++ q)) := by
    intro r c n V hm hu hns h
    refine ⟨?_, ?_⟩
    · rcases h.1 with h1 | h1 | h1
      · exact Or.inl h1
      · exact Or.inr (Or.inl h1)
      · exact Or.inr (Or.inr fun q k hq h2 h3 => Or.inl (h1 q k hq h2 h3))
    · rintro q c' k hq (hv | ⟨_, hpre⟩) hr
      · exact h.2 q c' k hq hv hr
      · rw [List.append_assoc, List.prefix_append_right_inj] at hpre
        by_cases hqe : r ++ [c] = q ++ [c']
        · rw [← hqe, hm] at hq; cases hq
          obtain ⟨_, e⟩ := List.append_inj' hqe rfl
          cases e
          exact hu
        · exfalso
          obtain ⟨k', hk', hkd⟩ := S.above _ (Nat.le_refl _) hq hpre (by simp) hqe
          rw [hm] at hk'; cases hk'
          refine hns (isDir_kind hkd) ?_
          rcases prefix_concat.mp hpre with e | hpq
          · exact absurd e hqe
          · simp only [Reached, List.dropLast_concat] at hr
            rcases hr with rfl | hr
            · simp at hpq
            · by_cases e : r ++ [c] = q
              · rw [e]; exact hr
              · exact hr.up hpq e (fun x hx => (S.plain.names _ _ hq x (by simp [hx])).1)
  refine ⟨?_, ?_, ?_, ?_, ?_⟩
  · -- an entry that cannot be read
    intro d c V x ctx hp hI hV he
    obtain ⟨r, n, hd, hm, hM, _, _, _, _, _, _, hX, hR⟩ := prep hp hI
    have hnv := notV hd hV
    subst hd
    refine ⟨hX.weak, fun ho => ?_⟩
    have hrd := ho.readable r c n hm (by
      simp only [Reached, List.dropLast_concat]
      rcases hR.1 with h | h | h
      · exact Or.inl h
      · exact Or.inr h
      · exact absurd (h _ n hm (by simp) (by simp)) hnv)
    obtain ⟨n', hn', h⟩ := G.xent hp
    rw [hM] at hn'; cases hn'
    rw [he] at h
    rcases h with h | ⟨t, ht, h⟩
    · rw [hrd.1] at h; cases h
    · rw [hrd.2 t ht] at h; cases h
  · -- a file
    intro d c V e ctx hp hI hV he
    obtain ⟨r, n, hd, hm, hM, hcur, hpush, hcomps, hncur, hval, hdone, hX, hR⟩ := prep hp hI
    have hnv := notV hd hV
    subst hd
    obtain ⟨n', hn', h⟩ := G.xent hp
    rw [hM] at hn'; cases hn'
    have hu8 := G.xent_utf8 hp hM he
    rw [he] at h
    obtain ⟨hname, ⟨s, hk⟩, hmt⟩ := h
    have hnd : n.isDir = false := by rw [Node.isDir, hk]; rfl
    have hsel := shouldExtract_iff cfg hcomps (by simp) hncur false
    simp only [extractor, XCfg.onFile, hname, hpush]
    by_cases hs : Selected cfg.files cfg.recurse (r ++ [c]) false
    · rw [hsel.mpr hs]
      rw [← hnd] at hs
      simp only [Bool.not_true, Bool.false_eq_true, if_false]
      cases hb : cfg.bytes e.content with
      | err => exact ⟨hX.weak, fun ho => ho.content _ _ _ _ hm hs hk hb⟩
      | missing =>
        refine ⟨r, rfl, hcur, fun x hx => ⟨hval x (by simp [hx]), hncur x (by simp [hx])⟩, fun r' h1 h2 => Or.inl (hdone r' h1 h2), ?_⟩
        refine ⟨leaf hm hnd (hX.leave (by simp) hm hs ?_), rleaf hm hu8 (by simp [hnd]) hR⟩
        simp only [Expect, hk, hb]
        exact hX.fresh (by simp) hnv
      | found b =>
        simp only
        have hdirs := hX.parents S hm hs hdone
        have hpost := hX.writeFile S hm hk hs hnv hb hdirs
        rw [hmt, XCfg.absPath, hcomps]
        revert hpost
        cases cfg.writeFile ctx.w (cfg.base ++ (r ++ [c])) n.info.mtime b with
        | mk w' res =>
          cases res with
          | error x => exact id
          | ok u =>
            intro hpost
            exact ⟨r, rfl, hcur, fun x hx => ⟨hval x (by simp [hx]), hncur x (by simp [hx])⟩, fun r' h1 h2 => Or.inl (hdone r' h1 h2),
              leaf hm hnd hpost, rleaf hm hu8 (by simp [hnd]) hR⟩
    · have hf : cfg.shouldExtract (joinPath (r ++ [c])) false = false := by
        cases hx : cfg.shouldExtract (joinPath (r ++ [c])) false with
        | true => exact absurd (hsel.mp hx) hs
        | false => rfl
      rw [hf]
      simp only [Bool.not_false, if_true]
      exact ⟨r, rfl, hcur, fun x hx => ⟨hval x (by simp [hx]), hncur x (by simp [hx])⟩, fun r' h1 h2 => Or.inl (hdone r' h1 h2),
        unsel hm (by rw [hnd]; exact hs) hX, rleaf hm hu8 (by simp [hnd]) hR⟩
  · -- a link
    intro d c V e ctx hp hI hV he
    obtain ⟨r, n, hd, hm, hM, hcur, hpush, hcomps, hncur, hval, hdone, hX, hR⟩ := prep hp hI
    have hnv := notV hd hV
    subst hd
    obtain ⟨n', hn', h⟩ := G.xent hp
    rw [hM] at hn'; cases hn'
    have hu8 := G.xent_utf8 hp hM he
    rw [he] at h
    obtain ⟨hname, hk, hmt, hu⟩ := h
    have hnd : n.isDir = false := by rw [Node.isDir, hk]; rfl
    have hsel := shouldExtract_iff cfg hcomps (by simp) hncur false
    simp only [extractor, XCfg.onLink, hname, hpush]
    by_cases hs : Selected cfg.files cfg.recurse (r ++ [c]) false
    · rw [hsel.mpr hs]
      rw [← hnd] at hs
      simp only [Bool.not_true, Bool.false_eq_true, if_false]
      have hdirs := hX.parents S hm hs hdone
      have hpost := hX.writeLink S hm hk hu hs hnv hdirs
      rw [hmt, XCfg.absPath, hcomps]
      revert hpost
      cases cfg.writeLink ctx.w (cfg.base ++ (r ++ [c])) n.info.mtime e.target with
      | mk w' res =>
        cases res with
        | error x => exact id
        | ok u =>
          intro hpost
          exact ⟨r, rfl, hcur, fun x hx => ⟨hval x (by simp [hx]), hncur x (by simp [hx])⟩, fun r' h1 h2 => Or.inl (hdone r' h1 h2),
            leaf hm hnd hpost, rleaf hm hu8 (by simp [hnd]) hR⟩
    · have hf : cfg.shouldExtract (joinPath (r ++ [c])) false = false := by
        cases hx : cfg.shouldExtract (joinPath (r ++ [c])) false with
        | true => exact absurd (hsel.mp hx) hs
        | false => rfl
      rw [hf]
      simp only [Bool.not_false, if_true]
      exact ⟨r, rfl, hcur, fun x hx => ⟨hval x (by simp [hx]), hncur x (by simp [hx])⟩, fun r' h1 h2 => Or.inl (hdone r' h1 h2),
        unsel hm (by rw [hnd]; exact hs) hX, rleaf hm hu8 (by simp [hnd]) hR⟩
  · -- entering a directory
    intro d c V rg e ctx hp hI hV he
    obtain ⟨r, n, hd, hm, hM, hcur, hpush, hcomps, hncur, hval, hdone, hX, hR⟩ := prep hp hI
    have hnv := notV hd hV
    subst hd
    obtain ⟨n', hn', h⟩ := G.xent hp
    rw [hM] at hn'; cases hn'
    have hu8 := G.xent_utf8 hp hM he
    rw [he] at h
    obtain ⟨hname, hk⟩ := h
    have hnd : n.isDir = true := isDir_kind hk
    have hsel := shouldExtract_iff cfg hcomps (by simp) hncur true
    simp only [extractor, XCfg.onEnter, hname, hpush]
    by_cases hs : Selected cfg.files cfg.recurse (r ++ [c]) true
    · rw [hsel.mpr hs]
      rw [← hnd] at hs
      simp only [Bool.not_true, Bool.false_eq_true, if_false]
      have hdirs := hX.parents S hm hs hdone
      have hpost := hX.mkdirs S hm hk hs hnv hdirs
      rw [XCfg.absPath, hcomps]
      revert hpost
      cases cfg.mkdirs ctx.w (cfg.base ++ (r ++ [c])) with
      | mk w' res =>
        cases res with
        | error x => exact id
        | ok u =>
          intro hpost
          refine ⟨r ++ [c], by simp, rfl, fun x hx => ⟨hval x hx, hncur x hx⟩, ?_, hpost.congr ?_, Or.inr (Or.inl (hnd ▸ hs)), ?_⟩
          · intro r' h1 h2
            rcases prefix_concat.mp h1 with rfl | h1
            · right; simp
            · exact Or.inl (hdone r' h1 h2)
          · intro p k hp' _
            simp
          · rintro q c' k hq (hv | hv) hr
            · exact hR.2 q c' k hq hv hr
            · rw [List.append_assoc, List.append_cancel_left_eq] at hv
              rw [hv, hm] at hq; cases hq
              obtain ⟨_, e⟩ := List.append_inj' hv rfl
              cases e
              exact hu8
    · have hf : cfg.shouldExtract (joinPath (r ++ [c])) true = false := by
        cases hx : cfg.shouldExtract (joinPath (r ++ [c])) true with
        | true => exact absurd (hsel.mp hx) hs
        | false => rfl
      rw [hf]
      simp only [Bool.not_false, if_true]
      refine ⟨r ++ [c], by simp, rfl, fun x hx => ⟨hval x hx, hncur x hx⟩, ?_, unsel hm (by rw [hnd]; exact hs) hX,
        Or.inr (Or.inr fun q k hq h2 h3 => Or.inr ⟨(G.dom _).mpr ⟨k, (PathMap.sub_some hq).2⟩, by simpa using h2⟩),
        (rleaf hm hu8 (fun _ => hs) hR).2⟩
      intro r' h1 h2
      rcases prefix_concat.mp h1 with rfl | h1
      · right; exact ⟨by simpa using hp, by simp⟩
      · exact Or.inl (hdone r' h1 h2)
  · -- leaving a directory
    intro d c V rg e ctx hp hI0 hI he
    obtain ⟨V0, ctx0, hI0, hV0⟩ := hI0
    obtain ⟨r, n, hd, hm, hM, _, _, hcomps, hncur, hval, _, _, hR0⟩ := prep hp hI0
    have hnv0 := notV hd hV0
    obtain ⟨r2, hr, hcur, _, hdone, hX, hR⟩ := hI
    subst hd
    rw [List.append_assoc, List.append_cancel_left_eq] at hr
    subst hr
    simp only [extractor]
    refine ⟨r, rfl, ?_, fun x hx => ⟨hval x (by simp [hx]), hncur x (by simp [hx])⟩,
      fun r' h1 h2 => hdone r' (h1.trans (List.prefix_append _ _)) h2, hX, ?_, hR.2⟩
    · simp only [hcur]
      exact pop_joinPath (fun x hx => hval x (by simp [hx])) (hval c (by simp)) (hncur c (by simp))
    · rcases hR0.1 with h | h | h
      · exact Or.inl h
      · exact Or.inr (Or.inl h)
      · exact absurd (h _ n hm (by simp) (by simp)) hnv0

/-- **Extraction to a plain target.** -/
theorem Good.extractRange (G : Good cfg.a M P) (T : PlainTarget fs0 cfg.base (M.sub d0)) {rg : Range}
    (hrg : RangeIs P d0 rg.offset rg.count) {depth : Nat} (hdepth : cfg.a.entries.length < depth)
    (last : List (Nat × WriteRes)) :
    XWeak cfg fs0 (M.sub d0) (cfg.extractRange depth rg fs0 last).1 ∧
    (∀ e, (cfg.extractRange depth rg fs0 last).2 = .walk e → ¬ NoObstacle cfg fs0 (M.sub d0)) ∧
    ((cfg.extractRange depth rg fs0 last).2 = .ok → XInv cfg fs0 (M.sub d0) (fun _ => True) (cfg.extractRange depth rg fs0 last).1 ∧
      (cfg.extractRange depth rg fs0 last).1.okFlag = true ∧ RPart cfg (M.sub d0) [] (fun _ => True)) ∧
    ((cfg.extractRange depth rg fs0 last).2 = .writes → XInv cfg fs0 (M.sub d0) (fun _ => True) (cfg.extractRange depth rg fs0 last).1) := by
  have S := xsetup G.wf d0 T
  have hstart := XInv.start S
  have key : WalkPost (fun c : XCtx => XInv cfg fs0 (M.sub d0) (fun _ => True) c.w ∧ RPart cfg (M.sub d0) [] (fun _ => True)) (WErrd cfg fs0 M d0)
      (cfg.a.walkFrom extractBuilder (extractor cfg) depth rg ⟨[], World.init fs0⟩) := by
    simp only [Archive.walkFrom]
    have e1 : (extractor cfg).onStart ⟨[], World.init fs0⟩ =
      (⟨[], (cfg.mkdirs (World.init fs0) cfg.base).1⟩, (cfg.mkdirs (World.init fs0) cfg.base).2) := rfl
    have e2 : ∀ c, (extractor cfg).onStop c = (c, .ok ()) := fun _ => rfl
    rw [e1]
    revert hstart
    cases cfg.mkdirs (World.init fs0) cfg.base with
    | mk w1 r1 =>
      cases r1 with
      | error x => exact id
      | ok u =>
        intro hstart
        simp only [e2, liftOp]
        have hI : WInv cfg fs0 M d0 d0 (fun _ => False) ⟨[], w1⟩ :=
          ⟨[], by simp, rfl, by simp, fun r' h1 h2 => absurd (List.prefix_nil.mp h1) h2, hstart, Or.inl rfl, fun _ _ _ _ h => h.elim⟩
        have hrule := specWalk_rule (G.walkRule T) (fun d => (G.kidsOf d).1) (by
          intro p hp q hq hpre
          obtain ⟨n, hn⟩ := (G.dom p).mp hp
          by_cases hqp : q = p
          · subst hqp; exact hp
          · obtain ⟨k, hk, _⟩ := G.wf.ancestors p n q hn ⟨hq, hqp, hpre⟩
            exact (G.dom q).mpr ⟨k, hk⟩) depth d0 (fun _ => False) ⟨[], w1⟩ (G.deepEnough hdepth d0) hI (fun p hp => hp.elim)
        rw [← G.walkRange_eq extractBuilder (extractor cfg) depth d0 rg ⟨[], w1⟩ hrg] at hrule
        revert hrule
        cases cfg.a.walkRange extractBuilder (extractor cfg) depth rg (⟨[], w1⟩ : XCtx) with
        | mk c2 r2 =>
          cases r2 with
          | error x => exact id
          | ok u =>
            rintro ⟨r, h1, _, _, _, h5, h6⟩
            have hall : ∀ q k, M.sub d0 q = some k → False ∨ (d0 ++ q ∈ P ∧ d0 <+: d0 ++ q ∧ d0 ++ q ≠ d0) := by
              intro q k hq
              obtain ⟨hne, hq⟩ := PathMap.sub_some hq
              exact Or.inr ⟨(G.dom _).mpr ⟨k, hq⟩, by simp, by simpa using hne⟩
            exact ⟨h5.congr (fun q k hq _ => ⟨fun _ => trivial, fun _ => hall q k hq⟩), Or.inl rfl,
              fun q c n hq _ hr => h6.2 q c n hq (hall _ n hq) hr⟩
  simp only [XCfg.extractRange]
  revert key
  cases cfg.a.walkFrom extractBuilder (extractor cfg) depth rg ⟨[], World.init fs0⟩ with
  | mk c r =>
    cases r with
    | error x =>
      rintro ⟨h1, h2⟩
      refine ⟨h1.frame (Frame.steps c.w last (c.w.steps last).tick) (c.w.steps_fs last).1, fun _ _ => h2, (fun h => by cases h), (fun h => by cases h)⟩
    | ok u =>
      rintro ⟨h1, hR⟩
      have h2 : XInv cfg fs0 (M.sub d0) (fun _ => True) (c.w.steps last) :=
        h1.frame (Frame.steps c.w last (c.w.steps last).tick) (c.w.steps_fs last).1
      refine ⟨h2.weak, ?_, ?_, fun _ => h2⟩
      · intro e h
        simp only at h
        split at h <;> cases h
      · intro h
        refine ⟨h2, ?_, hR⟩
        simp only at h ⊢
        cases hb : (c.w.steps last).okFlag with
        | true => rfl
        | false => rw [hb] at h; simp at h

/-- The invariant at the end, in terms of the specification. -/
theorem XInv.extracted {m : PathMap} {w : World} (h : XInv cfg fs0 m (fun _ => True) w) (S : XSetup cfg fs0 m)
    (hfin : w.finished) (hok : w.okFlag = true) {p : List Bytes} {n : Node} (hm : m p = some n)
    (hs : Selected cfg.files cfg.recurse p n.isDir) : Extracted cfg.mode cfg.bytes fs0 w.fs (cfg.base ++ p) n := by
  have hjob : ∀ i b, (i, b) ∈ w.jobs → (w.fs.data i).bytes = b := by
    intro i b hib
    obtain ⟨t, ht, e⟩ := List.mem_map.mp hib
    cases e
    have h1 := h.prog.ok t ht
    have h2 : t.st = .done := by
      have a1 := hfin t ht
      have a2 := h.flag hok t ht
      cases hst : t.st with
      | running => exact absurd hst a1
      | failed => exact absurd hst a2
      | done => rfl
    rw [h1.bytes, h1.done h2, List.take_length]
  have hun : ∀ i, fs0.nodes (cfg.base ++ p) = some (.file i) → (∀ s c b, n.kind = .file s c → cfg.bytes c = .found b → ¬ Replaces cfg.mode n.info.mtime (fs0.data i).mtime) →
      w.fs.data i = fs0.data i := by
    intro i hi hnr
    refine h.data i (S.plain.inos _ _ hi) (fun hc => ?_)
    obtain ⟨p', n', s, c, b, h1, h2, h3, _, h5, h6⟩ := h.own i hc
    have hlt := S.plain.inos _ _ hi
    rcases h6 with ⟨_, h6⟩ | ⟨h6, h7⟩
    · omega
    · have := S.plain.alias p n i _ hm hi h6
      rw [List.append_cancel_left_eq] at this
      subst this
      rw [hm] at h1; cases h1
      exact hnr s c b h2 h5 h7
  have he := h.done p n hm hs trivial
  simp only [Expect, Extracted] at he ⊢
  cases hk : n.kind with
  | dir => simpa [hk] using he
  | link t =>
    simp only [hk] at he ⊢
    cases hx : fs0.nodes (cfg.base ++ p) with
    | none => simp only [hx] at he ⊢; exact he
    | some x =>
      simp only [hx] at he ⊢
      refine ⟨he.1, he.2.1, he.2.2.1, fun hr => ⟨he.2.2.2.1 hr, fun i hi => ?_⟩⟩
      subst hi
      exact hun i hx (by rintro s c b e; rw [hk] at e; cases e)
  | file s a =>
    simp only [hk] at he ⊢
    cases hb : cfg.bytes a with
    | err => simp only [hb] at he
    | missing =>
      simp only [hb] at he ⊢
      exact ⟨he, fun i hi => hun i hi (by rintro s' c b e hb'; rw [hk] at e; cases e; rw [hb] at hb'; cases hb')⟩
    | found b =>
      simp only [hb] at he ⊢
      cases hx : fs0.nodes (cfg.base ++ p) with
      | none =>
        simp only [hx] at he ⊢
        obtain ⟨i, h1, h2, h3⟩ := he
        exact ⟨i, h1, h2, hjob _ _ h3⟩
      | some x =>
        simp only [hx] at he ⊢
        refine ⟨he.1, he.2.1, fun hr => ?_, fun hr i hi => ?_⟩
        · obtain ⟨i, h1, h2⟩ := he.2.2.1 hr
          exact ⟨i, h1, hjob _ _ h2⟩
        · subst hi
          exact hun i hx (fun _ _ _ _ _ => hr)

end

end Arx
