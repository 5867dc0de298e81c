import Verif.Proof.AdderTree2
/-!
# Adding a whole directory tree: the resulting archive
-/
namespace Arx

variable {s : Src} {env : CEnv}

/-! ## Texts of walked paths -/

theorem joinChild_comps {p n : Bytes} (hn : ValidName n) : comps (joinChild p n) = comps p ++ [n] := by
  unfold joinChild
  split
  · rename_i h
    rcases h with rfl | h
    · simp only [List.nil_append, comps_valid_singleton hn]; rfl
    · obtain ⟨d, c, rfl⟩ := (nil_or_snoc p).resolve_left (fun e => by rw [e] at h; cases h)
      simp only [List.getLast?_append, List.getLast?_singleton, Option.some_or, Option.some.injEq] at h
      subst h
      rw [List.append_assoc, List.singleton_append, comps_append, comps_append_sep, comps_valid_singleton hn]
  · rw [comps_append, comps_valid_singleton hn]

theorem joinChild_head {p n : Bytes} (hp : p ≠ []) : (joinChild p n).head? = p.head? ∧ joinChild p n ≠ [] := by
  cases p with
  | nil => exact absurd rfl hp
  | cons a p => unfold joinChild; split <;> simp

theorem text_comps : ∀ (p : List Bytes) (root : Bytes), (∀ c ∈ p, ValidName c) →
    comps (p.foldl joinChild root) = comps root ++ p := by
  intro p
  induction p with
  | nil => intro root _; simp
  | cons c p ih =>
    intro root h
    simp only [List.foldl_cons]
    rw [ih _ (fun d hd => h d (by simp [hd])), joinChild_comps (h c (by simp))]
    simp

theorem text_head : ∀ (p : List Bytes) (root : Bytes), root ≠ [] → (p.foldl joinChild root).head? = root.head? := by
  intro p
  induction p with
  | nil => intro root _; rfl
  | cons c p ih =>
    intro root h
    have := joinChild_head (n := c) h
    simp only [List.foldl_cons]
    rw [ih _ this.2, this.1]

theorem text_names {cwd : List Bytes} {root : Bytes} (hr : root ≠ []) {p : List Bytes} (hp : ∀ c ∈ p, ValidName c) :
    baseNames cwd (p.foldl joinChild root) = baseNames cwd root ++ p := by
  unfold baseNames
  rw [text_head p root hr, text_comps p root hp]
  split <;> simp

theorem joinChild_trailing {a c : Bytes} (hc : ValidName c) : trailing (joinChild a c) = [] := by
  have h : (joinChild a c).getLast? = c.getLast? := by
    obtain ⟨b, l, rfl⟩ := List.exists_cons_of_ne_nil hc.1
    unfold joinChild
    split <;> simp [List.getLast?_append, List.getLast?_cons]
  unfold trailing
  rw [h, if_neg]
  intro e
  exact hc.2 (List.mem_of_getLast? e)

theorem text_trailing : ∀ {p : List Bytes} (root : Bytes), (∀ c ∈ p, ValidName c) → p ≠ [] → trailing (p.foldl joinChild root) = [] := by
  intro p
  induction p with
  | nil => intro root _ h; exact absurd rfl h
  | cons c p ih =>
    intro root h _
    simp only [List.foldl_cons]
    by_cases hp : p = []
    · subst hp; exact joinChild_trailing (h c (by simp))
    · exact ih _ (fun d hd => h d (by simp [hd])) hp

/-- A `.` before other names does not matter. -/
theorem resAux_cur {fs : FS} {f : Bool} {retry : List Bytes → List Bytes → Except HErr Loc} {p : List Bytes} (hp : p ≠ [])
    (hr : ∀ l cur, retry (l ++ CUR :: p) cur = retry (l ++ p) cur) :
    ∀ (l cur : List Bytes), resAux fs f retry (l ++ CUR :: p) cur = resAux fs f retry (l ++ p) cur := by
  intro l
  induction l with
  | nil => intro cur; simp only [List.nil_append]; rw [resAux, if_pos rfl]
  | cons c l ih =>
    intro cur
    simp only [List.cons_append, resAux, ih]
    have h1 : l ++ CUR :: p ≠ [] := by simp
    have h2 : l ++ p ≠ [] := by simp [hp]
    simp only [h1, h2, if_false, false_and]
    simp only [← List.append_assoc]
    simp only [hr]

theorem resolveN_cur {fs : FS} {f : Bool} {p : List Bytes} (hp : p ≠ []) :
    ∀ (n : Nat) (l cur : List Bytes), resolveN fs f n (l ++ CUR :: p) cur = resolveN fs f n (l ++ p) cur := by
  intro n
  induction n with
  | zero => intro l cur; rfl
  | succ n ih => intro l cur; exact resAux_cur hp ih l cur

theorem FS.resolve_cur (fs : FS) (f : Bool) (l : List Bytes) {p : List Bytes} (hp : p ≠ []) :
    fs.resolve f (l ++ CUR :: p) = fs.resolve f (l ++ p) := by
  unfold FS.resolve
  rw [resolveN_cur hp]
  have : (l ++ CUR :: p).any (fun c => c.contains 0) = (l ++ p).any (fun c => c.contains 0) := by
    have e : CUR.contains 0 = false := by decide
    simp only [List.any_append, List.any_cons, e, Bool.false_or]
  rw [this]

theorem FS.resolve_names (fs : FS) (f : Bool) (cwd : List Bytes) (root : Bytes) {p : List Bytes} (hp : p ≠ []) :
    fs.resolve f (namesOf cwd root ++ p) = fs.resolve f (baseNames cwd root ++ p) := by
  unfold namesOf trailing
  split
  · rw [List.append_assoc]; exact fs.resolve_cur f _ hp
  · simp

theorem text_resolve (fs : FS) (f : Bool) {cwd : List Bytes} {root : Bytes} (hr : root ≠ []) {p : List Bytes} (hp : ∀ c ∈ p, ValidName c) :
    fs.resolve f (namesOf cwd (p.foldl joinChild root)) = fs.resolve f (namesOf cwd root ++ p) := by
  by_cases hpe : p = []
  · subst hpe; simp
  · rw [fs.resolve_names f cwd root hpe, namesOf, text_trailing root hp hpe, text_names hr hp, List.append_nil]

theorem text_stdComps {root : Bytes} {p : List Bytes} (hv : ∀ c ∈ p, ValidName c) (hp : ∀ c ∈ p, PlainName c) :
    decide (stdComps (p.foldl joinChild root) = stdComps root) = decide (p = []) := by
  have hf : p.filter (· ≠ CUR) = p := List.filter_eq_self.mpr (fun c hc => by simpa using (hp c hc).1)
  unfold stdComps
  rw [text_comps p root hv]
  cases hc : comps root with
  | nil =>
    cases p with
    | nil => simp
    | cons c p => simp
  | cons a l =>
    simp only [List.cons_append, List.filter_append, hf, decide_eq_decide, List.cons.injEq, true_and]
    constructor
    · intro e
      have := congrArg List.length e
      simp at this; exact this
    · intro e; simp [e]

/-! ## One add on a known map -/

theorem withParents_of {m : PathMap} {P : List Bytes} (h : ∀ q, ProperAncestor q P → ∃ n, m q = some n ∧ n.isDir = true) :
    withParents m P = m := by
  funext q
  unfold withParents
  cases hm : m q with
  | some n => rfl
  | none =>
    simp only
    rw [if_neg]
    intro hq
    obtain ⟨n, hn, _⟩ := h q hq
    rw [hm] at hn; cases hn

/-- The map with the new entry, if the entry has a kind. -/
def withEntry (m : PathMap) (P : List Bytes) (info : Meta) : Option Kind → PathMap
  | some k => setNode m P ⟨info, k⟩
  | none => m

/-- Adding a new path succeeds. -/
theorem Rel.addNew {st : Creator} {m : PathMap} {paths : List (List Bytes)} (R : Rel st m paths) {req : AddReq} {P : List Bytes}
    (hP : entryPath req.path = P) (hne : P ≠ []) (hlast : P.getLast? ≠ some PARENT) (hb : ¬ Blocked m P) (hnone : m P = none)
    {ko : Option Kind} (hk : req.kind = .ok ko) :
    ∃ st' paths', st.addEntry req = (st', .ok) ∧
      Rel st' (withEntry (withParents m P) P req.info ko) paths' ∧
      SpecAdd m req (withEntry (withParents m P) P req.info ko) .ok := by
  obtain ⟨m', h1, h2⟩ := R.addEntry req
  cases hst : st.addEntry req with
  | mk st' o =>
    rw [hst] at h1 h2
    simp only at h1 h2
    subst hP
    have hspec : SpecAdd m req (withEntry (withParents m (entryPath req.path)) (entryPath req.path) req.info ko) .ok := by
      cases ko with
      | none => exact .ignored hb hk
      | some k => exact .added k hb hne hlast hk hnone
    have ho : o = .ok := by
      cases h1 with
      | blocked h => exact absurd h hb
      | kindErr u _ h => rw [hk] at h; cases h
      | ignored => rfl
      | noName m' k _ _ h =>
        rcases h with h | h
        · exact absurd h hne
        · exact absurd h hlast
      | sameDir => rfl
      | «exists» k n e _ _ _ _ h => rw [hnone] at h; cases h
      | added => rfl
    subst ho
    obtain ⟨paths', R'⟩ := h2 (by simp)
    have := h1.det hspec (by simp) (by simp)
    subst this
    exact ⟨st', paths', rfl, R', hspec⟩

/-! ## The whole tree -/

/-- What is known about the adds of the tree at `q`, stored under `k`. -/
structure TreeCtx (s : Src) (env : CEnv) (pre root : RPath) (q k : List Bytes) : Prop where
  quiet : Quiet env s
  wf : s.WF
  nonempty : root ≠ []
  rel : root.head? ≠ some SEP
  leads : s.fs.resolve true (namesOf env.cwd root) = .ok (.found q)
  isDir : ∃ t, s.fs.nodes q = some (.dir t)
  stored : (comps root).filter (· ≠ CUR) = comps pre ++ k
  utf8 : ∀ c ∈ comps root, validUtf8 c = true
  below : ∀ p x, s.fs.nodes (q ++ p) = some x → ∀ c ∈ p, validUtf8 c = true

variable {pre root : RPath} {q k : List Bytes}

theorem TreeCtx.names (C : TreeCtx s env pre root q k) {p : List Bytes} {x : FNode} (hx : s.fs.nodes (q ++ p) = some x) :
    (∀ c ∈ p, ValidName c) ∧ ∀ c ∈ p, PlainName c :=
  ⟨fun c hc => (C.wf.names _ x hx c (by simp [hc])).1, fun c hc => (C.wf.names _ x hx c (by simp [hc])).2⟩

theorem TreeCtx.kValid (C : TreeCtx s env pre root q k) : (∀ c ∈ k, ValidName c) ∧ ∀ c ∈ k, c ≠ CUR := by
  have h : ∀ c ∈ k, c ∈ (comps root).filter (· ≠ CUR) := fun c hc => by rw [C.stored]; simp [hc]
  exact ⟨fun c hc => filterCur_valid (h c hc), fun c hc => by simpa using (List.mem_filter.mp (h c hc)).2⟩

/-- One step of the adding thread for the entry at the relative path `p`. -/
theorem TreeCtx.add (C : TreeCtx s env pre root q k) (a : Adder) {p : List Bytes} {x : FNode} (hx : s.fs.nodes (q ++ p) = some x)
    (hk : k ++ p ≠ []) :
    ∃ r cs', ReqFor s cs' (q ++ p) (joinPath (k ++ p)) r ∧
      (∀ ad b, packBytes a.contents ad = .found b → packBytes cs' ad = .found b) ∧
      ∀ st', a.creator.addEntry r = (st', .ok) →
        a.addEntryFromPath env pre (p.foldl joinChild root) (decide (stdComps (p.foldl joinChild root) = stdComps root)) =
          (⟨st', cs', a.tick + 4⟩, .ok) := by
  obtain ⟨hv, hp⟩ := C.names hx
  have hcomps := text_comps p root hv
  have hkv := C.kValid
  have hkp : ∀ c ∈ k ++ p, ValidName c := by
    intro c hc; rw [List.mem_append] at hc
    rcases hc with hc | hc
    · exact hkv.1 c hc
    · exact hv c hc
  have hfilter : (comps (p.foldl joinChild root)).filter (· ≠ CUR) = comps pre ++ (k ++ p) := by
    rw [hcomps, List.filter_append, C.stored, List.filter_eq_self.mpr (fun c hc => by simpa using (hp c hc).1), List.append_assoc]
  have hfrom : RPath.fromPathBuf (p.foldl joinChild root) = .ok (joinPath (comps pre ++ (k ++ p))) := by
    rw [fromPathBuf_eq, text_head p root C.nonempty, if_neg C.rel, if_pos, hfilter]
    intro c hc
    rw [hcomps, List.mem_append] at hc
    rcases hc with hc | hc
    · exact C.utf8 c hc
    · exact C.below p x hx c hc
  have hstrip : RPath.stripPrefix (joinPath (comps pre ++ (k ++ p))) pre = some (joinPath (k ++ p)) := by
    rw [RPath.stripPrefix, stripLoop_joinPath _ _ _ (fun c hc => comps_valid hc)]
    · rw [if_pos (List.prefix_append _ _)]; simp
    · intro c hc; rw [List.mem_append] at hc
      rcases hc with hc | hc
      · exact comps_valid hc
      · exact hkp c hc
  obtain ⟨t, hd⟩ := C.isDir
  have hnew : ∃ r cs', newFromPath env a.tick a.contents (namesOf env.cwd (p.foldl joinChild root)) (joinPath (k ++ p))
      (decide (p = [])) = .ok (r, cs') ∧ ReqFor s cs' (q ++ p) (joinPath (k ++ p)) r ∧
      ∀ a' b, packBytes a.contents a' = .found b → packBytes cs' a' = .found b := by
    by_cases hpe : p = []
    · subst hpe
      simp only [decide_true, List.append_nil, List.foldl_nil] at hx ⊢
      refine newFromPath_follow C.quiet C.wf _ _ _ C.leads hx ?_
      intro a b e; rw [hd] at hx; rw [e] at hx; cases hx
    · simp only [hpe, decide_false]
      exact newFromPath_plain C.quiet C.wf _ _ _ (by rw [text_resolve _ _ C.nonempty hv]; exact C.wf.resolve_below C.leads hd hpe hx) hx
  obtain ⟨r, cs', h1, h2, h3⟩ := hnew
  refine ⟨r, cs', h2, h3, ?_⟩
  intro st' hst
  rw [Adder.addEntryFromPath, hfrom]
  simp only
  rw [hstrip]
  simp only
  rw [if_neg (fun e => hk ((joinPath_eq_nil hkp).mp e)), text_stdComps hv hp, h1]
  simp only [hst]

theorem not_blocked {m : PathMap} {P : List Bytes} (h : ∀ z, ProperAncestor z P → ∃ n, m z = some n ∧ n.isDir = true) : ¬ Blocked m P := by
  intro ⟨z, n, h1, h2, h3⟩
  obtain ⟨n', h4, h5⟩ := h z h1
  rw [h2] at h4; cases h4
  rw [h3] at h5; cases h5

/-- Adding the entries `ps` (relative paths) of the tree, parents first. -/
theorem TreeCtx.addTree (C : TreeCtx s env pre root q k) : ∀ (ps : List (List Bytes)) (a : Adder) (m : PathMap)
    (paths : List (List Bytes)), Rel a.creator m paths →
    (∀ p ∈ ps, p ≠ [] ∧ s.fs.nodes (q ++ p) ≠ none) → ps.Nodup → ps.Pairwise (fun a b => ¬ (b <+: a ∧ b ≠ a)) →
    (∀ p ∈ ps, m (k ++ p) = none) →
    (∀ p ∈ ps, ∀ d, d <+: p → d ≠ p → d ∈ ps ∨ d = [] ∨ ∃ n, m (k ++ d) = some n ∧ n.isDir = true) →
    (∀ z, z ≠ [] → z <+: k → ∃ n, m z = some n ∧ n.isDir = true) →
    ∃ a' m' paths' rs, a.addSeq env pre root (ps.map (fun p => p.foldl joinChild root)) = (a', .ok) ∧
      a.creator.run rs = some a'.creator ∧ SpecRun m rs m' ∧ Rel a'.creator m' paths' ∧
      (∀ ad b, packBytes a.contents ad = .found b → packBytes a'.contents ad = .found b) ∧
      (∀ z, (∀ p ∈ ps, z ≠ k ++ p) → m' z = m z) ∧
      (∀ p ∈ ps, Archived s (packBytes a'.contents) (q ++ p) (m' (k ++ p))) := by
  intro ps
  induction ps with
  | nil =>
    intro a m paths R _ _ _ _ _ _
    exact ⟨a, m, paths, [], rfl, rfl, .nil m, R, fun _ _ h => h, fun _ _ => rfl, by simp⟩
  | cons p ps ih =>
    intro a m paths R hps hnd hord hnone hpar hk
    obtain ⟨hpne, hpex⟩ := hps p (by simp)
    obtain ⟨x, hx⟩ := Option.ne_none_iff_exists'.mp hpex
    rw [List.nodup_cons] at hnd
    rw [List.pairwise_cons] at hord
    have hkp : k ++ p ≠ [] := by simp [hpne]
    obtain ⟨r, cs', h1, h2, h3⟩ := C.add a hx hkp
    obtain ⟨hv, hp⟩ := C.names hx
    have hkv := C.kValid
    have hP : entryPath r.path = k ++ p := by
      rw [h1.path, entryPath_joinPath]
      · intro c hc; rw [List.mem_append] at hc
        rcases hc with hc | hc
        · exact hkv.1 c hc
        · exact hv c hc
      · intro c hc; rw [List.mem_append] at hc
        rcases hc with hc | hc
        · exact hkv.2 c hc
        · exact (hp c hc).1
    have hanc : ∀ z, ProperAncestor z (k ++ p) → ∃ n, m z = some n ∧ n.isDir = true := by
      intro z ⟨hz1, hz2, hz3⟩
      by_cases hzk : z <+: k
      · exact hk z hz1 hzk
      · have hkz : k <+: z := by
          rcases List.prefix_or_prefix_of_prefix hz3 (List.prefix_append k p) with h | h
          · exact absurd h hzk
          · exact h
        obtain ⟨d, rfl⟩ := hkz
        have hdp : d <+: p := by simpa using hz3
        have hdne : d ≠ p := fun e => hz2 (by rw [e])
        have hdnil : d ≠ [] := fun e => hzk (by rw [e]; simp)
        rcases hpar p (by simp) d hdp hdne with h | h | h
        · rw [List.mem_cons] at h
          rcases h with h | h
          · exact absurd h hdne
          · exact absurd ⟨hdp, hdne⟩ (hord.1 d h)
        · exact absurd h hdnil
        · exact h
    obtain ⟨ko, hko, harch⟩ := h1.kind
    have hlast : (k ++ p).getLast? ≠ some PARENT := by
      intro e
      obtain ⟨d, c, rfl⟩ := (nil_or_snoc p).resolve_left hpne
      rw [← List.append_assoc, List.getLast?_append] at e
      simp only [List.getLast?_singleton, Option.some_or, Option.some.injEq] at e
      exact (hp c (by simp)).2.1 e
    obtain ⟨st', paths', h4, h5, h6⟩ := R.addNew hP hkp hlast (not_blocked hanc) (hnone p (by simp)) hko
    rw [withParents_of hanc] at h5 h6
    generalize hm1 : withEntry m (k ++ p) r.info ko = m1 at h5 h6
    have hm1p : m1 (k ++ p) = ko.map (fun k => ⟨r.info, k⟩) := by
      rw [← hm1]
      cases ko with
      | none => simpa [withEntry] using hnone p (by simp)
      | some k' => simp [withEntry, setNode]
    have hm1o : ∀ z, z ≠ k ++ p → m1 z = m z := by
      intro z hz
      rw [← hm1]
      cases ko with
      | none => rfl
      | some k' => simp [withEntry, setNode, hz]
    have hkeep : ∀ z n, m z = some n → m1 z = some n := by
      intro z n hz
      by_cases e : z = k ++ p
      · rw [e, hnone p (by simp)] at hz; cases hz
      · rw [hm1o z e, hz]
    obtain ⟨a', m', paths'', rs, g1, g2, g3, g4, g5, g6, g7⟩ := ih ⟨st', cs', a.tick + 4⟩ m1 paths' h5
      (fun p' hp' => hps p' (by simp [hp'])) hnd.2 hord.2
      (by
        intro p' hp'
        rw [hm1o _ (by simp; intro e; exact hnd.1 (e ▸ hp'))]
        exact hnone p' (by simp [hp']))
      (by
        intro p' hp' d hd hdne
        rcases hpar p' (by simp [hp']) d hd hdne with h | h | ⟨n, h, h'⟩
        · rw [List.mem_cons] at h
          rcases h with h | h
          · right; right
            subst h
            obtain ⟨x', hx'⟩ := Option.ne_none_iff_exists'.mp (hps p' (by simp [hp'])).2
            obtain ⟨t, ht⟩ := C.wf.dirsTo hx' (q ++ d) (by obtain ⟨z, rfl⟩ := hd; exact ⟨z, by simp⟩) (by simpa using hdne)
            unfold Archived at harch
            rw [ht] at harch
            simp only at harch
            exact ⟨_, by rw [hm1p, harch], rfl⟩
          · exact Or.inl h
        · exact Or.inr (Or.inl h)
        · exact Or.inr (Or.inr ⟨n, hkeep _ _ h, h'⟩))
      (by
        intro z h h'
        obtain ⟨n, h1, h2⟩ := hk z h h'
        exact ⟨n, hkeep _ _ h1, h2⟩)
    refine ⟨a', m', paths'', r :: rs, ?_, ?_, .cons h6 (by simp) g3, g4, fun ad b h => g5 ad b (h2 ad b h), ?_, ?_⟩
    · rw [Adder.addSeq, List.map_cons, List.map_cons, Adder.addAll, h3 st' h4]
      exact g1
    · rw [Creator.run, h4]; exact g2
    · intro z hz
      rw [g6 z (fun p' hp' => hz p' (by simp [hp'])), hm1o z (hz p (by simp))]
    · intro p' hp'
      rw [List.mem_cons] at hp'
      rcases hp' with e | hp'
      · subst e
        have e1 : m' (k ++ p') = m1 (k ++ p') := g6 _ (fun p'' hp'' => by simp; intro e; exact hnd.1 (e ▸ hp''))
        rw [e1, hm1p]
        exact harch.mono g5
      · exact g7 p' hp'

end Arx
