import Verif.Proof.AdderTree3
/-!
# Adding a whole directory tree to a new archive
-/
namespace Arx

variable {s : Src} {env : CEnv} {pre root : RPath} {q k : List Bytes}

/-- The items of the walk of a directory that can be listed. -/
theorem walkItems_eq {cwd : List Bytes} {ls : ReadDir} {ns : List Bytes → List Bytes} {t : Int}
    (hls : ∀ d t, s.fs.nodes d = some (.dir t) → ls d = (ns d).map .ok) (hroot : root ≠ [])
    (h : s.fs.resolve true (namesOf cwd root) = .ok (.found q)) (hq : s.fs.nodes q = some (.dir t)) (depth : Nat) :
    walkItems cwd s ls depth root true =
      (([] :: walkRel s ns depth q).map (fun p => .ok (p.foldl joinChild root)) : List (Except Unit Bytes)) := by
  obtain ⟨h1, h2⟩ := FS.resolve_ok h
  obtain ⟨q', h3, h4⟩ := resAux_unfollow 40 _ [] h2
  have hf' := FS.resolve_of h1 h3
  unfold walkItems
  rw [if_neg hroot, hf']
  simp only [if_true]
  rcases h4 with rfl | ⟨tg, u, hl⟩
  · rw [hq]
    simp only
    rw [walkBelow_eq hls depth root q' t hq]; rfl
  · rw [hl]
    simp only [h, hq]
    rw [walkBelow_eq hls depth root q t hq]; rfl

theorem goodPrefix_ok (l : List Bytes) : goodPrefix (l.map .ok) = l := by
  induction l with
  | nil => rfl
  | cons a l ih => simp [goodPrefix, ih]

theorem FullListing.names {ls : ReadDir} (h : FullListing s ls) :
    ∃ ns : List Bytes → List Bytes, (∀ d t, s.fs.nodes d = some (.dir t) → ls d = (ns d).map .ok) ∧ GoodNames s ns := by
  classical
  refine ⟨fun d => if hd : ∃ t, s.fs.nodes d = some (.dir t) then (h d hd.choose hd.choose_spec).choose else [], ?_, ?_⟩
  · intro d t hd
    simp only
    rw [dif_pos ⟨t, hd⟩]
    have hd' : ∃ t, s.fs.nodes d = some (.dir t) := ⟨t, hd⟩
    exact (h d hd'.choose hd'.choose_spec).choose_spec.1
  · intro d t hd
    simp only
    rw [dif_pos ⟨t, hd⟩]
    have hd' : ∃ t, s.fs.nodes d = some (.dir t) := ⟨t, hd⟩
    exact (h d hd'.choose hd'.choose_spec).choose_spec.2

/-- The first add: the root. -/
theorem TreeCtx.addRoot (C : TreeCtx s env pre root q k) (hk : k.getLast? ≠ some PARENT) :
    ∃ a' m' paths' rs, Adder.new.addEntryFromPath env pre root true = (a', .ok) ∧
      Creator.new.run rs = some a'.creator ∧ SpecRun PathMap.empty rs m' ∧ Rel a'.creator m' paths' ∧
      (k ≠ [] → Archived s (packBytes a'.contents) q (m' k)) ∧
      (∀ z n, m' z = some n → z ≠ [] ∧ z <+: k ∧ (z ≠ k → n = defaultDir)) ∧
      (∀ z, z ≠ [] → z <+: k → ∃ n, m' z = some n ∧ n.isDir = true) := by
  by_cases hke : k = []
  · subst hke
    refine ⟨Adder.new, PathMap.empty, [], [], ?_, rfl, .nil _, Rel.new, fun h => absurd rfl h, ?_, ?_⟩
    · have h0 := C.stored
      rw [List.append_nil] at h0
      have hfrom : RPath.fromPathBuf root = .ok (joinPath (comps pre)) := by
        rw [fromPathBuf_eq, if_neg C.rel, if_pos C.utf8, h0]
      have hstrip : RPath.stripPrefix (joinPath (comps pre)) pre = some [] := by
        rw [RPath.stripPrefix, stripLoop_joinPath _ _ (fun c hc => comps_valid hc) (fun c hc => comps_valid hc),
          if_pos (List.prefix_refl _)]
        simp [joinPath]
      rw [Adder.addEntryFromPath, hfrom]
      simp only
      rw [hstrip]
      simp
    · intro z n h; cases h
    · intro z h1 h2; exact absurd (List.prefix_nil.mp h2) h1
  · obtain ⟨t, hd⟩ := C.isDir
    have hx : s.fs.nodes (q ++ []) = some (.dir t) := by simpa using hd
    obtain ⟨r, cs', h1, h2, h3⟩ := C.add Adder.new hx (by simpa using hke)
    simp only [List.append_nil, List.foldl_nil] at h1 h3
    have hkv := C.kValid
    have hP : entryPath r.path = k := by rw [h1.path, entryPath_joinPath hkv.1 hkv.2]
    obtain ⟨ko, hko, harch⟩ := h1.kind
    have hb : ¬ Blocked PathMap.empty k := by intro ⟨z, n, _, h, _⟩; cases h
    obtain ⟨st', paths', h4, h5, h6⟩ := Rel.new.addNew hP hke hk hb rfl hko
    have hkd : ko = some .dir := by
      have harch' := harch
      unfold Archived at harch'
      rw [hd] at harch'
      simp only at harch'
      cases ko with
      | none => cases harch'
      | some k' => simp only [Option.map_some, Option.some.injEq, Node.mk.injEq] at harch'; rw [harch'.2]
    subst hkd
    refine ⟨⟨st', cs', Adder.new.tick + 4⟩, _, paths', [r], by simpa using h3 st' h4, ?_, .cons h6 (by simp) (.nil _), h5, ?_, ?_, ?_⟩
    · simp only [Creator.run]
      have : Creator.new.addEntry r = (st', .ok) := h4
      rw [this]
    · intro _
      simpa [withEntry, setNode] using harch
    · intro z n hz
      simp only [withEntry, setNode] at hz
      split at hz
      · rename_i e; subst e; exact ⟨hke, List.prefix_refl _, fun h => absurd rfl h⟩
      · rename_i e
        simp only [withParents, PathMap.empty] at hz
        split at hz
        · rename_i ha; cases hz; exact ⟨ha.1, ha.2.2, fun _ => rfl⟩
        · cases hz
    · intro z h1 h2
      by_cases e : z = k
      · subst e; exact ⟨_, by simp [withEntry, setNode]; rfl, rfl⟩
      · refine ⟨defaultDir, ?_, rfl⟩
        simp only [withEntry, setNode, if_neg e, withParents, PathMap.empty]
        rw [if_pos ⟨h1, e, h2⟩]

/-- The whole tree is archived. -/
theorem TreeCtx.whole (C : TreeCtx s env pre root q k) (hk : k.getLast? ≠ some PARENT) {ns : List Bytes → List Bytes}
    (hns : GoodNames s ns) {depth : Nat} (hdepth : ∀ p, s.fs.nodes (q ++ p) ≠ none → p.length ≤ depth) :
    ∃ a' m' rs, Adder.new.addSeq env pre root (([] :: walkRel s ns depth q).map (fun p => p.foldl joinChild root)) = (a', .ok) ∧
      Creator.new.run rs = some a'.creator ∧ SpecRun PathMap.empty rs m' ∧
      (∀ p, s.fs.nodes (q ++ p) ≠ none → k ++ p ≠ [] → Archived s (packBytes a'.contents) (q ++ p) (m' (k ++ p))) ∧
      (∀ z n, m' z = some n → (∃ p, z = k ++ p ∧ s.fs.nodes (q ++ p) ≠ none) ∨ (z <+: k ∧ n = defaultDir)) := by
  obtain ⟨t, hd⟩ := C.isDir
  obtain ⟨a1, m1, paths1, rs1, h1, h2, h3, h4, h5, h6, h7⟩ := C.addRoot hk
  have hmem := mem_walkRel hns C.wf depth q t hd
  obtain ⟨a', m', paths', rs, g1, g2, g3, g4, g5, g6, g7⟩ := C.addTree (walkRel s ns depth q) a1 m1 paths1 h4
    (fun p hp => ⟨((hmem p).mp hp).1, ((hmem p).mp hp).2.2⟩) (walkRel_nodup hns C.wf depth q t hd)
    (walkRel_order hns C.wf depth q t hd)
    (by
      intro p hp
      cases hm : m1 (k ++ p) with
      | none => rfl
      | some n =>
        have := (h6 _ n hm).2.1.length_le
        simp only [List.length_append] at this
        exact absurd (List.length_eq_zero_iff.mp (by omega)) ((hmem p).mp hp).1)
    (by
      intro p hp d hdp hne
      by_cases e : d = []
      · exact Or.inr (Or.inl e)
      · obtain ⟨_, h2, h3⟩ := (hmem p).mp hp
        obtain ⟨x, hx⟩ := Option.ne_none_iff_exists'.mp h3
        obtain ⟨u, hu⟩ := C.wf.dirsTo hx (q ++ d) (by obtain ⟨z, rfl⟩ := hdp; exact ⟨z, by simp⟩) (by simpa using hne)
        exact Or.inl ((hmem d).mpr ⟨e, Nat.le_trans hdp.length_le h2, by rw [hu]; simp⟩))
    h7
  refine ⟨a', m', rs1 ++ rs, ?_, ?_, h3.append g3, ?_, ?_⟩
  · rw [Adder.addSeq, List.map_cons, List.map_cons, Adder.addAll]
    simp only [List.foldl_nil, decide_true]
    rw [h1]
    exact g1
  · rw [Creator.run_append, h2]; exact g2
  · intro p hp hne
    by_cases e : p = []
    · subst e
      simp only [List.append_nil] at hne hp ⊢
      rw [g6 k (by
        intro p' hp' e
        have := congrArg List.length e
        simp only [List.length_append] at this
        exact ((hmem p').mp hp').1 (List.length_eq_zero_iff.mp (by omega)))]
      exact (h5 hne).mono g5
    · exact g7 p ((hmem p).mpr ⟨e, hdepth p hp, hp⟩)
  · intro z n hz
    by_cases hin : ∃ p ∈ walkRel s ns depth q, z = k ++ p
    · obtain ⟨p, hp, e⟩ := hin
      exact Or.inl ⟨p, e, ((hmem p).mp hp).2.2⟩
    · rw [g6 z (fun p hp e => hin ⟨p, hp, e⟩)] at hz
      obtain ⟨e1, e2, e3⟩ := h6 z n hz
      by_cases e : z = k
      · exact Or.inl ⟨[], by simpa using e, by rw [List.append_nil, hd]; simp⟩
      · exact Or.inr ⟨e2, e3 e⟩

end Arx
