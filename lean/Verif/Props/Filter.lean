import Verif.Props.Adder2
/-!
# Adding with a filter (C63)
-/
namespace Arx

variable {s : Src}

/-- the filter accepts the entry `p` below `text` and all directories between -/
def keptBelow (keep : Bytes → Bool) : Bytes → List Bytes → Bool
  | _, [] => true
  | text, n :: p => keep (joinChild text n) && keptBelow keep (joinChild text n) p

theorem keptBelow_iff {keep : Bytes → Bool} : ∀ (p : List Bytes) (text : Bytes),
    keptBelow keep text p = true ↔ ∀ a, a <+: p → a ≠ [] → keep (a.foldl joinChild text) = true := by
  intro p
  induction p with
  | nil =>
    intro text
    simp only [keptBelow, true_iff]
    intro a ha hne
    exact absurd (List.prefix_nil.mp ha) hne
  | cons n p ih =>
    intro text
    simp only [keptBelow, Bool.and_eq_true, ih]
    constructor
    · rintro ⟨h1, h2⟩ a ha hne
      cases a with
      | nil => exact absurd rfl hne
      | cons x a =>
        obtain ⟨rfl, ha'⟩ := List.cons_prefix_cons.mp ha
        by_cases e : a = []
        · subst e; exact h1
        · exact h2 a ha' e
    · intro h
      exact ⟨h [n] ⟨p, rfl⟩ (by simp), fun a ha _ => h (n :: a) (List.cons_prefix_cons.mpr ⟨rfl, ha⟩) (by simp)⟩

theorem walkBelowF_eq {keep : Bytes → Bool} {ls : ReadDir} {ns : List Bytes → List Bytes}
    (hls : ∀ d t, s.fs.nodes d = some (.dir t) → ls d = (ns d).map .ok) : ∀ (f : Nat) (text : Bytes) (d : List Bytes) (t : Int),
    s.fs.nodes d = some (.dir t) →
    walkBelowF keep s ls f text d =
      ((walkRel s ns f d).filter (keptBelow keep text)).map (fun p => .ok (p.foldl joinChild text)) := by
  intro f
  induction f with
  | zero => intro text d t _; rfl
  | succ f ih =>
    intro text d t hd
    simp only [walkBelowF, walkRel, hls d t hd, List.flatMap_map, List.filter_flatMap, List.map_flatMap]
    congr 1
    funext n
    by_cases hk : keep (joinChild text n) = true
    · rw [if_pos hk, List.filter_cons_of_pos (by simp [keptBelow, hk])]
      simp only [List.map_cons, List.foldl_cons, List.foldl_nil, List.cons.injEq, true_and]
      cases hx : s.fs.nodes (d ++ [n]) with
      | none => rfl
      | some x =>
        cases x with
        | dir u =>
          simp only [ih _ _ u hx, List.filter_map, List.map_map]
          have : (keptBelow keep text ∘ fun x => n :: x) = keptBelow keep (joinChild text n) := by
            funext p; simp [keptBelow, hk]
          rw [this]; rfl
        | file i => rfl
        | link a b => rfl
    · rw [if_neg hk]
      symm
      rw [List.map_eq_nil_iff, List.filter_eq_nil_iff]
      intro p hp
      rw [List.mem_cons] at hp
      rcases hp with rfl | hp
      · simp [keptBelow, hk]
      · cases hx : s.fs.nodes (d ++ [n]) with
        | none => rw [hx] at hp; simp at hp
        | some x =>
          rw [hx] at hp
          cases x with
          | file i => simp at hp
          | link a b => simp at hp
          | dir u => simp only [List.mem_map] at hp; obtain ⟨p', _, rfl⟩ := hp; simp [keptBelow, hk]

theorem walkItemsF_eq {keep : Bytes → Bool} {cwd : List Bytes} {root : Bytes} {q : List Bytes} {ls : ReadDir}
    {ns : List Bytes → List Bytes} {t : Int}
    (hls : ∀ d t, s.fs.nodes d = some (.dir t) → ls d = (ns d).map .ok) (hroot : root ≠ [])
    (h : s.fs.resolve true (namesOf cwd root) = .ok (.found q)) (hq : s.fs.nodes q = some (.dir t)) (depth : Nat) :
    walkItemsF keep cwd s ls depth root true =
      ((([] :: walkRel s ns depth q).filter (fun p => keep root && keptBelow keep root p)).map
        (fun p => .ok (p.foldl joinChild root)) : List (Except Unit Bytes)) := by
  obtain ⟨h1, h2⟩ := FS.resolve_ok h
  obtain ⟨q', h3, h4⟩ := resAux_unfollow 40 _ [] h2
  have hf' := FS.resolve_of h1 h3
  have key : (if keep root then (.ok root :: walkBelowF keep s ls depth root q : List (Except Unit Bytes)) else []) =
      (([] :: walkRel s ns depth q).filter (fun p => keep root && keptBelow keep root p)).map (fun p => .ok (p.foldl joinChild root)) := by
    rw [walkBelowF_eq hls depth root q t hq]
    cases hk : keep root with
    | false => simp
    | true =>
      simp only [if_true, Bool.true_and]
      rw [List.filter_cons_of_pos (by rfl)]
      rfl
  unfold walkItemsF
  rw [if_neg hroot, hf']
  simp only [if_true]
  rcases h4 with rfl | ⟨tg, u, hl⟩
  · rw [hq]
    exact key
  · rw [hl]
    simp only [h, hq]
    exact key

/-- `add_from_path` is adding with the filter that accepts everything (fs_adder.rs:157-162). -/
theorem walkItemsF_true (cwd : List Bytes) (s : Src) (ls : ReadDir) (depth : Nat) (root : Bytes) (recurse : Bool) :
    walkItemsF (fun _ => true) cwd s ls depth root recurse = walkItems cwd s ls depth root recurse := by
  have hb : ∀ (f : Nat) (text : Bytes) (d : List Bytes), walkBelowF (fun _ => true) s ls f text d = walkBelow s ls f text d := by
    intro f
    induction f with
    | zero => intro _ _; rfl
    | succ f ih =>
      intro text d
      simp only [walkBelowF, walkBelow, if_true, ih]
  unfold walkItemsF walkItems
  simp only [if_true, hb]

/-- **C63.** Let `add_from_path_with_filter(root, true, keep)` be called for a directory (or a link to one) `q`, in
any state, with any prefix, and let the walk see the file system `s`, in which every directory can be listed without
error, in any order; the calls of the adding thread may see other file systems and may fail. If the function returns
Ok then exactly those entries of the tree at `q` have been added — each once, parents before children, the root
alone with links followed — that the filter accepts together with every directory above them, the root included. -/
theorem C63_filter {env : CEnv} {pre root : RPath} {a : Adder} {s : Src} {ls : ReadDir} {depth : Nat} {q : List Bytes}
    {sched : List Bool} {keep : Bytes → Bool} (hwf : s.WF) (hls : FullListing s ls) (hq : LeadsTo s env.cwd root q)
    (hdepth : ∀ p, s.fs.nodes (q ++ p) ≠ none → p.length ≤ depth)
    (hok : (Chan.run env pre root (Chan.start a (walkItemsF keep env.cwd s ls depth root true)) sched).result = some .ok) :
    ∃ order : List (List Bytes), order.Nodup ∧
      (∀ p, p ∈ order ↔ s.fs.nodes (q ++ p) ≠ none ∧ ∀ d, d <+: p → keep (d.foldl joinChild root) = true) ∧
      order.Pairwise (fun a b => ¬ (b <+: a ∧ b ≠ a)) ∧
      (∀ p ∈ order, baseNames env.cwd (p.foldl joinChild root) = baseNames env.cwd root ++ p) ∧
      a.addAll env pre (order.map (fun p => (p.foldl joinChild root, decide (p = [])))) =
        ((Chan.run env pre root (Chan.start a (walkItemsF keep env.cwd s ls depth root true)) sched).adder, .ok) := by
  obtain ⟨hne, hres, t, hd⟩ := hq
  obtain ⟨ns, hns, hg⟩ := hls.names
  have hitems := walkItemsF_eq (keep := keep) hns hne hres hd depth
  have hmem := mem_walkRel hg hwf depth q t hd
  have hrun := Chan.run_result hok
  have hgp : goodPrefix (walkItemsF keep env.cwd s ls depth root true) =
      (([] :: walkRel s ns depth q).filter (fun p => keep root && keptBelow keep root p)).map (fun p => p.foldl joinChild root) := by
    rw [hitems]
    have := goodPrefix_ok ((([] :: walkRel s ns depth q).filter (fun p => keep root && keptBelow keep root p)).map (fun p => p.foldl joinChild root))
    rw [List.map_map] at this
    exact this
  have hnames : ∀ p ∈ walkRel s ns depth q, (∀ c ∈ p, ValidName c) ∧ ∀ c ∈ p, PlainName c := by
    intro p hp
    obtain ⟨x, hx⟩ := Option.ne_none_iff_exists'.mp ((hmem p).mp hp).2.2
    exact ⟨fun c hc => (hwf.names _ x hx c (by simp [hc])).1, fun c hc => (hwf.names _ x hx c (by simp [hc])).2⟩
  refine ⟨([] :: walkRel s ns depth q).filter (fun p => keep root && keptBelow keep root p), ?_, ?_, ?_, ?_, ?_⟩
  · exact (List.nodup_cons.mpr ⟨fun h => ((hmem []).mp h).1 rfl, walkRel_nodup hg hwf depth q t hd⟩).filter _
  · intro p
    rw [List.mem_filter, List.mem_cons, hmem p, Bool.and_eq_true, keptBelow_iff]
    constructor
    · rintro ⟨h, h1, h2⟩
      refine ⟨?_, ?_⟩
      · rcases h with rfl | h
        · rw [List.append_nil, hd]; simp
        · exact h.2.2
      · intro d hdp
        by_cases e : d = []
        · subst e; exact h1
        · exact h2 d hdp e
    · rintro ⟨h, hk⟩
      refine ⟨?_, hk [] List.nil_prefix, fun d hdp _ => hk d hdp⟩
      by_cases e : p = []
      · exact Or.inl e
      · exact Or.inr ⟨e, hdepth p h, h⟩
  · refine List.Pairwise.filter _ (List.pairwise_cons.mpr ⟨?_, walkRel_order hg hwf depth q t hd⟩)
    intro b hb ⟨h1, h2⟩
    exact h2 (List.prefix_nil.mp h1)
  · intro p hp
    rcases List.mem_cons.mp (List.mem_filter.mp hp).1 with rfl | hp
    · simp
    · exact text_names hne (hnames p hp).1
  · rw [hgp] at hrun
    rw [← hrun, Adder.addSeq, List.map_map]
    congr 1
    apply List.map_congr_left
    intro p hp
    simp only [Function.comp]
    rcases List.mem_cons.mp (List.mem_filter.mp hp).1 with rfl | hp
    · simp
    · obtain ⟨h1, h2⟩ := hnames p hp
      rw [text_stdComps h1 h2]

/-- **C63 (a single entry).** If `root` leads to something that is no directory, or `recurse` is off: if the function returns Ok then `root` has been
added, with links followed, if the filter accepts it; nothing else has been added. -/
theorem C63_single {env : CEnv} {pre root : RPath} {a : Adder} {s : Src} {ls : ReadDir} {depth : Nat} {q : List Bytes} {x : FNode}
    {recurse : Bool} {sched : List Bool} {keep : Bytes → Bool} (hne : root ≠ [])
    (hres : s.fs.resolve true (namesOf env.cwd root) = .ok (.found q)) (hq : s.fs.nodes q = some x)
    (hone : recurse = false ∨ ∀ t, x ≠ .dir t)
    (hok : (Chan.run env pre root (Chan.start a (walkItemsF keep env.cwd s ls depth root recurse)) sched).result = some .ok) :
    a.addAll env pre (if keep root then [(root, true)] else []) =
      ((Chan.run env pre root (Chan.start a (walkItemsF keep env.cwd s ls depth root recurse)) sched).adder, .ok) := by
  obtain ⟨h1, h2⟩ := FS.resolve_ok hres
  obtain ⟨q', h3, h4⟩ := resAux_unfollow 40 _ [] h2
  have hf' := FS.resolve_of h1 h3
  have key : ∀ y, y = x → (match y with
      | .dir _ => if keep root then (.ok root :: (if recurse then walkBelowF keep s ls depth root q else []) : List (Except Unit Bytes)) else []
      | .file _ => if keep root then [.ok root] else []
      | .link _ _ => if keep root then [.ok root] else []) = if keep root then [.ok root] else [] := by
    rintro y rfl
    cases y with
    | dir t =>
      rcases hone with rfl | h
      · simp
      · exact absurd rfl (h t)
    | file i => rfl
    | link t u => rfl
  have hitems : walkItemsF keep env.cwd s ls depth root recurse = if keep root then [.ok root] else [] := by
    unfold walkItemsF
    rw [if_neg hne, hf']
    rcases h4 with rfl | ⟨tg, u, hl⟩
    · simp only [hq]
      cases x with
      | dir t => exact key _ rfl
      | file i => rfl
      | link t u => simp only [hres, hq]
    · simp only [hl, hres, hq]
      cases x with
      | dir t => exact key _ rfl
      | file i => rfl
      | link t u => rfl
  have hrun := Chan.run_result hok
  rw [← hrun, hitems]
  cases keep root with
  | true => simp [goodPrefix, Adder.addSeq]
  | false => simp [goodPrefix, Adder.addSeq]

/-- a filter that rejects `d/s` -/
def noS : Bytes → Bool := fun p => p ≠ ascii "d/s"

def filterChan (keep : Bytes → Bool) : Chan :=
  Chan.run exEnv [] (ascii "d") (Chan.start Adder.new (walkItemsF keep [] exSrc exLs 3 (ascii "d") true)) turns

/-- the hypotheses of `C63_filter` are met (the others: see `C34_whole_tree_partial`); the rejected directory is left
out with what is in it, and a rejected root leaves nothing -/
example : (filterChan noS).result = some .ok ∧
    (filterChan noS).adder.creator.store.length < (exChan exLs).adder.creator.store.length ∧
    (filterChan (fun _ => false)).result = some .ok ∧ (filterChan (fun _ => false)).adder.creator.store = [] := by
  refine ⟨by decide, by decide, by decide, ?_⟩
  exact List.length_eq_zero_iff.mp (by decide)

/-- the hypotheses of `C63_single` are met, by a directory without recursion and by a file, accepted and rejected -/
example :
    (Chan.run exEnv [] (ascii "d") (Chan.start Adder.new (walkItemsF noS [] exSrc exLs 3 (ascii "d") false)) turns).result = some .ok ∧
    (Chan.run exEnv [] (ascii "d/f") (Chan.start Adder.new (walkItemsF noS [] exSrc exLs 3 (ascii "d/f") true)) turns).result = some .ok ∧
    (Chan.run exEnv [] (ascii "d/f") (Chan.start Adder.new (walkItemsF noS [] exSrc exLs 3 (ascii "d/f") true)) turns).adder.creator.store.length = 2 ∧
    (Chan.run exEnv [] (ascii "d/f") (Chan.start Adder.new (walkItemsF (fun _ => false) [] exSrc exLs 3 (ascii "d/f") true)) turns).adder.creator.store.length = 0 := by
  refine ⟨by decide, by decide, by decide, by decide⟩

end Arx
