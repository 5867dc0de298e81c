import Verif.Props.Adder
/-!
# Properties of adding from the file system, continued (C34–C36, C50)
-/
namespace Arx

/-! ## C34: recursive adding -/

/-- The two threads cannot block each other: whatever happened so far, the function can still return (and
does, if both threads are scheduled). -/
theorem C34_no_deadlock (env : CEnv) (pre root : RPath) (c : Chan) (sched : List Bool) :
    ∃ more, (Chan.run env pre root c (sched ++ more)).result.isSome = true := by
  refine ⟨List.replicate ((Chan.run env pre root c sched).todo.length + 1) true ++
    List.replicate ((Chan.run env pre root (Chan.run env pre root c sched)
      (List.replicate ((Chan.run env pre root c sched).todo.length + 1) true)).queue.length + 1) false, ?_⟩
  rw [Chan.run_append, Chan.run_append]
  exact Chan.adder_ends env pre root _ _ (Chan.walker_ends env pre root _ _ (by omega)) (by omega)

theorem goodPrefix_split (items : List (Except Unit Bytes)) : ∃ bad, items = (goodPrefix items).map .ok ++ bad ∧
    (bad = [] ∨ ∃ u rest, bad = .error u :: rest) := by
  induction items with
  | nil => exact ⟨[], rfl, Or.inl rfl⟩
  | cons x r ih =>
    cases x with
    | error u => exact ⟨_, rfl, Or.inr ⟨u, r, rfl⟩⟩
    | ok p =>
      obtain ⟨bad, h1, h2⟩ := ih
      exact ⟨bad, by simp only [goodPrefix, List.map_cons, List.cons_append, ← h1], h2⟩

/-- **C34, schedules.** Whatever the relative speed of the walking and the adding thread, the result and the
archive are the ones of adding, one after the other, the paths the walk yields before its first error. -/
theorem C34_schedule_independent {env : CEnv} {pre root : RPath} {s : Adder} {items : List (Except Unit Bytes)}
    {sched : List Bool} {e : AOut} (h : (Chan.run env pre root (Chan.start s items) sched).result = some e) :
    ∃ (good : List Bytes) (bad : List (Except Unit Bytes)), items = good.map .ok ++ bad ∧ (bad = [] ∨ ∃ u rest, bad = .error u :: rest) ∧
      s.addAll env pre (good.map (fun p => (p, decide (stdComps p = stdComps root)))) =
        ((Chan.run env pre root (Chan.start s items) sched).adder, e) := by
  obtain ⟨bad, h1, h2⟩ := goodPrefix_split items
  exact ⟨goodPrefix items, bad, h1, h2, Chan.run_result h⟩

/-- **C34 (partial).** Let `add_from_path(root, recurse)` be called for a directory (or a link to one) `q`, in
any state, with any prefix, and let the walk see the file system `s`, in which every directory can be listed
without error, in any order; the calls of the adding thread may see other file systems and may fail. If the
function returns Ok then each entry of the tree at `q` — the root included — has been added exactly once,
parents before children, the root alone with links followed. Missing: errors of the walk itself, see
`C34_counterexample`. -/
theorem C34_whole_tree_partial {env : CEnv} {pre root : RPath} {a : Adder} {s : Src} {ls : ReadDir} {depth : Nat} {q : List Bytes}
    {sched : List Bool} (hwf : s.WF) (hls : FullListing s ls) (hq : LeadsTo s env.cwd root q)
    (hdepth : ∀ p, s.fs.nodes (q ++ p) ≠ none → p.length ≤ depth)
    (hok : (Chan.run env pre root (Chan.start a (walkItems env.cwd s ls depth root true)) sched).result = some .ok) :
    ∃ order : List (List Bytes), order.Nodup ∧ (∀ p, p ∈ order ↔ s.fs.nodes (q ++ p) ≠ none) ∧
      order.Pairwise (fun a b => ¬ (b <+: a ∧ b ≠ a)) ∧
      (∀ p ∈ order, baseNames env.cwd (p.foldl joinChild root) = baseNames env.cwd root ++ p) ∧
      a.addAll env pre (order.map (fun p => (p.foldl joinChild root, decide (p = [])))) =
        ((Chan.run env pre root (Chan.start a (walkItems env.cwd s ls depth root true)) sched).adder, .ok) := by
  obtain ⟨hne, hres, t, hd⟩ := hq
  obtain ⟨ns, hns, hg⟩ := hls.names
  have hitems := walkItems_eq hns hne hres hd depth
  have hmem := mem_walkRel hg hwf depth q t hd
  have hrun := Chan.run_result hok
  have hgp : goodPrefix (walkItems env.cwd s ls depth root true) =
      ([] :: walkRel s ns depth q).map (fun p => p.foldl joinChild root) := by
    rw [hitems]
    have := goodPrefix_ok (([] :: walkRel s ns depth q).map (fun p => p.foldl joinChild root))
    rw [List.map_map] at this
    exact this
  have hnames : ∀ p ∈ walkRel s ns depth q, (∀ c ∈ p, ValidName c) ∧ ∀ c ∈ p, PlainName c := by
    intro p hp
    obtain ⟨x, hx⟩ := Option.ne_none_iff_exists'.mp ((hmem p).mp hp).2.2
    exact ⟨fun c hc => (hwf.names _ x hx c (by simp [hc])).1, fun c hc => (hwf.names _ x hx c (by simp [hc])).2⟩
  refine ⟨[] :: walkRel s ns depth q, ?_, ?_, ?_, ?_, ?_⟩
  · refine List.nodup_cons.mpr ⟨fun h => ((hmem []).mp h).1 rfl, walkRel_nodup hg hwf depth q t hd⟩
  · intro p
    rw [List.mem_cons, hmem p]
    constructor
    · rintro (rfl | h)
      · rw [List.append_nil, hd]; simp
      · exact h.2.2
    · intro h
      by_cases e : p = []
      · exact Or.inl e
      · exact Or.inr ⟨e, hdepth p h, h⟩
  · refine List.pairwise_cons.mpr ⟨?_, walkRel_order hg hwf depth q t hd⟩
    intro b hb ⟨h1, h2⟩
    exact h2 (List.prefix_nil.mp h1)
  · intro p hp
    rcases List.mem_cons.mp hp with rfl | hp
    · simp
    · exact text_names hne (hnames p hp).1
  · rw [hgp] at hrun
    rw [← hrun, Adder.addSeq, List.map_map]
    congr 1
    apply List.map_congr_left
    intro p hp
    simp only [Function.comp]
    rcases List.mem_cons.mp hp with rfl | hp
    · simp
    · obtain ⟨h1, h2⟩ := hnames p hp
      rw [text_stdComps h1 h2]

/-- the complete listing of the example -/
def exLs : ReadDir := fun d =>
  if d = [] then [.ok (ascii "d")]
  else if d = [ascii "d"] then [.ok (ascii "s"), .ok (ascii "p"), .ok (ascii "f")]
  else if d = [ascii "d", ascii "s"] then [.ok (ascii "l")]
  else []

theorem exSrc_paths {q : List Bytes} (h : exSrc.fs.nodes q ≠ none) :
    q ∈ [[], [ascii "d"], [ascii "d", ascii "f"], [ascii "d", ascii "p"], [ascii "d", ascii "s"], [ascii "d", ascii "s", ascii "l"]] := by
  obtain ⟨x, hx⟩ := Option.ne_none_iff_exists'.mp h
  have := exSrc_nodes hx
  simp only [List.mem_cons, Prod.mk.injEq, List.not_mem_nil, or_false] at this ⊢
  rcases this with ⟨e, _⟩ | ⟨e, _⟩ | ⟨e, _⟩ | ⟨e, _⟩ | ⟨e, _⟩ | ⟨e, _⟩ <;> simp [e]

theorem exLs_full : FullListing exSrc exLs := by
  intro d t h
  have := exSrc_nodes h
  simp only [List.mem_cons, Prod.mk.injEq, List.not_mem_nil, or_false] at this
  have hc := fun n (hn : exSrc.fs.nodes (d ++ [n]) ≠ none) => exSrc_paths hn
  rcases this with ⟨e, _⟩ | ⟨e, _⟩ | ⟨e, e'⟩ | ⟨e, e'⟩ | ⟨e, _⟩ | ⟨e, e'⟩
  · subst e
    refine ⟨[ascii "d"], rfl, by decide, fun n => ⟨?_, ?_⟩⟩
    · intro hn; simp only [List.mem_cons, List.not_mem_nil, or_false] at hn; subst hn; decide
    · intro hn; have := hc n hn; simp at this; simp [this]
  · subst e
    refine ⟨[ascii "s", ascii "p", ascii "f"], rfl, by decide, fun n => ⟨?_, ?_⟩⟩
    · intro hn; simp only [List.mem_cons, List.not_mem_nil, or_false] at hn; rcases hn with rfl | rfl | rfl <;> decide
    · intro hn; have := hc n hn; simp at this; rcases this with h | h | h <;> simp [h]
  · cases e'
  · cases e'
  · subst e
    refine ⟨[ascii "l"], rfl, by decide, fun n => ⟨?_, ?_⟩⟩
    · intro hn; simp only [List.mem_cons, List.not_mem_nil, or_false] at hn; subst hn; decide
    · intro hn; have := hc n hn; simp at this; simp [this]
  · cases e'

theorem exLeads : LeadsTo exSrc [] (ascii "d") [ascii "d"] := ⟨by decide, by decide, _, rfl⟩

/-- all threads' steps, in turns -/
def turns : List Bool := [true, false, true, true, false, true, false, true, true, false, false, false, false, false]

def exChan (ls : ReadDir) : Chan :=
  Chan.run exEnv [] (ascii "d") (Chan.start Adder.new (walkItems [] exSrc ls 3 (ascii "d") true)) turns

/-- the hypotheses of `C34_whole_tree_partial` are met -/
example : exSrc.WF ∧ FullListing exSrc exLs ∧ LeadsTo exSrc exEnv.cwd (ascii "d") [ascii "d"] ∧
    (∀ p, exSrc.fs.nodes ([ascii "d"] ++ p) ≠ none → p.length ≤ 3) ∧ (exChan exLs).result = some .ok := by
  refine ⟨exSrc_wf, exLs_full, exLeads, ?_, by decide⟩
  intro p h
  have := exSrc_paths h
  simp only [List.mem_cons, List.not_mem_nil, or_false] at this
  rcases this with e | e | e | e | e | e <;> have e := congrArg List.length e <;> simp only [List.length_append, List.length_cons, List.length_nil] at e <;> omega

/-- a listing that fails after the first name (directory `d`) -/
def badLs : ReadDir := fun d => if d = [ascii "d"] then [.ok (ascii "p"), .error (), .ok (ascii "s"), .ok (ascii "f")] else exLs d

/-- **C34 is false when the walk fails**: an error of `readdir` ends the walking thread (it panics), and the
function returns Ok with a truncated archive: file `d/f`, which exists, is not archived. -/
theorem C34_counterexample : exSrc.fs.nodes [ascii "d", ascii "f"] = some (.file 0) ∧
    Except.ok (ascii "f") ∈ badLs [ascii "d"] ∧
    (exChan badLs).result = some .ok ∧ (exChan badLs).adder.creator.store.map (·.name) = [ascii "d"] := by
  refine ⟨rfl, by decide, by decide, by decide⟩

end Arx
