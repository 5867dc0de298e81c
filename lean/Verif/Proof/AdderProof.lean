import Verif.Model.FsAdder
import Verif.Proof.WrittenProof
/-!
# Facts about adding from the file system
-/
namespace Arx

/-! ## The two threads -/

/-- The paths a walk yields before its first error. -/
def goodPrefix : List (Except Unit Bytes) → List Bytes
  | .ok p :: r => p :: goodPrefix r
  | _ => []

/-- The adding thread's calls, one after the other. -/
def Adder.addSeq (env : CEnv) (pre root : RPath) (s : Adder) (ps : List Bytes) : Adder × AOut :=
  s.addAll env pre (ps.map (fun p => (p, decide (stdComps p = stdComps root))))

/-- What the rest of the run will lead to. -/
def Chan.outcome (env : CEnv) (pre root : RPath) (c : Chan) : Adder × AOut :=
  match c.result with
  | some e => (c.adder, e)
  | none => c.adder.addSeq env pre root (c.queue ++ if c.alive then goodPrefix c.todo else [])

theorem Chan.outcome_walker (env : CEnv) (pre root : RPath) (c : Chan) :
    c.walkerStep.outcome env pre root = c.outcome env pre root := by
  obtain ⟨todo, queue, alive, adder, result⟩ := c
  unfold Chan.walkerStep
  cases alive with
  | false => simp
  | true =>
    cases result with
    | some e =>
      cases todo with
      | nil => simp [Chan.outcome]
      | cons x r => cases x <;> simp [Chan.outcome]
    | none =>
      cases todo with
      | nil => simp [Chan.outcome, goodPrefix]
      | cons x r => cases x <;> simp [Chan.outcome, goodPrefix]

theorem Chan.outcome_adder (env : CEnv) (pre root : RPath) (c : Chan) :
    (c.adderStep env pre root).outcome env pre root = c.outcome env pre root := by
  obtain ⟨todo, queue, alive, adder, result⟩ := c
  unfold Chan.adderStep
  cases result with
  | some e => simp
  | none =>
    cases queue with
    | nil => cases alive <;> simp [Chan.outcome, Adder.addSeq, Adder.addAll]
    | cons p q =>
      simp only [Option.isSome_none, Bool.false_eq_true, if_false, Chan.outcome, Adder.addSeq, List.cons_append,
        List.map_cons, Adder.addAll]
      generalize Adder.addEntryFromPath env pre adder p (decide (stdComps p = stdComps root)) = y
      obtain ⟨a, o⟩ := y
      cases o <;> simp

theorem Chan.outcome_run (env : CEnv) (pre root : RPath) : ∀ (l : List Bool) (c : Chan),
    (Chan.run env pre root c l).outcome env pre root = c.outcome env pre root := by
  intro l
  induction l with
  | nil => intro c; rfl
  | cons b l ih =>
    intro c
    cases b with
    | true => simp only [Chan.run, ih, Chan.outcome_walker]
    | false => simp only [Chan.run, ih, Chan.outcome_adder]

/-- Whatever the schedule, the function does what adding the walked paths in sequence does, up to the first
error of the walk. -/
theorem Chan.run_result {env : CEnv} {pre root : RPath} {s : Adder} {items : List (Except Unit Bytes)} {l : List Bool}
    {e : AOut} (h : (Chan.run env pre root (Chan.start s items) l).result = some e) :
    s.addSeq env pre root (goodPrefix items) = ((Chan.run env pre root (Chan.start s items) l).adder, e) := by
  have h1 := Chan.outcome_run env pre root l (Chan.start s items)
  have h2 : (Chan.start s items).outcome env pre root = s.addSeq env pre root (goodPrefix items) := rfl
  rw [h2] at h1
  rw [← h1, Chan.outcome, h]

theorem Chan.run_append (env : CEnv) (pre root : RPath) : ∀ (l l' : List Bool) (c : Chan),
    Chan.run env pre root c (l ++ l') = Chan.run env pre root (Chan.run env pre root c l) l' := by
  intro l l'
  induction l with
  | nil => intro c; rfl
  | cons b l ih => intro c; cases b <;> simp only [List.cons_append, Chan.run, ih]

/-- From every state, the walking thread can end. -/
theorem Chan.walker_ends (env : CEnv) (pre root : RPath) : ∀ (n : Nat) (c : Chan), c.todo.length < n →
    (Chan.run env pre root c (List.replicate n true)).alive = false := by
  intro n
  induction n with
  | zero => intro c h; omega
  | succ n ih =>
    intro c h
    simp only [List.replicate_succ, Chan.run]
    have dead : ∀ m (c : Chan), c.alive = false → (Chan.run env pre root c (List.replicate m true)).alive = false := by
      intro m
      induction m with
      | zero => intro c h; exact h
      | succ m ihm =>
        intro c h
        simp only [List.replicate_succ, Chan.run]
        exact ihm _ (by simp [Chan.walkerStep, h])
    unfold Chan.walkerStep
    cases ha : c.alive with
    | false => simpa using dead n c ha
    | true =>
      simp only [Bool.not_true, Bool.false_eq_true, if_false]
      cases ht : c.todo with
      | nil => exact dead n _ rfl
      | cons x r =>
        cases x with
        | error u => exact dead n _ rfl
        | ok p =>
          simp only
          split
          · exact dead n _ rfl
          · refine ih _ ?_
            simp only [ht, List.length_cons] at h ⊢
            omega

/-- Once the walking thread has ended, the adding thread returns. -/
theorem Chan.adder_ends (env : CEnv) (pre root : RPath) : ∀ (n : Nat) (c : Chan), c.alive = false → c.queue.length < n →
    (Chan.run env pre root c (List.replicate n false)).result.isSome = true := by
  intro n
  induction n with
  | zero => intro c _ h; omega
  | succ n ih =>
    intro c ha h
    simp only [List.replicate_succ, Chan.run]
    have fin : ∀ m (c : Chan), c.result.isSome = true → (Chan.run env pre root c (List.replicate m false)).result.isSome = true := by
      intro m
      induction m with
      | zero => intro c h; exact h
      | succ m ihm =>
        intro c h
        simp only [List.replicate_succ, Chan.run]
        exact ihm _ (by simp [Chan.adderStep, h])
    unfold Chan.adderStep
    cases hr : c.result with
    | some e => simpa [hr] using fin n c (by simp [hr])
    | none =>
      simp only [Option.isSome_none, Bool.false_eq_true, if_false]
      cases hq : c.queue with
      | nil => simp only [ha, Bool.false_eq_true, if_false]; exact fin n _ rfl
      | cons p q =>
        simp only
        generalize Adder.addEntryFromPath env pre c.adder p (decide (stdComps p = stdComps root)) = y
        obtain ⟨a, o⟩ := y
        simp only [hq, List.length_cons] at h
        cases o with
        | ok => exact ih _ ha (by simp only; omega)
        | path e => exact fin n _ rfl
        | notInPrefix => exact fin n _ rfl
        | host e => exact fin n _ rfl
        | add e => exact fin n _ rfl
        | panic => exact fin n _ rfl

/-! ## Contents -/

theorem packBytes_mono {cs : List Bytes} {a : ContentAddr} {b c : Bytes} (h : packBytes cs a = .found b) :
    packBytes (addContent cs c).2 a = .found b := by
  unfold packBytes at h ⊢
  split at h
  · rename_i hp
    rw [if_pos hp]
    cases hx : cs[a.content]? with
    | none => rw [hx] at h; cases h
    | some y =>
      rw [hx] at h
      have h2 : (addContent cs c).2[a.content]? = some y := by
        simp only [addContent]
        split
        · exact hx
        · rw [List.getElem?_append_left (List.getElem?_eq_some_iff.mp hx).1, hx]
      rw [h2]; exact h
  · cases h

theorem packBytes_add (cs : List Bytes) (b : Bytes) : packBytes (addContent cs b).2 (addContent cs b).1 = .found b := by
  unfold packBytes addContent
  simp only [if_true]
  by_cases h : b ∈ cs
  · simp only [if_pos h]
    rw [List.getElem?_eq_getElem (List.idxOf_lt_length_of_mem h), List.getElem_idxOf]
  · simp only [if_neg h]
    have hi : List.idxOf b cs = cs.length := List.idxOf_eq_length h
    rw [hi]; simp

/-! ## Paths -/

theorem filterCur_valid {path c : Bytes} (h : c ∈ (comps path).filter (· ≠ CUR)) : ValidName c :=
  comps_valid (List.mem_filter.mp h).1

/-- `from_path` drops `"."` components. -/
theorem fromPathBuf_eq (path : Bytes) : RPath.fromPathBuf path =
    if path.head? = some SEP then .error .nonRelative
    else if ∀ c ∈ comps path, validUtf8 c = true then .ok (joinPath ((comps path).filter (· ≠ CUR))) else .error .nonUtf8 := by
  unfold RPath.fromPathBuf
  split
  · rfl
  · have h1 : ((comps path).filter (· ≠ CUR)).foldl RPath.push [] = joinPath ((comps path).filter (· ≠ CUR)) := by
      have := foldl_push_joinPath (cs := (comps path).filter (· ≠ CUR)) (fun c hc => filterCur_valid hc) []
        (by simp)
      simpa [joinPath] using this
    simp only [h1]
    have h2 : (((comps path).filter (· ≠ CUR)).all validUtf8 = true) ↔ ∀ c ∈ comps path, validUtf8 c = true := by
      simp only [List.all_eq_true, List.mem_filter, decide_eq_true_eq]
      constructor
      · intro h c hc
        by_cases e : c = CUR
        · rw [e]; decide
        · exact h c ⟨hc, e⟩
      · intro h c hc; exact h c hc.1
    by_cases h : ∀ c ∈ comps path, validUtf8 c = true
    · rw [if_pos (h2.mpr h), if_pos h]
    · rw [if_neg (fun e => h (h2.mp e)), if_neg h]

theorem nextFront_joinPath {c : Bytes} {cs : List Bytes} (hc : ValidName c) (h : ∀ d ∈ cs, ValidName d) :
    nextFront (joinPath (c :: cs)) = (c, joinPath cs) := by
  have hne : ∀ {x : Bytes}, ValidName x → ∀ y, (x ++ y).dropWhile (· == SEP) = x ++ y := by
    intro x hx y
    cases x with
    | nil => exact absurd rfl hx.1
    | cons a x =>
      have : a ≠ SEP := fun e => hx.2 (by simp [e])
      simp [this]
  have htw : ∀ y, (y = [] ∨ y.head? = some SEP) → (c ++ y).takeWhile (· != SEP) = c ∧ (c ++ y).dropWhile (· != SEP) = y := by
    intro y hy
    have hall : ∀ x ∈ c, (x != SEP) = true := by
      intro x hx; simp only [bne_iff_ne, ne_eq]; intro e; exact hc.2 (e ▸ hx)
    rw [List.takeWhile_append_of_pos hall, List.dropWhile_append_of_pos hall]
    rcases hy with rfl | hy
    · simp
    · cases y with
      | nil => simp
      | cons a y => simp only [List.head?_cons, Option.some.injEq] at hy; subst hy; simp
  cases cs with
  | nil =>
    have h1 := htw [] (Or.inl rfl)
    have h2 := hne hc []
    simp only [List.append_nil] at h1 h2
    simp [nextFront, joinPath, h2, h1]
  | cons d ds =>
    have h1 := htw (SEP :: joinPath (d :: ds)) (Or.inr rfl)
    have h2 := hne hc (SEP :: joinPath (d :: ds))
    have hd := h d (by simp)
    have h3 : (joinPath (d :: ds)).dropWhile (· == SEP) = joinPath (d :: ds) := by
      cases ds with
      | nil => simpa [joinPath] using hne hd []
      | cons e es => simpa [joinPath] using hne hd (SEP :: joinPath (e :: es))
    simp only [nextFront, joinPath, h2, h1]
    rw [List.dropWhile_cons_of_pos (by simp), h3]

theorem stripLoop_joinPath : ∀ (base cs : List Bytes), (∀ c ∈ cs, ValidName c) → (∀ c ∈ base, ValidName c) →
    stripLoop (joinPath cs) base = if base <+: cs then some (joinPath (cs.drop base.length)) else none := by
  intro base
  induction base with
  | nil => intro cs _ _; simp [stripLoop]
  | cons b bs ih =>
    intro cs hcs hb
    cases cs with
    | nil =>
      have hb0 := (hb b (by simp)).1
      simp [stripLoop, joinPath, nextFront, Ne.symm hb0]
    | cons c cs =>
      have hcs' : ∀ d ∈ cs, ValidName d := fun d hd => hcs d (by simp [hd])
      simp only [stripLoop, nextFront_joinPath (hcs c (by simp)) hcs']
      by_cases e : c = b
      · subst e
        rw [if_pos rfl, ih cs hcs' (fun d hd => hb d (by simp [hd]))]
        simp [List.cons_prefix_cons]
      · rw [if_neg e, if_neg]
        simp [List.cons_prefix_cons, Ne.symm e]

theorem joinPath_eq_nil {cs : List Bytes} (h : ∀ c ∈ cs, ValidName c) : joinPath cs = [] ↔ cs = [] :=
  ⟨fun e => Classical.byContradiction fun hne => joinPath_ne_nil h hne e, fun e => by rw [e]; rfl⟩

theorem dropTrailingCur_of_last {l : List Bytes} (h : ∀ c ∈ l, c ≠ CUR) : dropTrailingCur l = l := by
  rcases List.eq_nil_or_concat l with rfl | ⟨d, c, rfl⟩
  · rfl
  · rw [List.concat_eq_append]
    exact dropTrailingCur_concat d (h c (by simp [List.concat_eq_append]))

/-- The names an entry is stored under. -/
theorem entryPath_joinPath {cs : List Bytes} (h : ∀ c ∈ cs, ValidName c) (hc : ∀ c ∈ cs, c ≠ CUR) :
    entryPath (joinPath cs) = cs := by
  rw [entryPath, comps_joinPath h, dropTrailingCur_of_last hc]

end Arx
