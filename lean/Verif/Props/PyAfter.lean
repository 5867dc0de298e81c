import Verif.Props.PyCreate
/-!
# C80: after a crash that has poisoned the archive being made
-/
namespace Arx
variable {env : CEnv} {s : Src}

theorem addEntryPoisoned_creator (a : Adder) (path : Bytes) (follow : Bool) : (a.addEntryPoisoned env path follow).1.creator = a.creator := by
  unfold Adder.addEntryPoisoned
  split
  · rfl
  · split
    · rfl
    · split <;> rfl

theorem poisonedRun_creator (root : RPath) : ∀ (l : List Bool) (c : Chan), (Chan.poisonedRun env root c l).adder.creator = c.adder.creator := by
  intro l
  induction l with
  | nil => intro c; rfl
  | cons b l ih =>
    intro c
    cases b with
    | true =>
      rw [Chan.poisonedRun, ih]
      unfold Chan.walkerStep
      split
      · rfl
      · split
        · rfl
        · rfl
        · split <;> rfl
    | false =>
      rw [Chan.poisonedRun, ih]
      unfold Chan.poisonedStep
      split
      · rfl
      · split
        · rename_i p q hq
          have h := addEntryPoisoned_creator (env := env) c.adder p (decide (stdComps p = stdComps root))
          revert h
          cases c.adder.addEntryPoisoned env p (decide (stdComps p = stdComps root)) with
          | mk a o => intro h; cases o <;> exact h
        · split <;> rfl

/-- A walk of something that exists begins with its path. -/
theorem walkItems_head {cwd : List Bytes} {ls : ReadDir} {depth : Nat} {root : Bytes} {rc : Bool} (W : s.WF) (h0 : root ≠ [])
    (h : Present s (namesOf cwd root)) : ∃ r, walkItems cwd s ls depth root rc = .ok root :: r := by
  obtain ⟨q, hq⟩ := h
  obtain ⟨x, hx, hl⟩ := W.toWF.resolve_found hq
  obtain ⟨h1, h2⟩ := FS.resolve_ok hq
  obtain ⟨q', h3, h4⟩ := resAux_unfollow 40 _ [] h2
  have hf' := FS.resolve_of h1 h3
  unfold walkItems
  rw [if_neg h0, hf']
  simp only
  rcases h4 with rfl | ⟨tg, u, hl'⟩
  · rw [hx]
    cases x with
    | dir t => exact ⟨_, rfl⟩
    | file i => exact ⟨_, rfl⟩
    | link a b => exact absurd rfl (hl rfl a b)
  · rw [hl']
    simp only [hq, hx]
    cases x <;> exact ⟨_, rfl⟩

/-- The path can be looked at, and stands for an entry other than the root and than a special file. -/
structure PyAdd.Stands (s : Src) (cwd : List Bytes) (x : PyAdd) : Prop where
  notEmpty : x.path ≠ []
  relative : x.path.head? ≠ some SEP
  utf8 : ∀ c ∈ comps x.path, validUtf8 c = true
  named : ∃ c ∈ comps x.path, c ≠ CUR
  leads : ∃ q, s.fs.resolve true (namesOf cwd x.path) = .ok (.found q) ∧ ¬ s.Special q

theorem addEntryPoisoned_panic (Q : Quiet env s) (W : s.WF) {x : PyAdd} (h : x.Stands s env.cwd) (a : Adder) :
    (a.addEntryPoisoned env x.path true).2 = .panic := by
  obtain ⟨q, hq, hsp⟩ := h.leads
  obtain ⟨xx, hxx, hl⟩ := W.toWF.resolve_found hq
  unfold Adder.addEntryPoisoned
  rw [fromPathBuf_eq, if_neg h.relative, if_pos h.utf8]
  simp only
  have hne : joinPath ((comps x.path).filter (· ≠ CUR)) ≠ [] := by
    intro e
    obtain ⟨c, hc, hn⟩ := h.named
    have hm : c ∈ (comps x.path).filter (· ≠ CUR) := List.mem_filter.mpr ⟨hc, by simpa using hn⟩
    rw [(joinPath_eq_nil (fun c hc => filterCur_valid hc)).mp e] at hm
    cases hm
  rw [if_neg hne]
  obtain ⟨r, cs', hn, hreq, _⟩ := newFromPath_follow Q W a.tick a.contents (joinPath ((comps x.path).filter (· ≠ CUR))) hq hxx (hl rfl)
  rw [hn]
  simp only
  obtain ⟨ko, hk, har⟩ := hreq.kind
  rw [hk]
  cases ko with
  | some k => rfl
  | none =>
    exfalso
    simp only [Archived, hxx, Option.map_none] at har
    cases xx with
    | dir t => cases har
    | link t u => cases har
    | file i =>
      cases hs : s.special i with
      | true => exact hsp ⟨i, hxx, hs⟩
      | false => simp [hs] at har

/-- With a poisoned map, an entry cannot be added: the call crashes. -/
theorem addPoisoned_panic (Q : Quiet env s) (W : s.WF) {x : PyAdd} (h : x.Stands s env.cwd) (hsrc : x.walk.src = s) (a : Adder) :
    (addPoisoned env a x.path x.recursive x.walk).2 = .panic := by
  obtain ⟨q, hq, _⟩ := h.leads
  obtain ⟨r, hr⟩ := walkItems_head (ls := x.walk.ls) (depth := x.walk.depth) (rc := x.recursive) W h.notEmpty ⟨q, hq⟩
  unfold addPoisoned
  rw [hsrc, hr]
  have key : ∀ (l : List Bool) (c : Chan),
      (c.result = some .panic ∨ c.result = none ∧ (c.queue.head? = some x.path ∨ c.queue = [] ∧ c.alive = true ∧ c.todo.head? = some (.ok x.path))) →
      (Chan.poisonedRun env x.path c l).result.getD .panic = .panic := by
    intro l
    induction l with
    | nil => rintro c (h | ⟨h, _⟩) <;> simp [Chan.poisonedRun, h]
    | cons b l ih =>
      intro c hc
      cases b with
      | true =>
        refine ih _ ?_
        unfold Chan.walkerStep
        split
        · exact hc
        · rename_i ha
          rcases hc with hc | ⟨hc, hh⟩
          · left
            split
            · exact hc
            · exact hc
            · rw [hc]; rfl
          · right
            rcases hh with hh | ⟨h1, h2, h3⟩
            · split
              · exact ⟨hc, Or.inl hh⟩
              · exact ⟨hc, Or.inl hh⟩
              · rw [hc]
                refine ⟨rfl, Or.inl ?_⟩
                simp only [Option.isSome_none, Bool.false_eq_true, if_false]
                rw [List.head?_append, hh]; rfl
            · cases ht : c.todo with
              | nil => rw [ht] at h3; cases h3
              | cons e t =>
                rw [ht] at h3
                simp only [List.head?_cons, Option.some.injEq] at h3
                subst h3
                simp only [hc, Option.isSome_none, Bool.false_eq_true, if_false, true_and]
                left
                rw [h1]; rfl
      | false =>
        refine ih _ ?_
        unfold Chan.poisonedStep
        split
        · exact hc
        · rename_i ha
          rcases hc with hc | ⟨hc, hh⟩
          · rw [hc] at ha; exact absurd rfl ha
          · rcases hh with hh | ⟨h1, h2, h3⟩
            · cases hqu : c.queue with
              | nil => rw [hqu] at hh; cases hh
              | cons e t =>
                rw [hqu] at hh
                simp only [List.head?_cons, Option.some.injEq] at hh
                subst hh
                have := addEntryPoisoned_panic Q W h c.adder
                simp only [decide_true]
                revert this
                cases c.adder.addEntryPoisoned env x.path true with
                | mk a o => intro e; simp only at e; subst e; left; rfl
            · rw [h1]
              simp only [h2, if_true]
              exact Or.inr ⟨hc, Or.inr ⟨h1, trivial, h3⟩⟩
  exact key _ _ (Or.inr ⟨rfl, Or.inr ⟨rfl, rfl, rfl⟩⟩)

theorem addsOf_append : ∀ (xs ys : List PyCall) (a : Adder) (b : Bool), addsOf env a b (xs ++ ys) =
    ((addsOf env a b xs).1 ++ (addsOf env (addsOf env a b xs).2.1 (addsOf env a b xs).2.2 ys).1,
      (addsOf env (addsOf env a b xs).2.1 (addsOf env a b xs).2.2 ys).2) := by
  intro xs
  induction xs with
  | nil => intro ys a b; rfl
  | cons x xs ih => intro ys a b; cases x <;> simp only [List.cons_append, addsOf, ih]

/-- **C80, after a crash.** After a crash of a call of `add` whose path has more than one component, every later call for an
entry that exists crashes (see also `C80_lost`: nothing is written in the end). -/
theorem C80_after (Q : Quiet env s) (W : s.WF) (exc writeOk : Bool) {before mid after : List PyAdd} {y x : PyAdd} (hy : Inner y.path)
    (hcrash : (PyCreator.new.run env (pyWith (before ++ y :: mid ++ x :: after) exc writeOk)).1[before.length + 1]? = some .panic)
    (hx : x.Stands s env.cwd) (hsrc : x.walk.src = s) :
    (PyCreator.new.run env (pyWith (before ++ y :: mid ++ x :: after) exc writeOk)).1[before.length + mid.length + 2]? = some .panic := by
  rw [pyWith_run] at hcrash ⊢
  have hlen : (addsOf env Adder.new false (addCalls (before ++ y :: mid ++ x :: after))).1.length = before.length + mid.length + after.length + 2 := by
    rw [addsOf_length]; simp [addCalls]; omega
  rw [List.cons_append, List.getElem?_cons_succ, List.getElem?_append_left (by omega)] at hcrash ⊢
  have e : addCalls (before ++ y :: mid ++ x :: after) = addCalls (before ++ y :: mid) ++ addCalls (x :: after) := by simp [addCalls]
  rw [e, addsOf_append] at hcrash ⊢
  have hl1 : (addsOf env Adder.new false (addCalls (before ++ y :: mid))).1.length = before.length + mid.length + 1 := by
    rw [addsOf_length]; simp [addCalls]; omega
  rw [List.getElem?_append_left (by omega)] at hcrash
  rw [List.getElem?_append_right (by omega), hl1, Nat.sub_self]
  have hlost : (addsOf env Adder.new false (addCalls (before ++ y :: mid))).2.2 = true := by
    refine (addsOf_lost _ _ _).mpr (Or.inr ⟨y.path, y.recursive, y.walk, ?_, hy⟩)
    refine List.mem_of_getElem? (i := before.length) ?_
    rw [List.getElem?_zip_eq_some]
    exact ⟨by simp [addCalls], hcrash⟩
  rw [hlost]
  show ((addsOf env _ true (.add x.path x.recursive x.walk :: addCalls after)).1)[0]? = _
  rw [addsOf]
  simp only [if_true, List.getElem?_cons_zero, addPoisoned_panic Q W hx hsrc]

/-- the hypotheses of `C80_after` are met: `add("d"); add("d/.."); add("d/s")` -/
example : (PyCreator.new.run exEnv (pyWith ([pyAdd "d" false] ++ pyAdd "d/.." false :: [] ++ pyAdd "d/s" true :: []) false true)).1[3]? = some .panic := by
  refine C80_after exEnv_quiet exSrc_wf false true (before := [pyAdd "d" false]) (mid := []) ⟨by decide, by decide +kernel, by decide +kernel⟩
    (by decide +kernel) ⟨by decide, by decide, by decide +kernel, ⟨ascii "d", by decide +kernel, by decide⟩, ?_⟩ rfl
  refine ⟨[ascii "d", ascii "s"], by decide +kernel, ?_⟩
  rintro ⟨i, h, _⟩
  have e : exSrc.fs.nodes [ascii "d", ascii "s"] = some (.dir 2500000000) := by decide +kernel
  rw [e] at h; cases h

end Arx
