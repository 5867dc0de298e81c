import Verif.Proof.AdderTree3
/-!
# A path with a trailing separator
-/
namespace Arx

theorem FS.WF.resAux_dot {fs : FS} (W : fs.WF) {f : Bool} {q : List Bytes} : ∀ (n : Nat) (todo cur : List Bytes) (t : Int),
    fs.nodes cur = some (.dir t) →
    (resAux fs f (resolveN fs f n) (todo ++ [CUR]) cur = .ok (.found q) ↔
      resAux fs true (resolveN fs true n) todo cur = .ok (.found q) ∧ ∃ t, fs.nodes q = some (.dir t)) := by
  have hup : ∀ (cur : List Bytes) (t : Int), fs.nodes cur = some (.dir t) → ∃ t, fs.nodes cur.dropLast = some (.dir t) := by
    intro cur t h
    rcases nil_or_snoc cur with rfl | ⟨d, c, rfl⟩
    · exact ⟨t, h⟩
    · simpa using W.tree d c _ h
  have step : ∀ (r1 r2 : List Bytes → List Bytes → Except HErr Loc),
      (∀ todo cur t, fs.nodes cur = some (.dir t) → (r1 (todo ++ [CUR]) cur = .ok (.found q) ↔
        r2 todo cur = .ok (.found q) ∧ ∃ t, fs.nodes q = some (.dir t))) →
      ∀ (todo cur : List Bytes) (t : Int), fs.nodes cur = some (.dir t) →
      (resAux fs f r1 (todo ++ [CUR]) cur = .ok (.found q) ↔
        resAux fs true r2 todo cur = .ok (.found q) ∧ ∃ t, fs.nodes q = some (.dir t)) := by
    intro r1 r2 hr todo
    induction todo with
    | nil =>
      intro cur t h
      simp only [List.nil_append, resAux, if_true, Except.ok.injEq, Loc.found.injEq]
      constructor
      · rintro rfl; exact ⟨rfl, t, h⟩
      · exact fun h => h.1
    | cons c rest ih =>
      intro cur t h
      have hne : rest ++ [CUR] ≠ [] := by simp
      simp only [List.cons_append, resAux, hne, if_false, false_and]
      by_cases h1 : c = CUR
      · simp only [h1, if_true]; exact ih cur t h
      · simp only [h1, if_false]
        by_cases h2 : c = PARENT
        · simp only [h2, if_true]
          obtain ⟨u, hu⟩ := hup cur t h
          exact ih _ u hu
        · simp only [h2, if_false]
          cases hn : fs.nodes (cur ++ [c]) with
          | none => by_cases hre : rest = [] <;> simp [hre]
          | some x =>
            cases x with
            | dir u => exact ih _ u hn
            | file i =>
              by_cases hre : rest = []
              · simp only [hre, if_true, Except.ok.injEq, Loc.found.injEq, reduceCtorEq, false_iff, not_and]
                rintro rfl ⟨u, hu⟩
                rw [hn] at hu; cases hu
              · simp [hre]
            | link tg u =>
              simp only [reduceCtorEq, and_false, if_false]
              rw [← List.append_assoc]
              split
              · obtain ⟨u, hu⟩ := W.root
                exact hr _ _ u hu
              · exact hr _ _ t h
  intro n
  induction n with
  | zero => exact step _ _ (fun todo cur t _ => by simp [resolveN])
  | succ n ih => exact step _ _ (fun todo cur t h => ih todo cur t h)

/-- `p/.` leads exactly to the directory, if it is one, to which `p` leads with links followed. -/
theorem FS.WF.resolve_dot {fs : FS} (W : fs.WF) {f : Bool} {l q : List Bytes} :
    fs.resolve f (l ++ [CUR]) = .ok (.found q) ↔ fs.resolve true l = .ok (.found q) ∧ ∃ t, fs.nodes q = some (.dir t) := by
  obtain ⟨t, ht⟩ := W.root
  have h := W.resAux_dot (f := f) (q := q) 40 l [] t ht
  unfold FS.resolve
  have e : (l ++ [CUR]).any (fun c => c.contains 0) = l.any (fun c => c.contains 0) := by
    have : (CUR.contains 0) = false := by decide
    simp only [List.any_append, List.any_cons, List.any_nil, this, Bool.or_false]
  rw [e]
  cases l.any (fun c => c.contains 0) with
  | true => simp
  | false => exact h

end Arx
