import Verif.Spec.Adder
import Verif.Proof.AdderProof
import Verif.Proof.HostProof
/-!
# Adding a whole directory tree
-/
namespace Arx

/-! ## Path resolution -/

/-- Whether the last link is followed does not matter for a path that does not end at one. -/
theorem resAux_follow_of {fs : FS} {q : List Bytes} (hq : ∀ t s, fs.nodes q ≠ some (.link t s)) : ∀ (n : Nat) (todo cur : List Bytes),
    resAux fs false (resolveN fs false n) todo cur = .ok (.found q) →
    resAux fs true (resolveN fs true n) todo cur = .ok (.found q) := by
  intro n
  induction n with
  | zero =>
    intro todo
    induction todo with
    | nil => intro cur h; exact h
    | cons c rest ih =>
      intro cur h
      simp only [resAux] at h ⊢
      split
      · rename_i hc; rw [if_pos hc] at h; exact ih cur h
      · rename_i hc
        rw [if_neg hc] at h
        split
        · rename_i hp; rw [if_pos hp] at h; exact ih _ h
        · rename_i hp
          rw [if_neg hp] at h
          cases hx : fs.nodes (cur ++ [c]) with
          | none => rw [hx] at h; exact h
          | some x =>
            rw [hx] at h
            cases x with
            | dir t => exact ih _ h
            | file i => exact h
            | link t u =>
              simp only at h
              split at h
              · simp only [Except.ok.injEq, Loc.found.injEq] at h
                rw [h] at hx; exact absurd hx (hq t u)
              · simp [resolveN] at h
  | succ n ihn =>
    intro todo
    induction todo with
    | nil => intro cur h; exact h
    | cons c rest ih =>
      intro cur h
      simp only [resAux] at h ⊢
      split
      · rename_i hc; rw [if_pos hc] at h; exact ih cur h
      · rename_i hc
        rw [if_neg hc] at h
        split
        · rename_i hp; rw [if_pos hp] at h; exact ih _ h
        · rename_i hp
          rw [if_neg hp] at h
          cases hx : fs.nodes (cur ++ [c]) with
          | none => rw [hx] at h; exact h
          | some x =>
            rw [hx] at h
            cases x with
            | dir t => exact ih _ h
            | file i => exact h
            | link t u =>
              simp only at h ⊢
              split at h
              · simp only [Except.ok.injEq, Loc.found.injEq] at h
                rw [h] at hx; exact absurd hx (hq t u)
              · rw [if_neg (by simp)]
                exact ihn _ _ h

/-- A path that leads somewhere also does so when its last link is not followed, then to that link. -/
theorem resAux_unfollow {fs : FS} {q : List Bytes} : ∀ (n : Nat) (todo cur : List Bytes),
    resAux fs true (resolveN fs true n) todo cur = .ok (.found q) →
    ∃ q', resAux fs false (resolveN fs false n) todo cur = .ok (.found q') ∧
      (q' = q ∨ ∃ t s, fs.nodes q' = some (.link t s)) := by
  intro n
  induction n with
  | zero =>
    intro todo
    induction todo with
    | nil => intro cur h; exact ⟨q, h, Or.inl rfl⟩
    | cons c rest ih =>
      intro cur h
      simp only [resAux] at h ⊢
      split
      · rename_i hc; rw [if_pos hc] at h; exact ih cur h
      · rename_i hc
        rw [if_neg hc] at h
        split
        · rename_i hp; rw [if_pos hp] at h; exact ih _ h
        · rename_i hp
          rw [if_neg hp] at h
          cases hx : fs.nodes (cur ++ [c]) with
          | none => rw [hx] at h; exact ⟨q, h, Or.inl rfl⟩
          | some x =>
            rw [hx] at h
            cases x with
            | dir t => exact ih _ h
            | file i => exact ⟨q, h, Or.inl rfl⟩
            | link t u => simp [resolveN] at h
  | succ n ihn =>
    intro todo
    induction todo with
    | nil => intro cur h; exact ⟨q, h, Or.inl rfl⟩
    | cons c rest ih =>
      intro cur h
      simp only [resAux] at h ⊢
      split
      · rename_i hc; rw [if_pos hc] at h; exact ih cur h
      · rename_i hc
        rw [if_neg hc] at h
        split
        · rename_i hp; rw [if_pos hp] at h; exact ih _ h
        · rename_i hp
          rw [if_neg hp] at h
          cases hx : fs.nodes (cur ++ [c]) with
          | none => rw [hx] at h; exact ⟨q, h, Or.inl rfl⟩
          | some x =>
            rw [hx] at h
            cases x with
            | dir t => exact ih _ h
            | file i => exact ⟨q, h, Or.inl rfl⟩
            | link t u =>
              simp only at h ⊢
              rw [if_neg (by simp)] at h
              by_cases hr : rest = []
              · rw [if_pos ⟨hr, trivial⟩]
                exact ⟨_, rfl, Or.inr ⟨t, u, hx⟩⟩
              · rw [if_neg (fun e => hr e.1)]
                exact ihn _ _ h

/-- Going on from where a path leads. -/
theorem resAux_extend {fs : FS} {q rest : List Bytes} {u : Int} (hq : fs.nodes q = some (.dir u)) (hne : rest ≠ []) {y : Except HErr Loc}
    (K : ∀ n, resAux fs false (resolveN fs false n) rest q = y) : ∀ (n : Nat) (todo cur : List Bytes),
    resAux fs true (resolveN fs true n) todo cur = .ok (.found q) →
    resAux fs false (resolveN fs false n) (todo ++ rest) cur = y := by
  intro n
  induction n with
  | zero =>
    intro todo
    induction todo with
    | nil =>
      intro cur h
      simp only [resAux, Except.ok.injEq, Loc.found.injEq] at h
      rw [List.nil_append, h]; exact K 0
    | cons c todo ih =>
      intro cur h
      simp only [List.cons_append, resAux] at h ⊢
      split
      · rename_i hc; rw [if_pos hc] at h; exact ih cur h
      · rename_i hc
        rw [if_neg hc] at h
        split
        · rename_i hp; rw [if_pos hp] at h; exact ih _ h
        · rename_i hp
          rw [if_neg hp] at h
          cases hx : fs.nodes (cur ++ [c]) with
          | none => rw [hx] at h; simp only at h; split at h <;> cases h
          | some x =>
            rw [hx] at h
            cases x with
            | dir t => exact ih _ h
            | file i =>
              simp only at h
              split at h
              · simp only [Except.ok.injEq, Loc.found.injEq] at h
                rw [h, hq] at hx; cases hx
              · cases h
            | link t u => simp [resolveN] at h
  | succ n ihn =>
    intro todo
    induction todo with
    | nil =>
      intro cur h
      simp only [resAux, Except.ok.injEq, Loc.found.injEq] at h
      rw [List.nil_append, h]; exact K _
    | cons c todo ih =>
      intro cur h
      simp only [List.cons_append, resAux] at h ⊢
      split
      · rename_i hc; rw [if_pos hc] at h; exact ih cur h
      · rename_i hc
        rw [if_neg hc] at h
        split
        · rename_i hp; rw [if_pos hp] at h; exact ih _ h
        · rename_i hp
          rw [if_neg hp] at h
          cases hx : fs.nodes (cur ++ [c]) with
          | none => rw [hx] at h; simp only at h; split at h <;> cases h
          | some x =>
            rw [hx] at h
            cases x with
            | dir t => exact ih _ h
            | file i =>
              simp only at h
              split at h
              · simp only [Except.ok.injEq, Loc.found.injEq] at h
                rw [h, hq] at hx; cases hx
              · cases h
            | link t u =>
              simp only at h ⊢
              rw [if_neg (by simp)] at h
              rw [if_neg (by simp [hne])]
              have := ihn (comps t ++ trailing t ++ todo) _ h
              simpa [resolveN] using this

theorem FS.resolve_ok {fs : FS} {follow : Bool} {p : List Bytes} {l : Loc} (h : fs.resolve follow p = .ok l) :
    p.any (fun c => c.contains 0) = false ∧ resAux fs follow (resolveN fs follow 40) p [] = .ok l := by
  unfold FS.resolve at h
  split at h
  · cases h
  · rename_i hn; exact ⟨by simpa using hn, h⟩

theorem FS.resolve_of {fs : FS} {follow : Bool} {p : List Bytes} {y : Except HErr Loc}
    (hn : p.any (fun c => c.contains 0) = false) (h : resAux fs follow (resolveN fs follow 40) p [] = y) : fs.resolve follow p = y := by
  unfold FS.resolve
  rw [hn]
  exact h

variable {s : Src}

theorem Src.WF.dirsTo (W : s.WF) {q : List Bytes} {x : FNode} (hx : s.fs.nodes q = some x) :
    ∀ d, d <+: q → d ≠ q → ∃ t, s.fs.nodes d = some (.dir t) := by
  intro d hd hne
  obtain ⟨r, rfl⟩ := hd
  have hr : r ≠ [] := fun e => hne (by simp [e])
  clear hne
  suffices H : ∀ (n : Nat) (r : List Bytes) (x : FNode), r.length = n → r ≠ [] → s.fs.nodes (d ++ r) = some x →
      ∃ t, s.fs.nodes d = some (.dir t) from H _ r x rfl hr hx
  intro n
  induction n with
  | zero => intro r x hl hr _; exact absurd (List.length_eq_zero_iff.mp hl) hr
  | succ n ih =>
    intro r x hl hr hx
    obtain ⟨r, c, rfl⟩ := (nil_or_snoc r).resolve_left hr
    obtain ⟨t, ht⟩ := W.tree (d ++ r) c x (by simpa using hx)
    by_cases e : r = []
    · subst e; exact ⟨t, by simpa using ht⟩
    · exact ih r _ (by simpa using hl) e ht

/-- A canonical path leads to itself. -/
theorem Src.WF.resolve_self (W : s.WF) {q : List Bytes} {x : FNode} (hx : s.fs.nodes q = some x) :
    s.fs.resolve false q = .ok (.found q) := by
  rcases nil_or_snoc q with rfl | ⟨d, c, rfl⟩
  · rfl
  · rw [FS.resolve_concat (fun y hy => (W.names _ x hx y hy).2) _ (fun h => by cases h), if_neg (by rw [hx]; simp)]
    intro r hr _
    exact W.dirsTo hx r (hr.trans (List.prefix_append d [c])) (by
      intro e
      have := hr.length_le
      rw [e] at this; simp at this; omega)

/-- The same when links are followed, unless a link is there. -/
theorem Src.WF.resolve_true (W : s.WF) {q : List Bytes} {x : FNode} (hx : s.fs.nodes q = some x)
    (hl : ∀ t u, x ≠ .link t u) : s.fs.resolve true q = .ok (.found q) := by
  rcases nil_or_snoc q with rfl | ⟨d, c, rfl⟩
  · rfl
  · rw [FS.resolve_concat (fun y hy => (W.names _ x hx y hy).2) _
      (fun _ t u e => hl t u (by rw [hx] at e; exact Option.some.inj e)), if_neg (by rw [hx]; simp)]
    intro r hr _
    exact W.dirsTo hx r (hr.trans (List.prefix_append d [c])) (by
      intro e
      have := hr.length_le
      rw [e] at this; simp at this; omega)

/-- Below a directory reached by a path. -/
theorem Src.WF.resolve_below (W : s.WF) {names q p : List Bytes} {u : Int} {x : FNode}
    (h : s.fs.resolve true names = .ok (.found q)) (hq : s.fs.nodes q = some (.dir u)) (hp : p ≠ [])
    (hx : s.fs.nodes (q ++ p) = some x) : s.fs.resolve false (names ++ p) = .ok (.found (q ++ p)) := by
  obtain ⟨h1, h2⟩ := FS.resolve_ok h
  have hpl : ∀ c ∈ p, PlainName c := fun c hc => (W.names _ x hx c (by simp [hc])).2
  refine FS.resolve_of ?_ (resAux_extend hq hp ?_ 40 names [] h2)
  · rw [List.any_append, h1, plain_noNul hpl]; rfl
  · intro n
    obtain ⟨d, c, rfl⟩ := (nil_or_snoc p).resolve_left hp
    obtain ⟨hc1, hc2, _⟩ := hpl c (by simp)
    rw [resAux_dirs [c] d q (fun y hy => hpl y (by simp [hy]))]
    · simp only [resAux, if_neg hc1, if_neg hc2]
      rw [List.append_assoc, hx]
      cases x <;> simp
    · intro r hr hne
      refine W.dirsTo hx (q ++ r) ?_ ?_
      · obtain ⟨z, rfl⟩ := hr; exact ⟨z ++ [c], by simp⟩
      · intro e
        have := congrArg List.length e
        have := hr.length_le
        simp at *; omega

end Arx
