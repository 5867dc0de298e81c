import Verif.Proof.AdderTree
import Verif.Proof.HostProof
/-!
# Resolving a path in two steps
-/
namespace Arx

theorem resAux_mono {fs : FS} {follow : Bool} {retry retry' : List Bytes → List Bytes → Except HErr Loc}
    (hr : ∀ t c x, retry t c = .ok x → retry' t c = .ok x) : ∀ (todo cur : List Bytes) (x : Loc),
      resAux fs follow retry todo cur = .ok x → resAux fs follow retry' todo cur = .ok x := by
  intro todo
  induction todo with
  | nil => intro cur x h; exact h
  | cons c rest ih =>
    intro cur x h
    simp only [resAux] at h ⊢
    split
    · rename_i hc; rw [if_pos hc] at h; exact ih _ _ h
    · rename_i hc
      rw [if_neg hc] at h
      split
      · rename_i hc; rw [if_pos hc] at h; exact ih _ _ h
      · rename_i hc
        rw [if_neg hc] at h
        cases hn : fs.nodes (cur ++ [c]) with
        | none => rw [hn] at h; exact h
        | some y =>
          rw [hn] at h
          cases y with
          | dir t => exact ih _ _ h
          | file i => exact h
          | link t u =>
            simp only at h ⊢
            split
            · rename_i hc; rw [if_pos hc] at h; exact h
            · rename_i hc; rw [if_neg hc] at h; exact hr _ _ _ h

theorem resolveN_succ {fs : FS} {follow : Bool} : ∀ (n : Nat) (todo cur : List Bytes) (x : Loc),
    resolveN fs follow n todo cur = .ok x → resolveN fs follow (n + 1) todo cur = .ok x := by
  intro n
  induction n with
  | zero => intro todo cur x h; cases h
  | succ n ih => intro todo cur x h; exact resAux_mono ih _ _ _ h

/-- more links may be followed -/
theorem resolveN_le {fs : FS} {follow : Bool} {n k : Nat} (h : n ≤ k) {todo cur : List Bytes} {x : Loc}
    (hx : resolveN fs follow n todo cur = .ok x) : resolveN fs follow k todo cur = .ok x := by
  induction h with
  | refl => exact hx
  | step _ ih => exact resolveN_succ _ _ _ _ ih

theorem resolveN_append {fs : FS} {follow : Bool} {d rest : List Bytes} (hd : ∃ t, fs.nodes d = some (.dir t)) (hrest : rest ≠ [] ∨ follow = true)
    {k : Nat} {x : Loc} (hx : resolveN fs follow k rest d = .ok x) : ∀ (n : Nat) (todo cur : List Bytes),
      resolveN fs true n todo cur = .ok (.found d) → resolveN fs follow (n + k) (todo ++ rest) cur = .ok x := by
  intro n
  induction n with
  | zero => intro todo cur h; cases h
  | succ n ihn =>
    intro todo
    have e : n + 1 + k = (n + k) + 1 := by omega
    rw [e]
    induction todo with
    | nil =>
      intro cur h
      simp only [resolveN, resAux, Except.ok.injEq, Loc.found.injEq] at h
      subst h
      exact resolveN_le (by omega) hx
    | cons c todo ih =>
      intro cur h
      simp only [resolveN, resAux, List.cons_append] at h ih ⊢
      split
      · rename_i hc; rw [if_pos hc] at h; exact ih _ h
      · rename_i hc
        rw [if_neg hc] at h
        split
        · rename_i hc; rw [if_pos hc] at h; exact ih _ h
        · rename_i hc
          rw [if_neg hc] at h
          cases hn : fs.nodes (cur ++ [c]) with
          | none =>
            rw [hn] at h
            simp only at h
            split at h <;> cases h
          | some y =>
            rw [hn] at h
            cases y with
            | dir t => exact ih _ h
            | file i =>
              simp only at h
              split at h
              · simp only [Except.ok.injEq, Loc.found.injEq] at h
                obtain ⟨t, ht⟩ := hd
                rw [← h, hn] at ht; cases ht
              · cases h
            | link t u =>
              simp only [Bool.true_eq_false, and_false, if_false] at h ⊢
              rw [if_neg (by
                rintro ⟨h1, h2⟩
                rcases hrest with h | h
                · simp at h1; exact h h1.2
                · rw [h] at h2; cases h2)]
              rw [← List.append_assoc]
              exact ihn _ _ h

/-- A path that leads to a directory, then a path from there: the same as both at once. -/
theorem Src.WF.resolve_twice {s : Src} (W : s.WF) {follow : Bool} {p d rest : List Bytes} (hp : s.fs.resolve true p = .ok (.found d))
    (hd : ∃ t, s.fs.nodes d = some (.dir t)) (hrest : rest ≠ [] ∨ follow = true) {x y : Loc}
    (hx : s.fs.resolve follow (p ++ rest) = .ok x) (hy : s.fs.resolve follow (d ++ rest) = .ok y) : x = y := by
  simp only [FS.resolve] at hp hx hy
  split at hp
  · cases hp
  · split at hx
    · cases hx
    · split at hy
      · cases hy
      · obtain ⟨t, ht⟩ := hd
        have hy' : resolveN s.fs follow 41 rest d = .ok y := by
          have := resAux_dirs (fs := s.fs) (follow := follow) (retry := resolveN s.fs follow 40) rest d [] (fun c hc => (W.names d _ ht c hc).2) (by
            intro q hq hne
            by_cases e : q = d
            · subst e; exact ⟨t, ht⟩
            · exact W.dirsTo ht q hq e)
          simp only [List.nil_append] at this
          rw [resolveN] at hy ⊢
          rw [← this]; exact hy
        have h1 := resolveN_append ⟨t, ht⟩ hrest hy' _ _ _ hp
        have h2 := resolveN_le (k := 41 + 41) (by omega) hx
        rw [h1] at h2
        cases h2; rfl

end Arx
