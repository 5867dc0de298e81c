import Verif.Proof.WalkProof
/-!
# A Hoare rule for walks

`Inv d V c`: the walk is in directory `d`, the paths in `V` have been dealt with, the context is `c`.
-/
namespace Arx

structure WalkRule {E C F L D : Type} (P : List (List Bytes)) (ent : List Bytes → Res (Entry F L D))
    (op : Operator E C F L D) (Inv : List Bytes → (List Bytes → Prop) → C → Prop) (K : C → Prop) : Prop where
  read : ∀ d c V x ctx, d ++ [c] ∈ P → Inv d V ctx → (∀ p, V p → ¬ d ++ [c] <+: p) → ent (d ++ [c]) = .error x → K ctx
  file : ∀ d c V e ctx, d ++ [c] ∈ P → Inv d V ctx → (∀ p, V p → ¬ d ++ [c] <+: p) → ent (d ++ [c]) = .ok (.file e) →
    match op.onFile ctx e with
    | (c', .ok ()) => Inv d (fun p => V p ∨ (p ∈ P ∧ d ++ [c] <+: p)) c'
    | (c', .error _) => K c'
  link : ∀ d c V e ctx, d ++ [c] ∈ P → Inv d V ctx → (∀ p, V p → ¬ d ++ [c] <+: p) → ent (d ++ [c]) = .ok (.link e) →
    match op.onLink ctx e with
    | (c', .ok ()) => Inv d (fun p => V p ∨ (p ∈ P ∧ d ++ [c] <+: p)) c'
    | (c', .error _) => K c'
  enter : ∀ d c V r e ctx, d ++ [c] ∈ P → Inv d V ctx → (∀ p, V p → ¬ d ++ [c] <+: p) →
    ent (d ++ [c]) = .ok (.dir r e) →
    match op.onEnter ctx e with
    | (c', .ok true) => Inv (d ++ [c]) (fun p => V p ∨ p = d ++ [c]) c'
    | (c', .ok false) => Inv (d ++ [c]) (fun p => V p ∨ (p ∈ P ∧ d ++ [c] <+: p)) c'
    | (c', .error _) => K c'
  exit : ∀ d c V r e ctx, d ++ [c] ∈ P → (∃ V0 ctx0, Inv d V0 ctx0 ∧ ∀ p, V0 p → ¬ d ++ [c] <+: p) → Inv (d ++ [c]) V ctx → ent (d ++ [c]) = .ok (.dir r e) →
    match op.onExit ctx e with
    | (c', .ok ()) => Inv d V c'
    | (c', .error _) => K c'

/-- what the rule concludes for a walk or a part of it -/
def WalkPost {E C : Type} (I : C → Prop) (K : C → Prop) (x : C × Except E Unit) : Prop :=
  match x with
  | (c', .ok ()) => I c'
  | (c', .error _) => K c'

theorem specWalk_rule {E C F L D : Type} {P : List (List Bytes)} {ent : List Bytes → Res (Entry F L D)}
    {op : Operator E C F L D} {Inv : List Bytes → (List Bytes → Prop) → C → Prop} {K : C → Prop}
    (R : WalkRule P ent op Inv K) (hk : ∀ d, (kids P d).Pairwise ltBytes)
    (hclosed : ∀ p ∈ P, ∀ q, q ≠ [] → q <+: p → q ∈ P) :
    ∀ (f : Nat) (d : List Bytes) (V : List Bytes → Prop) (ctx : C), DeepEnough P f d → Inv d V ctx →
      (∀ p, V p → d <+: p → p = d) →
      WalkPost (Inv d (fun p => V p ∨ (p ∈ P ∧ d <+: p ∧ p ≠ d))) K (specWalk P ent op f d ctx) := by
  intro f
  induction f with
  | zero => intro d V ctx hd; exact absurd hd.1 (by omega)
  | succ f ih =>
    intro d V ctx hd hI hV
    simp only [specWalk]
    -- loop over the children, `done` before `ns`
    have key : ∀ (ns done : List Bytes) (ctx : C), done ++ ns = kids P d →
        Inv d (fun p => V p ∨ (p ∈ P ∧ ∃ c ∈ done, d ++ [c] <+: p)) ctx →
        WalkPost (Inv d (fun p => V p ∨ (p ∈ P ∧ ∃ c ∈ kids P d, d ++ [c] <+: p))) K
          (forEach (fun c nm => walkEntry op (fun _ => specWalk P ent op f (d ++ [nm])) c (ent (d ++ [nm]))) ctx ns) := by
      intro ns
      induction ns with
      | nil =>
        intro done ctx hs hI
        simp only [List.append_nil] at hs
        simp only [forEach, WalkPost, ← hs]; exact hI
      | cons nm ns ihn =>
        intro done ctx hs hI
        have hmem : nm ∈ kids P d := by rw [← hs]; simp
        have hp : d ++ [nm] ∈ P := mem_kids.mp hmem
        have hnotdone : nm ∉ done := by
          have := hk d
          rw [← hs, List.pairwise_append] at this
          intro hc
          exact ltBytes_irrefl _ (this.2.2 nm hc nm (by simp))
        have hV' : ∀ p, (V p ∨ (p ∈ P ∧ ∃ c ∈ done, d ++ [c] <+: p)) → ¬ d ++ [nm] <+: p := by
          rintro p (hv | ⟨_, c, hc, hpre⟩) hnm
          · have := hV p hv (List.IsPrefix.trans (List.prefix_append _ _) hnm)
            subst this
            have := hnm.length_le
            simp at this
            omega
          · obtain ⟨t1, h1⟩ := hpre
            obtain ⟨t2, h2⟩ := hnm
            rw [← h1] at h2
            simp only [List.append_assoc, List.cons_append, List.nil_append, List.append_cancel_left_eq, List.cons.injEq] at h2
            exact hnotdone (h2.1 ▸ hc)
        have hstep : (fun p => (V p ∨ (p ∈ P ∧ ∃ c ∈ done, d ++ [c] <+: p)) ∨ (p ∈ P ∧ d ++ [nm] <+: p))
            = (fun p => V p ∨ (p ∈ P ∧ ∃ c ∈ done ++ [nm], d ++ [c] <+: p)) := by
          funext p
          apply propext
          simp only [List.mem_append, List.mem_singleton]
          constructor
          · rintro ((h | ⟨h1, c, h2, h3⟩) | ⟨h1, h2⟩)
            · exact Or.inl h
            · exact Or.inr ⟨h1, c, Or.inl h2, h3⟩
            · exact Or.inr ⟨h1, nm, Or.inr rfl, h2⟩
          · rintro (h | ⟨h1, c, h2 | rfl, h3⟩)
            · exact Or.inl (Or.inl h)
            · exact Or.inl (Or.inr ⟨h1, c, h2, h3⟩)
            · exact Or.inr ⟨h1, h3⟩
        -- one child
        have hb : WalkPost (Inv d (fun p => V p ∨ (p ∈ P ∧ ∃ c ∈ done ++ [nm], d ++ [c] <+: p))) K
            (walkEntry op (fun _ => specWalk P ent op f (d ++ [nm])) ctx (ent (d ++ [nm]))) := by
          rw [← hstep]
          cases he : ent (d ++ [nm]) with
          | error x => exact R.read _ _ _ x ctx hp hI hV' he
          | ok e =>
            cases e with
            | file e =>
              have h1 := R.file _ _ _ e ctx hp hI hV' he
              simp only [walkEntry]
              revert h1
              cases op.onFile ctx e with
              | mk c' r => cases r <;> exact id
            | link e =>
              have h1 := R.link _ _ _ e ctx hp hI hV' he
              simp only [walkEntry]
              revert h1
              cases op.onLink ctx e with
              | mk c' r => cases r <;> exact id
            | dir r e =>
              have h1 := R.enter _ _ _ r e ctx hp hI hV' he
              simp only [walkEntry]
              revert h1
              cases op.onEnter ctx e with
              | mk c1 r1 =>
                intro h1
                cases r1 with
                | error x => exact h1
                | ok b =>
                  have hexit : ∀ (c2 : C), Inv (d ++ [nm]) (fun p => (V p ∨ (p ∈ P ∧ ∃ c ∈ done, d ++ [c] <+: p)) ∨ (p ∈ P ∧ d ++ [nm] <+: p)) c2 →
                      WalkPost (Inv d (fun p => (V p ∨ (p ∈ P ∧ ∃ c ∈ done, d ++ [c] <+: p)) ∨ (p ∈ P ∧ d ++ [nm] <+: p))) K
                        (liftOp (op.onExit c2 e)) := by
                    intro c2 h2
                    have h3 := R.exit _ _ _ r e c2 hp ⟨_, _, hI, hV'⟩ h2 he
                    revert h3
                    cases op.onExit c2 e with
                    | mk c3 r3 => cases r3 <;> exact id
                  cases b with
                  | false => simp only [Bool.false_eq_true, if_false]; exact hexit c1 h1
                  | true =>
                    simp only [if_true]
                    have h2 := ih (d ++ [nm]) _ c1 (hd.sub hp) h1 (by
                      rintro p (hv | rfl) hpre
                      · exact absurd hpre (hV' p hv)
                      · rfl)
                    revert h2
                    cases specWalk P ent op f (d ++ [nm]) c1 with
                    | mk c2 r2 =>
                      intro h2
                      cases r2 with
                      | error x => exact h2
                      | ok u =>
                        refine hexit c2 ?_
                        have heq : (fun p => ((V p ∨ (p ∈ P ∧ ∃ c ∈ done, d ++ [c] <+: p)) ∨ p = d ++ [nm]) ∨ (p ∈ P ∧ d ++ [nm] <+: p ∧ p ≠ d ++ [nm]))
                            = (fun p => (V p ∨ (p ∈ P ∧ ∃ c ∈ done, d ++ [c] <+: p)) ∨ (p ∈ P ∧ d ++ [nm] <+: p)) := by
                          funext p
                          apply propext
                          constructor
                          · rintro ((h | rfl) | ⟨h1, h2, _⟩)
                            · exact Or.inl h
                            · exact Or.inr ⟨hp, List.prefix_refl _⟩
                            · exact Or.inr ⟨h1, h2⟩
                          · rintro (h | ⟨h1, h2⟩)
                            · exact Or.inl (Or.inl h)
                            · by_cases hpe : p = d ++ [nm]
                              · exact Or.inl (Or.inr hpe)
                              · exact Or.inr ⟨h1, h2, hpe⟩
                        simp only [WalkPost] at h2
                        rw [heq] at h2
                        exact h2
        simp only [forEach]
        revert hb
        cases walkEntry op (fun _ => specWalk P ent op f (d ++ [nm])) ctx (ent (d ++ [nm])) with
        | mk c1 r1 =>
          intro hb
          cases r1 with
          | error x => exact hb
          | ok u => exact ihn (done ++ [nm]) c1 (by simpa using hs) hb
    have h0 := key (kids P d) [] ctx rfl (by simpa using hI)
    have heq : (fun p => V p ∨ (p ∈ P ∧ ∃ c ∈ kids P d, d ++ [c] <+: p)) = (fun p => V p ∨ (p ∈ P ∧ d <+: p ∧ p ≠ d)) := by
      funext p
      apply propext
      constructor
      · rintro (h | ⟨h1, c, _, h3⟩)
        · exact Or.inl h
        · refine Or.inr ⟨h1, List.IsPrefix.trans (List.prefix_append _ _) h3, ?_⟩
          rintro rfl
          have := h3.length_le
          simp at this
          omega
      · rintro (h | ⟨h1, ⟨t, ht⟩, h3⟩)
        · exact Or.inl h
        · right
          refine ⟨h1, ?_⟩
          cases t with
          | nil => simp at ht; exact absurd ht.symm h3
          | cons c t =>
            have hpre : d ++ [c] <+: p := ⟨t, by rw [← ht]; simp⟩
            exact ⟨c, mem_kids.mpr (hclosed p h1 _ (by simp) hpre), hpre⟩
    rw [heq] at h0
    exact h0

end Arx
