import Verif.Proof.WalkProof
import Verif.Model.List
/-!
# Paths carried along a walk
-/
namespace Arx

/-- `op`, additionally logging each call with the path found in the context when the call is made. -/
def watch {E C F L D K : Type} (cp : C → K) (op : Operator E C F L D) :
    Operator E (C × List (K × Call F L D)) F L D where
  onStart c := ((( op.onStart c.1).1, c.2 ++ [(cp c.1, .start)]), (op.onStart c.1).2)
  onStop c := (((op.onStop c.1).1, c.2 ++ [(cp c.1, .stop)]), (op.onStop c.1).2)
  onEnter c d := (((op.onEnter c.1 d).1, c.2 ++ [(cp c.1, .enter d)]), (op.onEnter c.1 d).2)
  onExit c d := (((op.onExit c.1 d).1, c.2 ++ [(cp c.1, .exit d)]), (op.onExit c.1 d).2)
  onFile c f := (((op.onFile c.1 f).1, c.2 ++ [(cp c.1, .file f)]), (op.onFile c.1 f).2)
  onLink c l := (((op.onLink c.1 l).1, c.2 ++ [(cp c.1, .link l)]), (op.onLink c.1 l).2)

/-- watching does not change what the operator does -/
theorem watch_walk {E C F L D K : Type} (cp : C → K) (op : Operator E C F L D) (a : Archive) (B : Builder F L D) :
    ∀ (f : Nat) (rg : Range) (c : C) (log : List (K × Call F L D)),
      (a.walkRange B (watch cp op) f rg (c, log)).1.1 = (a.walkRange B op f rg c).1 ∧
      (a.walkRange B (watch cp op) f rg (c, log)).2 = (a.walkRange B op f rg c).2 := by
  intro f
  induction f with
  | zero => intro rg c log; exact ⟨rfl, rfl⟩
  | succ f ih =>
    intro rg c log
    simp only [Archive.walkRange]
    generalize a.readRange B rg = l
    induction l generalizing c log with
    | nil => exact ⟨rfl, rfl⟩
    | cons x xs ihl =>
      have hb : ∀ c log, (walkEntry (watch cp op) (Archive.walkRange a B (watch cp op) f) (c, log) x).1.1
            = (walkEntry op (Archive.walkRange a B op f) c x).1 ∧
          (walkEntry (watch cp op) (Archive.walkRange a B (watch cp op) f) (c, log) x).2
            = (walkEntry op (Archive.walkRange a B op f) c x).2 := by
        intro c log
        match x with
        | .error e => exact ⟨rfl, rfl⟩
        | .ok (.file e) =>
          simp only [walkEntry, watch]
          cases op.onFile c e with
          | mk c' r => cases r <;> exact ⟨rfl, rfl⟩
        | .ok (.link e) =>
          simp only [walkEntry, watch]
          cases op.onLink c e with
          | mk c' r => cases r <;> exact ⟨rfl, rfl⟩
        | .ok (.dir r e) =>
          simp only [walkEntry]
          have h1 : (watch cp op).onEnter (c, log) e = (((op.onEnter c e).1, log ++ [(cp c, .enter e)]), (op.onEnter c e).2) := rfl
          rw [h1]
          cases op.onEnter c e with
          | mk c' rr =>
            cases rr with
            | error y => exact ⟨rfl, rfl⟩
            | ok b =>
              cases b with
              | false =>
                simp only [Bool.false_eq_true, if_false]
                have h2 : (watch cp op).onExit (c', log ++ [(cp c, .enter e)]) e = (((op.onExit c' e).1, (log ++ [(cp c, .enter e)]) ++ [(cp c', .exit e)]), (op.onExit c' e).2) := rfl
                rw [h2]
                cases op.onExit c' e with
                | mk c2 r2 => cases r2 <;> exact ⟨rfl, rfl⟩
              | true =>
                simp only [if_true]
                obtain ⟨i1, i2⟩ := ih r c' (log ++ [(cp c, .enter e)])
                revert i1 i2
                cases Archive.walkRange a B (watch cp op) f r (c', log ++ [(cp c, .enter e)]) with
                | mk w wr =>
                  cases Archive.walkRange a B op f r c' with
                  | mk v vr =>
                    obtain ⟨w1, w2⟩ := w
                    intro i1 i2
                    simp only at i1 i2
                    subst i1; subst i2
                    cases wr with
                    | error y => exact ⟨rfl, rfl⟩
                    | ok u =>
                      have h2 : (watch cp op).onExit (w1, w2) e = (((op.onExit w1 e).1, w2 ++ [(cp w1, .exit e)]), (op.onExit w1 e).2) := rfl
                      simp only [h2]
                      cases op.onExit w1 e with
                      | mk c2 r2 => cases r2 <;> exact ⟨rfl, rfl⟩
      obtain ⟨b1, b2⟩ := hb c log
      simp only [forEach]
      revert b1 b2
      cases walkEntry (watch cp op) (Archive.walkRange a B (watch cp op) f) (c, log) x with
      | mk w wr =>
        cases walkEntry op (Archive.walkRange a B op f) c x with
        | mk v vr =>
          obtain ⟨w1, w2⟩ := w
          intro b1 b2
          simp only at b1 b2
          subst b1; subst b2
          cases wr with
          | error y => exact ⟨rfl, rfl⟩
          | ok u => exact ihl w1 w2

/-- How an operator treats the path in its context: entering pushes the name, leaving pops, anything
else leaves it as it was — whatever the verdict of the call. -/
structure Tracks {E C F L D K : Type} (cp : C → K) (push : K → Bytes → K) (pop : K → K) (nameD : D → Bytes)
    (op : Operator E C F L D) : Prop where
  enter : ∀ c d, cp (op.onEnter c d).1 = push (cp c) (nameD d)
  exit : ∀ c d, cp (op.onExit c d).1 = pop (cp c)
  file : ∀ c f, cp (op.onFile c f).1 = cp c
  link : ∀ c l, cp (op.onLink c l).1 = cp c

/-- the logged path is the path of the directory containing the entry (of the entry itself when a
directory is being left) -/
def LogOK {F L D K : Type} (rep : List Bytes → K) (ent : List Bytes → Res (Entry F L D)) (P : List (List Bytes))
    (x : K × Call F L D) : Prop :=
  ∃ ev d c, d ++ [c] ∈ P ∧ CallEnt ent x.2 ev ∧
    ((ev = .enter (d ++ [c]) ∧ x.1 = rep d) ∨ (ev = .leaf (d ++ [c]) ∧ x.1 = rep d) ∨
     (ev = .exit (d ++ [c]) ∧ x.1 = rep (d ++ [c])))

theorem specWalk_tracks {E C F L D K : Type} {P : List (List Bytes)} {ent : List Bytes → Res (Entry F L D)}
    {cp : C → K} {push : K → Bytes → K} {pop : K → K} {nameD : D → Bytes} {op : Operator E C F L D}
    (ht : Tracks cp push pop nameD op) (rep : List Bytes → K)
    (hpush : ∀ d c, d ++ [c] ∈ P → push (rep d) c = rep (d ++ [c]))
    (hpop : ∀ d c, d ++ [c] ∈ P → pop (rep (d ++ [c])) = rep d)
    (hname : ∀ d c r e, d ++ [c] ∈ P → ent (d ++ [c]) = .ok (.dir r e) → nameD e = c) :
    ∀ (f : Nat) (d : List Bytes) (c : C) (log : List (K × Call F L D)), cp c = rep d →
      (∀ x ∈ (specWalk P ent (watch cp op) f d (c, log)).1.2, x ∈ log ∨ LogOK rep ent P x) ∧
      ((specWalk P ent (watch cp op) f d (c, log)).2 = .ok () →
        cp (specWalk P ent (watch cp op) f d (c, log)).1.1 = rep d) := by
  intro f
  induction f with
  | zero => intro d c log _; exact ⟨fun x hx => Or.inl hx, fun h => by cases h⟩
  | succ f ih =>
    intro d c log hc
    simp only [specWalk]
    have hmem : ∀ nm ∈ kids P d, d ++ [nm] ∈ P := fun nm h => mem_kids.mp h
    revert hmem
    generalize kids P d = l
    induction l generalizing c log with
    | nil => intro _; exact ⟨fun x hx => Or.inl hx, fun _ => hc⟩
    | cons nm ns ihl =>
      intro hmem
      have hp := hmem nm (by simp)
      -- one entry
      have hb : (∀ x ∈ (walkEntry (watch cp op) (fun _ => specWalk P ent (watch cp op) f (d ++ [nm])) (c, log) (ent (d ++ [nm]))).1.2, x ∈ log ∨ LogOK rep ent P x) ∧
          ((walkEntry (watch cp op) (fun _ => specWalk P ent (watch cp op) f (d ++ [nm])) (c, log) (ent (d ++ [nm]))).2 = .ok () →
            cp (walkEntry (watch cp op) (fun _ => specWalk P ent (watch cp op) f (d ++ [nm])) (c, log) (ent (d ++ [nm]))).1.1 = rep d) := by
        cases he : ent (d ++ [nm]) with
        | error x => exact ⟨fun x hx => Or.inl hx, fun h => by cases h⟩
        | ok e =>
          cases e with
          | file e =>
            have hlog : LogOK rep ent P (cp c, Call.file e) :=
              ⟨_, d, nm, hp, .file he, Or.inr (Or.inl ⟨rfl, hc⟩)⟩
            have h1 : (watch cp op).onFile (c, log) e = (((op.onFile c e).1, log ++ [(cp c, .file e)]), (op.onFile c e).2) := rfl
            have h2 := ht.file c e
            simp only [walkEntry, h1]
            revert h2
            cases op.onFile c e with
            | mk c' r =>
              intro h2
              cases r <;> simp only [liftOp] <;> refine ⟨?_, fun _ => h2.trans hc⟩ <;>
              · intro x hx
                rcases List.mem_append.mp hx with hx | hx
                · exact Or.inl hx
                · simp at hx; subst hx; exact Or.inr hlog
          | link e =>
            have hlog : LogOK rep ent P (cp c, Call.link e) :=
              ⟨_, d, nm, hp, .link he, Or.inr (Or.inl ⟨rfl, hc⟩)⟩
            have h1 : (watch cp op).onLink (c, log) e = (((op.onLink c e).1, log ++ [(cp c, .link e)]), (op.onLink c e).2) := rfl
            have h2 := ht.link c e
            simp only [walkEntry, h1]
            revert h2
            cases op.onLink c e with
            | mk c' r =>
              intro h2
              cases r <;> simp only [liftOp] <;> refine ⟨?_, fun _ => h2.trans hc⟩ <;>
              · intro x hx
                rcases List.mem_append.mp hx with hx | hx
                · exact Or.inl hx
                · simp at hx; subst hx; exact Or.inr hlog
          | dir r e =>
            have hnm : nameD e = nm := hname d nm r e hp he
            have hlog : LogOK rep ent P (cp c, Call.enter e) := ⟨_, d, nm, hp, .enter he, Or.inl ⟨rfl, hc⟩⟩
            have h1 : (watch cp op).onEnter (c, log) e = (((op.onEnter c e).1, log ++ [(cp c, .enter e)]), (op.onEnter c e).2) := rfl
            have h2 : cp (op.onEnter c e).1 = rep (d ++ [nm]) := by
              rw [ht.enter, hc, hnm, hpush d nm hp]
            simp only [walkEntry, h1]
            revert h2
            cases op.onEnter c e with
            | mk c1 r1 =>
              intro h2
              simp only at h2
              have hlog1 : ∀ x ∈ log ++ [(cp c, Call.enter e)], x ∈ log ∨ LogOK rep ent P x := by
                intro x hx
                rcases List.mem_append.mp hx with hx | hx
                · exact Or.inl hx
                · simp at hx; subst hx; exact Or.inr hlog
              cases r1 with
              | error y => exact ⟨hlog1, fun h => by cases h⟩
              | ok b =>
                -- leaving the directory
                have hexit : ∀ (c2 : C) (log2 : List (K × Call F L D)), cp c2 = rep (d ++ [nm]) →
                    (∀ x ∈ log2, x ∈ log ∨ LogOK rep ent P x) →
                    (∀ x ∈ (liftOp ((watch cp op).onExit (c2, log2) e)).1.2, x ∈ log ∨ LogOK rep ent P x) ∧
                    ((liftOp ((watch cp op).onExit (c2, log2) e)).2 = .ok () →
                      cp (liftOp ((watch cp op).onExit (c2, log2) e)).1.1 = rep d) := by
                  intro c2 log2 hc2 hl2
                  have h3 : (watch cp op).onExit (c2, log2) e = (((op.onExit c2 e).1, log2 ++ [(cp c2, .exit e)]), (op.onExit c2 e).2) := rfl
                  have h4 : cp (op.onExit c2 e).1 = rep d := by rw [ht.exit, hc2, hpop d nm hp]
                  rw [h3]
                  revert h4
                  cases op.onExit c2 e with
                  | mk c3 r3 =>
                    intro h4
                    cases r3 <;> simp only [liftOp] <;> refine ⟨?_, fun _ => h4⟩ <;>
                    · intro x hx
                      rcases List.mem_append.mp hx with hx | hx
                      · exact hl2 x hx
                      · simp at hx; subst hx
                        exact Or.inr ⟨_, d, nm, hp, .exit he, Or.inr (Or.inr ⟨rfl, hc2⟩)⟩
                cases b with
                | false =>
                  simp only [Bool.false_eq_true, if_false]
                  exact hexit c1 _ h2 hlog1
                | true =>
                  simp only [if_true]
                  obtain ⟨i1, i2⟩ := ih (d ++ [nm]) c1 (log ++ [(cp c, .enter e)]) h2
                  revert i1 i2
                  cases specWalk P ent (watch cp op) f (d ++ [nm]) (c1, log ++ [(cp c, .enter e)]) with
                  | mk w wr =>
                    intro i1 i2
                    have i1' : ∀ x ∈ w.2, x ∈ log ∨ LogOK rep ent P x := by
                      intro x hx
                      rcases i1 x hx with h | h
                      · exact hlog1 x h
                      · exact Or.inr h
                    cases wr with
                    | error y => exact ⟨i1', fun h => by cases h⟩
                    | ok u => exact hexit w.1 w.2 (i2 rfl) i1'
      obtain ⟨b1, b2⟩ := hb
      simp only [forEach]
      revert b1 b2
      cases walkEntry (watch cp op) (fun _ => specWalk P ent (watch cp op) f (d ++ [nm])) (c, log) (ent (d ++ [nm])) with
      | mk w wr =>
        intro b1 b2
        cases wr with
        | error y => exact ⟨b1, fun h => by cases h⟩
        | ok u =>
          obtain ⟨j1, j2⟩ := ihl w.1 w.2 (b2 rfl) (fun n hn => hmem n (by simp [hn]))
          refine ⟨fun x hx => ?_, j2⟩
          rcases j1 x hx with h | h
          · exact b1 x h
          · exact Or.inr h

theorem All2.append_inv {α β : Type} {R : α → β → Prop} (k : List β) {k' : List β} :
    ∀ {l : List α}, All2 R l (k ++ k') → ∃ l1 l2, l = l1 ++ l2 ∧ All2 R l1 k ∧ All2 R l2 k' := by
  induction k with
  | nil => intro l h; exact ⟨[], l, rfl, .nil, h⟩
  | cons t ts ih =>
    intro l h
    cases h with
    | cons h1 h2 =>
      obtain ⟨l1, l2, e1, e2, e3⟩ := ih h2
      exact ⟨_ :: l1, l2, by rw [e1]; rfl, .cons h1 e2, e3⟩

/-- Folding the calls of a complete walk for an operator that appends one line per entry. -/
theorem fold_lines {E F L D K : Type} {m : PathMap} {ent : List Bytes → Res (Entry F L D)}
    (op : Operator E (K × Bytes) F L D) (rep : List Bytes → K) (line : List Bytes → Bytes)
    (henter : ∀ d c n r e o, m (d ++ [c]) = some n → ent (d ++ [c]) = .ok (.dir r e) →
      (op.onEnter (rep d, o) e).1 = (rep (d ++ [c]), o ++ line (d ++ [c])))
    (hexit : ∀ d c n r e o, m (d ++ [c]) = some n → ent (d ++ [c]) = .ok (.dir r e) →
      (op.onExit (rep (d ++ [c]), o) e).1 = (rep d, o))
    (hfile : ∀ d c n e o, m (d ++ [c]) = some n → ent (d ++ [c]) = .ok (.file e) →
      (op.onFile (rep d, o) e).1 = (rep d, o ++ line (d ++ [c])))
    (hlink : ∀ d c n e o, m (d ++ [c]) = some n → ent (d ++ [c]) = .ok (.link e) →
      (op.onLink (rep d, o) e).1 = (rep d, o ++ line (d ++ [c]))) :
    ∀ {d ns : List Bytes} {T : List Ev}, TraceOf m d ns T → ∀ (Lg : List (Call F L D)) (o : Bytes),
      All2 (CallEnt ent) Lg T →
      Lg.foldl op.call (rep d, o) = (rep d, o ++ (T.filterMap Ev.visited).flatMap line) := by
  intro d ns T h
  induction h with
  | nil d => intro Lg o ha; cases ha; simp
  | @leaf d c cs T n hm hnd ht ih =>
    intro Lg o ha
    cases ha with
    | cons hc ha =>
      cases hc with
      | file he =>
        simp only [List.foldl_cons, Operator.call, hfile d c n _ o hm he, ih _ _ ha]
        simp [Ev.visited]
      | link he =>
        simp only [List.foldl_cons, Operator.call, hlink d c n _ o hm he, ih _ _ ha]
        simp [Ev.visited]
  | @dir d c cs ks T1 T2 n hm hd hk ht1 ht2 ih1 ih2 =>
    intro Lg o ha
    cases ha with
    | cons hc ha =>
      cases hc with
      | enter he =>
        obtain ⟨L1, L2, rfl, a1, a2⟩ := All2.append_inv T1 ha
        cases a2 with
        | cons hx a2 =>
          cases hx with
          | exit hx =>
            simp only [List.foldl_cons, List.foldl_append, Operator.call, henter d c n _ _ o hm he,
              ih1 _ _ a1, hexit d c n _ _ _ hm hx, ih2 _ _ a2]
            simp [Ev.visited, List.filterMap_cons]

end Arx
