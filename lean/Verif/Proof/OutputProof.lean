import Verif.Model.Cmd
import Verif.Spec.Cmd
/-!
# Output through buffers
-/
namespace Arx

/-- some write failed -/
def OutEnv.Failed (o : OutEnv) : Prop := ∃ t k j, o.ev t = .fail k j

theorem OutEnv.Healthy.not_failed {o : OutEnv} {cap : Nat} (h : o.Healthy cap) : ¬ o.Failed := by
  rintro ⟨t, k, j, e⟩
  obtain ⟨k', e'⟩ := h.1 t
  rw [e] at e'; cases e'

/-- all of `w` was delivered or is held -/
def Sink.Has (cap : Nat) (s : Sink) (w : Bytes) : Prop := s.out ++ s.held = w ∧ s.held.length ≤ cap

theorem Sink.write_spec {cap : Nat} {o : OutEnv} {s : Sink} {w : Bytes} (h : s.Has cap w) (b : Bytes) :
    match s.write cap o b with
    | (s', true) => s'.Has cap (w ++ b)
    | (s', false) => s'.out ++ s'.held <+: w ++ b ∧ o.Failed := by
  obtain ⟨h1, h2⟩ := h
  unfold Sink.write
  cases he : o.ev s.tick with
  | accept k =>
    simp only
    refine ⟨?_, ?_⟩
    · rw [List.append_assoc, List.take_append_drop, ← h1, List.append_assoc]
    · simp only [List.length_drop]; omega
  | fail k j =>
    simp only
    refine ⟨?_, _, _, _, he⟩
    rw [← h1]
    simp only [List.append_assoc]
    rw [List.prefix_append_right_inj]
    conv => rhs; rw [← List.take_append_drop k (s.held ++ b)]
    rw [List.prefix_append_right_inj]
    exact List.take_prefix _ _

theorem Sink.writes_spec {cap : Nat} {o : OutEnv} : ∀ (bs : List Bytes) {s : Sink} {w : Bytes}, s.Has cap w →
    match s.writes cap o bs with
    | (s', true) => s'.Has cap (w ++ bs.flatten)
    | (s', false) => s'.out ++ s'.held <+: w ++ bs.flatten ∧ o.Failed
  | [], s, w, h => by simpa [Sink.writes] using h
  | b :: bs, s, w, h => by
    have h1 := Sink.write_spec (o := o) h b
    simp only [Sink.writes]
    revert h1
    cases s.write cap o b with
    | mk s' ok =>
      intro h1
      cases ok with
      | false =>
        simp only at h1 ⊢
        refine ⟨h1.1.trans ?_, h1.2⟩
        simp [← List.append_assoc]
      | true =>
        simp only at h1 ⊢
        have := Sink.writes_spec (o := o) bs h1
        simpa using this

theorem Sink.close_prefix (o : OutEnv) (s : Sink) : s.close o <+: s.out ++ s.held := by
  unfold Sink.close
  rw [List.prefix_append_right_inj]
  exact List.take_prefix _ _

theorem Sink.Has.close {cap : Nat} {o : OutEnv} {s : Sink} {w : Bytes} (h : s.Has cap w) : AllBut cap (s.close o) w := by
  refine ⟨s.held.drop o.last, ?_, ?_⟩
  · rw [Sink.close, List.append_assoc, List.take_append_drop, h.1]
  · have := h.2; simp only [List.length_drop]; omega

theorem Sink.Has.close_healthy {cap : Nat} {o : OutEnv} {s : Sink} {w : Bytes} (h : s.Has cap w) (ho : o.Healthy cap) :
    s.close o = w := by
  rw [Sink.close, List.take_of_length_le (by have := h.2; have := ho.2; omega), h.1]

theorem chop_flatten : ∀ (ns : List Nat) (b : Bytes), (chop ns b).flatten = b
  | _, [] => by unfold chop; rfl
  | [], b :: bs => by simp [chop]
  | n :: ns, b :: bs => by
    rw [chop, List.flatten_cons, chop_flatten ns, List.take_append_drop]
    simp

theorem Sink.Has.new (cap : Nat) : Sink.new.Has cap [] := ⟨rfl, Nat.zero_le _⟩

/-! ## Walks that print -/

/-- `op2` does what `op1` does (related by `S`) until it fails; then `Bad` holds, and goes on holding whatever
`op1` does. `op1` never fails. -/
structure Follows {E C1 C2 F L D : Type} (op1 : Operator E C1 F L D) (op2 : Operator E C2 F L D)
    (S Bad : C1 → C2 → Prop) : Prop where
  start : ∀ c1 c2, S c1 c2 → (op1.onStart c1).2 = .ok () ∧ (op2.onStart c2).2 = .ok () ∧ S (op1.onStart c1).1 (op2.onStart c2).1
  stop : ∀ c1 c2, S c1 c2 → (op1.onStop c1).2 = .ok () ∧ (op2.onStop c2).2 = .ok () ∧ S (op1.onStop c1).1 (op2.onStop c2).1
  stopBad : ∀ c1 c2, Bad c1 c2 → (op1.onStop c1).2 = .ok () ∧ Bad (op1.onStop c1).1 c2
  enter : ∀ c1 c2 d, S c1 c2 → ∃ b, (op1.onEnter c1 d).2 = .ok b ∧
    (((op2.onEnter c2 d).2 = .ok b ∧ S (op1.onEnter c1 d).1 (op2.onEnter c2 d).1) ∨
     ((∃ e, (op2.onEnter c2 d).2 = .error e) ∧ Bad (op1.onEnter c1 d).1 (op2.onEnter c2 d).1))
  enterBad : ∀ c1 c2 d, Bad c1 c2 → ∃ b, (op1.onEnter c1 d).2 = .ok b ∧ Bad (op1.onEnter c1 d).1 c2
  exit : ∀ c1 c2 d, S c1 c2 → (op1.onExit c1 d).2 = .ok () ∧ (op2.onExit c2 d).2 = .ok () ∧ S (op1.onExit c1 d).1 (op2.onExit c2 d).1
  exitBad : ∀ c1 c2 d, Bad c1 c2 → (op1.onExit c1 d).2 = .ok () ∧ Bad (op1.onExit c1 d).1 c2
  file : ∀ c1 c2 d, S c1 c2 → (op1.onFile c1 d).2 = .ok () ∧
    (((op2.onFile c2 d).2 = .ok () ∧ S (op1.onFile c1 d).1 (op2.onFile c2 d).1) ∨
     ((∃ e, (op2.onFile c2 d).2 = .error e) ∧ Bad (op1.onFile c1 d).1 (op2.onFile c2 d).1))
  fileBad : ∀ c1 c2 d, Bad c1 c2 → (op1.onFile c1 d).2 = .ok () ∧ Bad (op1.onFile c1 d).1 c2
  link : ∀ c1 c2 d, S c1 c2 → (op1.onLink c1 d).2 = .ok () ∧
    (((op2.onLink c2 d).2 = .ok () ∧ S (op1.onLink c1 d).1 (op2.onLink c2 d).1) ∨
     ((∃ e, (op2.onLink c2 d).2 = .error e) ∧ Bad (op1.onLink c1 d).1 (op2.onLink c2 d).1))
  linkBad : ∀ c1 c2 d, Bad c1 c2 → (op1.onLink c1 d).2 = .ok () ∧ Bad (op1.onLink c1 d).1 c2

/-- both walks are at the same place with the same result, or the second has failed -/
def Tracked {E C1 C2 : Type} (S Bad : C1 → C2 → Prop) (x : C1 × Except (WErr E) Unit) (y : C2 × Except (WErr E) Unit) : Prop :=
  (x.2 = y.2 ∧ S x.1 y.1) ∨ ((∃ e, y.2 = .error (.op e)) ∧ Bad x.1 y.1)

section
variable {E C1 C2 F L D : Type} {op1 : Operator E C1 F L D} {op2 : Operator E C2 F L D} {S Bad : C1 → C2 → Prop}

theorem forEach_tracked {X : Type} {b1 : C1 → X → C1 × Except (WErr E) Unit} {b2 : C2 → X → C2 × Except (WErr E) Unit}
    (h : ∀ c1 c2 x, S c1 c2 → Tracked S Bad (b1 c1 x) (b2 c2 x)) (hb : ∀ c1 c2 x, Bad c1 c2 → Bad (b1 c1 x).1 c2) :
    ∀ (l : List X) (c1 : C1) (c2 : C2),
      (S c1 c2 → Tracked S Bad (forEach b1 c1 l) (forEach b2 c2 l)) ∧ (Bad c1 c2 → Bad (forEach b1 c1 l).1 c2)
  | [], c1, c2 => ⟨fun hs => .inl ⟨rfl, hs⟩, fun hb => hb⟩
  | x :: xs, c1, c2 => by
    have ih := forEach_tracked h hb xs
    constructor
    · intro hs
      have h1 := h c1 c2 x hs
      simp only [forEach]
      revert h1
      cases b1 c1 x with
      | mk d1 r1 =>
        cases b2 c2 x with
        | mk d2 r2 =>
          rintro (⟨h1, h2⟩ | ⟨⟨e, h1⟩, h2⟩)
          · simp only at h1 h2
            subst h1
            cases r1 with
            | error e => exact .inl ⟨rfl, h2⟩
            | ok u => exact (ih d1 d2).1 h2
          · simp only at h1 h2
            subst h1
            refine .inr ⟨⟨e, rfl⟩, ?_⟩
            cases r1 with
            | error e => exact h2
            | ok u => exact (ih d1 d2).2 h2
    · intro hs
      have h1 := hb c1 c2 x hs
      simp only [forEach]
      revert h1
      cases b1 c1 x with
      | mk d1 r1 =>
        intro h1
        cases r1 with
        | error e => exact h1
        | ok u => exact (ih d1 c2).2 h1

theorem Archive.walkRange_tracked (a : Archive) (B : Builder F L D) (T : Follows op1 op2 S Bad) :
    ∀ (f : Nat) (range : Range) (c1 : C1) (c2 : C2),
      (S c1 c2 → Tracked S Bad (a.walkRange B op1 f range c1) (a.walkRange B op2 f range c2)) ∧
      (Bad c1 c2 → Bad (a.walkRange B op1 f range c1).1 c2) := by
  intro f
  induction f with
  | zero => intro range c1 c2; exact ⟨fun h => .inl ⟨rfl, h⟩, fun h => h⟩
  | succ f ih =>
    intro range c1 c2
    unfold Archive.walkRange
    apply forEach_tracked
    · intro c1 c2 x hs
      cases x with
      | error x => exact .inl ⟨rfl, hs⟩
      | ok x =>
        cases x with
        | file x =>
          have h := T.file c1 c2 x hs
          simp only [walkEntry]
          revert h
          cases op1.onFile c1 x with
          | mk d1 r1 =>
            cases op2.onFile c2 x with
            | mk d2 r2 =>
              rintro ⟨rfl, ⟨h1, h2⟩ | ⟨⟨e, h1⟩, h2⟩⟩
              · cases h1; exact .inl ⟨rfl, h2⟩
              · cases h1; exact .inr ⟨⟨_, rfl⟩, h2⟩
        | link x =>
          have h := T.link c1 c2 x hs
          simp only [walkEntry]
          revert h
          cases op1.onLink c1 x with
          | mk d1 r1 =>
            cases op2.onLink c2 x with
            | mk d2 r2 =>
              rintro ⟨rfl, ⟨h1, h2⟩ | ⟨⟨e, h1⟩, h2⟩⟩
              · cases h1; exact .inl ⟨rfl, h2⟩
              · cases h1; exact .inr ⟨⟨_, rfl⟩, h2⟩
        | dir range' x =>
          have h := T.enter c1 c2 x hs
          simp only [walkEntry]
          revert h
          cases op1.onEnter c1 x with
          | mk d1 r1 =>
            cases op2.onEnter c2 x with
            | mk d2 r2 =>
              rintro ⟨b, rfl, ⟨h1, h2⟩ | ⟨⟨e, h1⟩, h2⟩⟩
              · cases h1
                simp only at h2 ⊢
                have hsub : Tracked S Bad (if b = true then a.walkRange B op1 f range' d1 else (d1, .ok ()))
                    (if b = true then a.walkRange B op2 f range' d2 else (d2, .ok ())) := by
                  split
                  · exact (ih range' d1 d2).1 h2
                  · exact .inl ⟨rfl, h2⟩
                revert hsub
                cases (if b = true then a.walkRange B op1 f range' d1 else (d1, .ok ())) with
                | mk f1 s1 =>
                  cases (if b = true then a.walkRange B op2 f range' d2 else (d2, .ok ())) with
                  | mk f2 s2 =>
                    rintro (⟨h1, h2⟩ | ⟨⟨e, h1⟩, h2⟩)
                    · simp only at h1 h2
                      subst h1
                      cases s1 with
                      | error e => exact .inl ⟨rfl, h2⟩
                      | ok u =>
                        have h3 := T.exit f1 f2 x h2
                        simp only
                        revert h3
                        cases op1.onExit f1 x with
                        | mk g1 t1 =>
                          cases op2.onExit f2 x with
                          | mk g2 t2 =>
                            rintro ⟨rfl, rfl, h3⟩
                            exact .inl ⟨rfl, h3⟩
                    · simp only at h1 h2
                      subst h1
                      refine .inr ⟨⟨e, rfl⟩, ?_⟩
                      cases s1 with
                      | error e => exact h2
                      | ok u =>
                        have h3 := T.exitBad f1 f2 x h2
                        simp only
                        revert h3
                        cases op1.onExit f1 x with
                        | mk g1 t1 =>
                          rintro ⟨rfl, h3⟩
                          exact h3
              · cases h1
                refine .inr ⟨⟨_, rfl⟩, ?_⟩
                simp only at h2 ⊢
                have hsub : Bad (if b = true then a.walkRange B op1 f range' d1 else (d1, .ok ())).1 d2 := by
                  split
                  · exact (ih range' d1 d2).2 h2
                  · exact h2
                revert hsub
                cases (if b = true then a.walkRange B op1 f range' d1 else (d1, .ok ())) with
                | mk f1 s1 =>
                  intro h2
                  cases s1 with
                  | error e => exact h2
                  | ok u =>
                    have h3 := T.exitBad f1 d2 x h2
                    simp only
                    revert h3
                    cases op1.onExit f1 x with
                    | mk g1 t1 =>
                      rintro ⟨rfl, h3⟩
                      exact h3
    · intro c1 c2 x hs
      cases x with
      | error x => exact hs
      | ok x =>
        cases x with
        | file x =>
          have h := T.fileBad c1 c2 x hs
          simp only [walkEntry]
          revert h
          cases op1.onFile c1 x with
          | mk d1 r1 => rintro ⟨rfl, h⟩; exact h
        | link x =>
          have h := T.linkBad c1 c2 x hs
          simp only [walkEntry]
          revert h
          cases op1.onLink c1 x with
          | mk d1 r1 => rintro ⟨rfl, h⟩; exact h
        | dir range' x =>
          have h := T.enterBad c1 c2 x hs
          simp only [walkEntry]
          revert h
          cases op1.onEnter c1 x with
          | mk d1 r1 =>
            rintro ⟨b, rfl, h2⟩
            simp only at h2 ⊢
            have hsub : Bad (if b = true then a.walkRange B op1 f range' d1 else (d1, .ok ())).1 c2 := by
              split
              · exact (ih range' d1 c2).2 h2
              · exact h2
            revert hsub
            cases (if b = true then a.walkRange B op1 f range' d1 else (d1, .ok ())) with
            | mk f1 s1 =>
              intro h2
              cases s1 with
              | error e => exact h2
              | ok u =>
                have h3 := T.exitBad f1 c2 x h2
                simp only
                revert h3
                cases op1.onExit f1 x with
                | mk g1 t1 =>
                  rintro ⟨rfl, h3⟩
                  exact h3

theorem Archive.walk_tracked (a : Archive) (B : Builder F L D) (T : Follows op1 op2 S Bad) (depth : Nat) {c1 : C1} {c2 : C2}
    (hs : S c1 c2) : Tracked S Bad (a.walk B op1 depth c1) (a.walk B op2 depth c2) := by
  unfold Archive.walk Archive.walkFrom
  have h := T.start c1 c2 hs
  revert h
  cases op1.onStart c1 with
  | mk d1 r1 =>
    cases op2.onStart c2 with
    | mk d2 r2 =>
      rintro ⟨rfl, rfl, h⟩
      simp only at h ⊢
      have h2 := (a.walkRange_tracked B T depth a.root d1 d2).1 h
      revert h2
      cases a.walkRange B op1 depth a.root d1 with
      | mk f1 s1 =>
        cases a.walkRange B op2 depth a.root d2 with
        | mk f2 s2 =>
          rintro (⟨h1, h2⟩ | ⟨⟨e, h1⟩, h2⟩)
          · simp only at h1 h2
            subst h1
            cases s1 with
            | error e => exact .inl ⟨rfl, h2⟩
            | ok u =>
              have h3 := T.stop f1 f2 h2
              simp only
              revert h3
              cases op1.onStop f1 with
              | mk g1 t1 =>
                cases op2.onStop f2 with
                | mk g2 t2 =>
                  rintro ⟨rfl, rfl, h3⟩
                  exact .inl ⟨rfl, h3⟩
          · simp only at h1 h2
            subst h1
            refine .inr ⟨⟨e, rfl⟩, ?_⟩
            cases s1 with
            | error e => exact h2
            | ok u =>
              have h3 := T.stopBad f1 f2 h2
              simp only
              revert h3
              cases op1.onStop f1 with
              | mk g1 t1 =>
                rintro ⟨rfl, h3⟩
                exact h3

end

/-- same path, and all that the listing wrote was delivered or is held -/
def Printing {P : Type} (c1 : P × Bytes) (c2 : P × Sink) : Prop := c1.1 = c2.1 ∧ c2.2.Has listCap c1.2
/-- a write has failed; what was delivered and what is held is the beginning of the listing -/
def Broken {P : Type} (o : OutEnv) (c1 : P × Bytes) (c2 : P × Sink) : Prop := c2.2.out ++ c2.2.held <+: c1.2 ∧ o.Failed

theorem emit_spec {P : Type} (o : OutEnv) (p : P) {s : Sink} {w : Bytes} (h : s.Has listCap w) (bs : List Bytes) :
    ((emit o p s bs).2 = .ok () ∧ (emit o p s bs).1.1 = p ∧ (emit o p s bs).1.2.Has listCap (w ++ bs.flatten)) ∨
    ((emit o p s bs).2 = .error () ∧ ((emit o p s bs).1.2.out ++ (emit o p s bs).1.2.held <+: w ++ bs.flatten ∧ o.Failed)) := by
  have := Sink.writes_spec (o := o) bs h
  unfold emit
  revert this
  cases s.writes listCap o bs with
  | mk s' ok =>
    cases ok with
    | true => intro this; exact .inl ⟨rfl, rfl, this⟩
    | false => intro this; exact .inr ⟨rfl, this⟩

theorem LightPath.pieces_flatten (p : LightPath) (c : Bytes) : (p.pieces c).flatten = p.println2 c := by
  unfold LightPath.pieces LightPath.println2
  cases p with
  | nil => simp
  | cons x xs =>
    have h : (xs.flatMap (fun x => [[SEP], x])).flatten = xs.flatMap (fun x => SEP :: x) := by
      induction xs with
      | nil => rfl
      | cons y ys ih => simp [ih]
    simp only [List.flatten_append, List.flatten_cons, h]
    split <;> simp

theorem lister_tracks (o : OutEnv) : Follows lister (sinkLister o) Printing (Broken o) where
  start c1 c2 h := ⟨rfl, rfl, h⟩
  stop c1 c2 h := ⟨rfl, rfl, h⟩
  stopBad c1 c2 h := ⟨rfl, h⟩
  enter c1 c2 d h := by
    obtain ⟨h1, h2⟩ := h
    refine ⟨true, rfl, ?_⟩
    have := emit_spec o (c2.1.push d) h2 ((c2.1.push d).pieces [])
    rw [LightPath.pieces_flatten] at this
    simp only [sinkLister, lister, LightPath.println, h1]
    revert this
    cases emit o (c2.1.push d) c2.2 ((c2.1.push d).pieces []) with
    | mk c' r =>
      rintro (⟨rfl, h3, h4⟩ | ⟨rfl, h3⟩)
      · exact .inl ⟨rfl, h3.symm, h4⟩
      · exact .inr ⟨⟨_, rfl⟩, h3⟩
  enterBad c1 c2 d h := ⟨true, rfl, h.1.trans (List.prefix_append _ _), h.2⟩
  exit c1 c2 d h := ⟨rfl, rfl, by simp only [lister, sinkLister]; exact ⟨by simp [h.1], h.2⟩⟩
  exitBad c1 c2 d h := ⟨rfl, h⟩
  file c1 c2 d h := by
    obtain ⟨h1, h2⟩ := h
    refine ⟨rfl, ?_⟩
    have := emit_spec o c2.1 h2 (c2.1.pieces d)
    rw [LightPath.pieces_flatten] at this
    simp only [sinkLister, lister, h1]
    rcases this with ⟨h3, h4, h5⟩ | ⟨h3, h4⟩
    · exact .inl ⟨h3, h4.symm, h5⟩
    · exact .inr ⟨⟨_, h3⟩, h4⟩
  fileBad c1 c2 d h := ⟨rfl, h.1.trans (List.prefix_append _ _), h.2⟩
  link c1 c2 d h := by
    obtain ⟨h1, h2⟩ := h
    refine ⟨rfl, ?_⟩
    have := emit_spec o c2.1 h2 (c2.1.pieces d)
    rw [LightPath.pieces_flatten] at this
    simp only [sinkLister, lister, h1]
    rcases this with ⟨h3, h4, h5⟩ | ⟨h3, h4⟩
    · exact .inl ⟨h3, h4.symm, h5⟩
    · exact .inr ⟨⟨_, h3⟩, h4⟩
  linkBad c1 c2 d h := ⟨rfl, h.1.trans (List.prefix_append _ _), h.2⟩

theorem stableLister_tracks (o : OutEnv) : Follows stableLister (sinkStableLister o) Printing (Broken o) where
  start c1 c2 h := ⟨rfl, rfl, h⟩
  stop c1 c2 h := ⟨rfl, rfl, h⟩
  stopBad c1 c2 h := ⟨rfl, h⟩
  enter c1 c2 d h := by
    obtain ⟨h1, h2⟩ := h
    refine ⟨true, rfl, ?_⟩
    have := emit_spec o (RPath.push c2.1 (lossy d.common.path)) h2
      [ascii "d ", dec d.common.mtime, ascii " ", RPath.push c2.1 (lossy d.common.path), [10]]
    simp only [sinkStableLister, stableLister, h1]
    revert this
    cases emit o (RPath.push c2.1 (lossy d.common.path)) c2.2
      [ascii "d ", dec d.common.mtime, ascii " ", RPath.push c2.1 (lossy d.common.path), [10]] with
    | mk c' r =>
      rintro (⟨rfl, h3, h4⟩ | ⟨rfl, h3⟩)
      · exact .inl ⟨rfl, h3.symm, by simpa using h4⟩
      · exact .inr ⟨⟨_, rfl⟩, by simpa [Broken] using h3⟩
  enterBad c1 c2 d h := ⟨true, rfl, h.1.trans (List.prefix_append _ _), h.2⟩
  exit c1 c2 d h := ⟨rfl, rfl, by simp only [stableLister, sinkStableLister]; exact ⟨by simp [h.1], h.2⟩⟩
  exitBad c1 c2 d h := ⟨rfl, h⟩
  file c1 c2 f h := by
    obtain ⟨h1, h2⟩ := h
    refine ⟨rfl, ?_⟩
    have := emit_spec o (RPath.push c2.1 (lossy f.common.path)) h2
      [ascii "f ", dec f.common.mtime, ascii " ", dec f.size, ascii " ", RPath.push c2.1 (lossy f.common.path), [10]]
    simp only [sinkStableLister, stableLister, h1]
    revert this
    cases emit o (RPath.push c2.1 (lossy f.common.path)) c2.2
      [ascii "f ", dec f.common.mtime, ascii " ", dec f.size, ascii " ", RPath.push c2.1 (lossy f.common.path), [10]] with
    | mk c' r =>
      rintro (⟨rfl, h3, h4⟩ | ⟨rfl, h3⟩)
      · exact .inl ⟨rfl, (congrArg RPath.pop h3).symm, by simpa using h4⟩
      · exact .inr ⟨⟨_, rfl⟩, by simpa [Broken] using h3⟩
  fileBad c1 c2 d h := ⟨rfl, h.1.trans (List.prefix_append _ _), h.2⟩
  link c1 c2 l h := by
    obtain ⟨h1, h2⟩ := h
    refine ⟨rfl, ?_⟩
    have := emit_spec o (RPath.push c2.1 (lossy l.common.path)) h2
      [ascii "l ", dec l.common.mtime, ascii " ", RPath.push c2.1 (lossy l.common.path), ascii "->", lossy l.target, [10]]
    simp only [sinkStableLister, stableLister, h1]
    revert this
    cases emit o (RPath.push c2.1 (lossy l.common.path)) c2.2
      [ascii "l ", dec l.common.mtime, ascii " ", RPath.push c2.1 (lossy l.common.path), ascii "->", lossy l.target, [10]] with
    | mk c' r =>
      rintro (⟨rfl, h3, h4⟩ | ⟨rfl, h3⟩)
      · exact .inl ⟨rfl, (congrArg RPath.pop h3).symm, by simpa using h4⟩
      · exact .inr ⟨⟨_, rfl⟩, by simpa [Broken] using h3⟩
  linkBad c1 c2 d h := ⟨rfl, h.1.trans (List.prefix_append _ _), h.2⟩

end Arx
