import Verif.Spec.Hostile
import Verif.Model.List
import Verif.Props.Extract2
/-!
# C57: reading archives that were not made by the creator
-/
namespace Arx

theorem bsearch_sound {cmp : Nat → Res Ordering} : ∀ (f l r m : Nat), bsearch cmp f l r = .ok (some m) →
    l ≤ m ∧ m < r ∧ cmp m = .ok .eq
  | 0, _, _, _, h => by cases h
  | f + 1, l, r, m, h => by
    unfold bsearch at h
    split at h
    · rename_i hlr
      simp only at h
      cases hc : cmp (l + (r - l) / 2) with
      | error e => rw [hc] at h; cases h
      | ok o =>
        rw [hc] at h
        cases o with
        | eq => cases h; exact ⟨by omega, by omega, hc⟩
        | lt => have := bsearch_sound f _ _ _ h; exact ⟨by omega, this.2⟩
        | gt => have := bsearch_sound f _ _ _ h; exact ⟨this.1, by omega, this.2.2⟩
    · cases h

theorem Archive.find_sound {a : Archive} {range : Range} {name : Bytes} {k : Nat} (h : a.find range name = .ok (some k)) :
    ∃ r, a.RowIn range (range.offset + k) r ∧ r.name = name := by
  obtain ⟨_, h2, h3⟩ := bsearch_sound _ _ _ _ h
  unfold Archive.compareName at h3
  cases hr : a.entries[range.offset + k]? with
  | none => rw [hr] at h3; cases h3
  | some r =>
    rw [hr] at h3
    simp only [Except.ok.injEq] at h3
    exact ⟨r, ⟨by omega, by omega, hr⟩, cmpBytes_eq.mp h3⟩

theorem tryFrom_dir {v : Nat} : EntryType.tryFrom v = some .dir ↔ v = 1 := by
  unfold EntryType.tryFrom
  split <;> simp_all

theorem Except.map_ok {ε α β : Type} {x : Except ε α} {f : α → β} {y : β} (h : x.map f = .ok y) : ∃ z, x = .ok z ∧ y = f z := by
  cases x with
  | error e => cases h
  | ok z => cases h; exact ⟨z, rfl, rfl⟩

theorem Archive.create_dir {a : Archive} {F L D : Type} {B : Builder F L D} {i : Nat} {r : RawEntry} {range : Range} {d : D}
    (hr : a.entries[i]? = some r) (h : a.create B i = .ok (.dir range d)) : r.IsDirOf range := by
  unfold Archive.create at h
  rw [hr] at h
  simp only at h
  cases ht : EntryType.tryFrom r.variant with
  | none => rw [ht] at h; cases h
  | some t =>
    rw [ht] at h
    cases t with
    | file => obtain ⟨z, _, e⟩ := Except.map_ok h; cases e
    | link => obtain ⟨z, _, e⟩ := Except.map_ok h; cases e
    | dir =>
      obtain ⟨z, _, e⟩ := Except.map_ok h
      cases e
      exact ⟨tryFrom_dir.mp ht, rfl⟩

theorem Archive.getLoop_sound {a : Archive} {F L D : Type} {B : Builder F L D} : ∀ (cs : List Bytes) (range : Range)
    (e : Entry F L D), a.getLoop B range cs = .ok e → ∃ i, a.RowAt range cs i ∧ a.create B i = .ok e
  | [], _, _, h => by cases h
  | c :: cs, range, e, h => by
    unfold Archive.getLoop at h
    cases hf : a.find range c with
    | error x => rw [hf] at h; cases h
    | ok o =>
      rw [hf] at h
      cases o with
      | none => cases h
      | some k =>
        obtain ⟨r, hin, rfl⟩ := Archive.find_sound hf
        simp only at h
        cases hc : a.create B (range.offset + k) with
        | error x => rw [hc] at h; cases h
        | ok y =>
          rw [hc] at h
          cases cs with
          | nil => cases h; exact ⟨_, .last hin, hc⟩
          | cons c' cs' =>
            cases y with
            | file f => cases h
            | link l => cases h
            | dir range' d =>
              obtain ⟨i, h1, h2⟩ := Archive.getLoop_sound (c' :: cs') range' e h
              exact ⟨i, .inner hin (Archive.create_dir hin.2.2 hc) h1, h2⟩

/-- **C57, lookups.** Whatever the table of the archive is — unsorted, with wrong ranges, made up — if
`get_entry` answers an entry for a path, that entry is a row that the names of the path lead to. -/
theorem C57_get_sound {a : Archive} {F L D : Type} {B : Builder F L D} {path : RPath} {e : Entry F L D}
    (h : a.getEntry B path = .ok e) : ∃ i, a.RowAt a.root (comps path) i ∧ a.create B i = .ok e :=
  Archive.getLoop_sound _ _ _ h

theorem Archive.find_no_crash (a : Archive) (range : Range) (name : Bytes) : a.find range name ≠ .error .panic := by
  have : ∀ (f l r : Nat), bsearch (fun i => a.compareName name (range.offset + i)) f l r ≠ .error .panic := by
    intro f
    induction f with
    | zero => intro l r h; cases h
    | succ f ih =>
      intro l r h
      unfold bsearch at h
      split at h
      · simp only at h
        cases hc : a.compareName name (range.offset + (l + (r - l) / 2)) with
        | error e =>
          rw [hc] at h
          unfold Archive.compareName at hc
          split at hc
          · cases hc; cases h
          · cases hc
        | ok o =>
          rw [hc] at h
          cases o with
          | eq => cases h
          | lt => exact ih _ _ h
          | gt => exact ih _ _ h
      · cases h
  exact this _ _ _

theorem commonCreate_crash {i : Nat} {r : RawEntry} (h : commonCreate i r = .error .panic) : r.parent ≠ 0 ∧ r.parent % 2 ^ 32 = 0 := by
  unfold commonCreate at h
  split at h
  · cases h
  · rename_i h0
    split at h
    · rename_i h1; exact ⟨h0, h1⟩
    · cases h

theorem Archive.create_crash {a : Archive} {i : Nat} (h : a.create fullBuilder i = .error .panic) :
    ∃ r, a.entries[i]? = some r ∧ r.parent ≠ 0 ∧ r.parent % 2 ^ 32 = 0 := by
  unfold Archive.create at h
  cases hr : a.entries[i]? with
  | none => rw [hr] at h; cases h
  | some r =>
    rw [hr] at h
    refine ⟨r, rfl, ?_⟩
    simp only at h
    have : ∀ {α β : Type} (f : CommonPart → α) (g : α → β), (((commonCreate i r).map f).map g) = .error .panic → commonCreate i r = .error .panic := by
      intro α β f g hh
      cases hc : commonCreate i r with
      | ok z => rw [hc] at hh; cases hh
      | error e => rw [hc] at hh; cases hh; rfl
    cases ht : EntryType.tryFrom r.variant with
    | none => rw [ht] at h; cases h
    | some t =>
      rw [ht] at h
      cases t <;> exact commonCreate_crash (this _ _ h)

/-- **C57, crashes.** Looking up a path in any table crashes only for a path without names, or when a row has
a parent number that is a positive multiple of 2^32 (which no created archive has). -/
theorem C57_get_no_crash {a : Archive} {path : RPath} (hp : comps path ≠ [])
    (hrow : ∀ (i : Nat) (r : RawEntry), a.entries[i]? = some r → r.parent = 0 ∨ r.parent % 2 ^ 32 ≠ 0) :
    a.getEntry fullBuilder path ≠ .error .panic := by
  have key : ∀ (cs : List Bytes) (range : Range), cs ≠ [] → a.getLoop fullBuilder range cs ≠ .error .panic := by
    intro cs
    induction cs with
    | nil => intro _ h; exact absurd rfl h
    | cons c cs ih =>
      intro range _ h
      unfold Archive.getLoop at h
      cases hf : a.find range c with
      | error x => rw [hf] at h; cases h; exact a.find_no_crash _ _ hf
      | ok o =>
        rw [hf] at h
        cases o with
        | none => cases h
        | some k =>
          simp only at h
          cases hc : a.create fullBuilder (range.offset + k) with
          | error x =>
            rw [hc] at h; cases h
            obtain ⟨r, h1, h2, h3⟩ := Archive.create_crash hc
            rcases hrow _ _ h1 with h4 | h4
            · exact h2 h4
            · exact h4 h3
          | ok y =>
            rw [hc] at h
            cases cs with
            | nil => cases h
            | cons c' cs' =>
              cases y with
              | file f => cases h
              | link l => cases h
              | dir range' d => exact ih range' (by simp) h
  exact key _ _ hp

/-- a row of a made-up table -/
def row (name : String) (variant : Nat) (parent first nb : Nat) : RawEntry :=
  { name := ascii name, parent := parent, owner := 0, group := 0, rights := 0, mtime := 0, variant := variant,
    firstChild := first, nbChildren := nb }

/-- two directories that share their only child -/
def shareTable : Archive := ⟨[row "a" 1 0 2 1, row "b" 1 0 2 1, row "x" 0 1 0 0], ⟨0, 2⟩⟩

example : (shareTable.getEntry fullBuilder (ascii "b/x")).isOk = true ∧ comps (ascii "b/x") ≠ [] ∧
    (∀ (i : Nat) (r : RawEntry), shareTable.entries[i]? = some r → r.parent = 0 ∨ r.parent % 2 ^ 32 ≠ 0) ∧ shareTable.RowAt shareTable.root [ascii "b", ascii "x"] 2 := by
  refine ⟨by decide, by decide, ?_, ?_⟩
  · intro i r h
    match i with
    | 0 => cases h; decide
    | 1 => cases h; decide
    | 2 => cases h; decide
    | n + 3 => simp [shareTable] at h
  · exact .inner (range' := ⟨2, 1⟩) (i := 1) (r := row "b" 1 0 2 1) ⟨by decide, by decide, rfl⟩ ⟨rfl, by decide⟩
      (.last (i := 2) (r := row "x" 0 1 0 0) ⟨by decide, by decide, rfl⟩)

/-! ## Walks -/

theorem forEach_ne {C X E : Type} {body : C → X → C × Except E Unit} {e : E} :
    ∀ (l : List X) (c : C), (∀ c x, x ∈ l → (body c x).2 ≠ .error e) → (forEach body c l).2 ≠ .error e
  | [], _, _ => by simp [forEach]
  | x :: xs, c, h => by
    have h1 := h c x (by simp)
    simp only [forEach]
    revert h1
    cases body c x with
    | mk c' r =>
      intro h1
      cases r with
      | error y => simpa using h1
      | ok u => exact forEach_ne xs c' (fun c y hy => h c y (by simp [hy]))

theorem liftOp_ne_depth {E C α : Type} (x : C × Except E α) : (liftOp x).2 ≠ .error .depth := by
  obtain ⟨c, r⟩ := x; cases r <;> simp [liftOp]

theorem Archive.walkRange_depth {a : Archive} (hfw : a.Forward) {E C F L D : Type} (B : Builder F L D) (op : Operator E C F L D) :
    ∀ (f k : Nat) (range : Range) (c : C), a.entries.length < f + k → 0 < f → (range.count = 0 ∨ k ≤ range.offset) →
      (a.walkRange B op f range c).2 ≠ .error .depth := by
  intro f
  induction f with
  | zero => intro k range c h1 h0; omega
  | succ f ih =>
    intro k range c h1 _ h2
    unfold Archive.walkRange
    apply forEach_ne
    intro c e he
    unfold Archive.readRange at he
    obtain ⟨i, hi, rfl⟩ := List.mem_map.mp he
    rw [List.mem_range'_1] at hi
    rcases h2 with h2 | h2
    · omega
    · cases hc : a.create B i with
      | error x => simp [walkEntry]
      | ok y =>
        cases y with
        | file x => exact liftOp_ne_depth _
        | link x => exact liftOp_ne_depth _
        | dir range' d =>
          have hlt : i < a.entries.length := by
            refine Classical.byContradiction fun hn => ?_
            have : a.entries[i]? = none := List.getElem?_eq_none (by omega)
            rw [Archive.create, this] at hc
            cases hc
          have hr : a.entries[i]? = some a.entries[i] := List.getElem?_eq_getElem hlt
          have hf := hfw i _ range' hr (Archive.create_dir hr hc)
          simp only [walkEntry]
          cases op.onEnter c d with
          | mk c1 r1 =>
            cases r1 with
            | error x => simp
            | ok b =>
              simp only
              have key : (if b = true then a.walkRange B op f range' c1 else (c1, .ok ())).2 ≠ .error .depth := by
                split
                · exact ih (k + 1) range' c1 (by omega) (by omega) (by rcases hf with h | h; exact .inl h; exact .inr (by omega))
                · simp
              revert key
              cases (if b = true then a.walkRange B op f range' c1 else (c1, .ok ())) with
              | mk c2 r2 =>
                intro key
                cases r2 with
                | error x => simpa using key
                | ok u => exact liftOp_ne_depth _

/-- **C57, termination.** Walking (listing, extracting, ...) any table in which the children of every
directory come after it never recurses deeper than the table has rows: it ends. -/
theorem C57_walk_ends {a : Archive} (hfw : a.Forward) {E C F L D : Type} (B : Builder F L D) (op : Operator E C F L D)
    (depth : Nat) (hd : a.entries.length < depth) (range : Range) (c : C) :
    (a.walkFrom B op depth range c).2 ≠ .error .depth := by
  unfold Archive.walkFrom
  cases op.onStart c with
  | mk c1 r1 =>
    cases r1 with
    | error x => simp
    | ok u =>
      simp only
      have := Archive.walkRange_depth hfw B op depth 0 range c1 (by omega) (by omega) (.inr (by omega))
      revert this
      cases a.walkRange B op depth range c1 with
      | mk c2 r2 =>
        intro this
        cases r2 with
        | error x => simpa using this
        | ok u => exact liftOp_ne_depth _

theorem forEach_not_ok {C X E : Type} {body : C → X → C × Except E Unit} {x : X} (hb : ∀ c, (body c x).2 ≠ .ok ()) :
    ∀ (l : List X) (c : C), x ∈ l → (forEach body c l).2 ≠ .ok ()
  | [], _, h => by cases h
  | y :: ys, c, h => by
    simp only [forEach]
    rcases List.mem_cons.mp h with rfl | h
    · have := hb c
      revert this
      cases body c x with
      | mk c' r =>
        intro this
        cases r with
        | error e => simp
        | ok u => exact absurd rfl this
    · cases body c y with
      | mk c' r =>
        cases r with
        | error e => simp
        | ok u => exact forEach_not_ok hb ys c' h

/-- **C57, cycles.** If a directory that lies in the walked range (or in a directory of it, and so on) contains
itself, no walk that enters every directory succeeds, however deep it may go: the program does not end, until
its stack is exhausted (or reading a row fails). -/
theorem C57_walk_cycle {a : Archive} {E C F L D : Type} (B : Builder F L D) (op : Operator E C F L D)
    (henter : ∀ c d, (op.onEnter c d).2 = .ok true) {range : Range} {i j : Nat} {r : RawEntry}
    (hin : a.RowIn range j r) (hj : j = i ∨ a.Contains j i) (hcyc : a.Contains i i) (depth : Nat) (c : C) :
    (a.walkFrom B op depth range c).2 ≠ .ok () := by
  have key : ∀ (f j : Nat) (r : RawEntry) (range : Range) (c : C), a.RowIn range j r → a.Contains j i →
      (a.walkRange B op f range c).2 ≠ .ok () := by
    intro f
    induction f with
    | zero => intro j r range c _ _; simp [Archive.walkRange]
    | succ f ih =>
      intro j r range c hin hj
      obtain ⟨rj, range', k, rk, h1, h2, h3, h4⟩ : ∃ rj range' k rk, a.entries[j]? = some rj ∧ rj.IsDirOf range' ∧
          a.RowIn range' k rk ∧ a.Contains k i := by
        cases hj with
        | child h1 h2 h3 => exact ⟨_, _, _, _, h1, h2, h3, hcyc⟩
        | deep h1 h2 h3 h4 => exact ⟨_, _, _, _, h1, h2, h3, h4⟩
      unfold Archive.walkRange
      refine forEach_not_ok (x := a.create B j) ?_ _ _ ?_
      · intro c
        cases hc : a.create B j with
        | error x => simp [walkEntry]
        | ok y =>
          obtain ⟨d, rfl⟩ : ∃ d, y = .dir range' d := by
            unfold Archive.create at hc
            rw [h1] at hc
            simp only [tryFrom_dir.mpr h2.1] at hc
            obtain ⟨z, _, e⟩ := Except.map_ok hc
            exact ⟨z, by rw [e, h2.2]⟩
          simp only [walkEntry]
          have he := henter c d
          revert he
          cases op.onEnter c d with
          | mk c1 r1 =>
            intro he
            simp only at he
            subst he
            simp only [if_true]
            have := ih k rk range' c1 h3 h4
            revert this
            cases a.walkRange B op f range' c1 with
            | mk c2 r2 =>
              intro this
              cases r2 with
              | error x => simp
              | ok u => exact absurd rfl this
      · unfold Archive.readRange
        refine List.mem_map.mpr ⟨j, ?_, rfl⟩
        rw [List.mem_range'_1]
        exact ⟨hin.1, hin.2.1⟩
  have hj' : a.Contains j i := by
    rcases hj with rfl | h
    · exact hcyc
    · exact h
  unfold Archive.walkFrom
  cases op.onStart c with
  | mk c1 r1 =>
    cases r1 with
    | error x => simp
    | ok u =>
      simp only
      have := key depth j r range c1 hin hj'
      revert this
      cases a.walkRange B op depth range c1 with
      | mk c2 r2 =>
        intro this
        cases r2 with
        | error x => simp
        | ok u => exact absurd rfl this

theorem Archive.Contains.trans {a : Archive} {i j k : Nat} (h : a.Contains i j) (h' : a.Contains j k) : a.Contains i k := by
  induction h with
  | child h1 h2 h3 => exact .deep h1 h2 h3 h'
  | deep h1 h2 h3 _ ih => exact .deep h1 h2 h3 (ih h')

theorem walkRange_noLoop {a : Archive} {E C F L D : Type} (B : Builder F L D) (op : Operator E C F L D) :
    ∀ (f : Nat) (vs : List Nat) (range : Range) (c : C), vs.Nodup → (∀ v ∈ vs, v < a.entries.length) →
      (∀ v ∈ vs, ∀ (j : Nat) (r : RawEntry), a.RowIn range j r → a.Contains v j) → a.NoLoop range → a.entries.length < f + vs.length →
      (a.walkRange B op f range c).2 ≠ .error .depth := by
  intro f
  induction f with
  | zero =>
    intro vs range c hn hlt _ _ h1
    have h2 : vs.length ≤ (List.range a.entries.length).length :=
      List.Nodup.length_le_of_subset hn (fun v hv => List.mem_range.mpr (hlt v hv))
    rw [List.length_range] at h2
    omega
  | succ f ih =>
    intro vs range c hn hlt hvs hloop h1
    unfold Archive.walkRange
    apply forEach_ne
    intro c e he
    unfold Archive.readRange at he
    obtain ⟨i, hi, rfl⟩ := List.mem_map.mp he
    rw [List.mem_range'_1] at hi
    cases hc : a.create B i with
    | error x => simp [walkEntry]
    | ok y =>
      cases y with
      | file x => exact liftOp_ne_depth _
      | link x => exact liftOp_ne_depth _
      | dir range' d =>
        have hil : i < a.entries.length := by
          refine Classical.byContradiction fun hn => ?_
          have : a.entries[i]? = none := List.getElem?_eq_none (by omega)
          rw [Archive.create, this] at hc
          cases hc
        have hr : a.entries[i]? = some a.entries[i] := List.getElem?_eq_getElem hil
        have hd := Archive.create_dir hr hc
        have hin : a.RowIn range i a.entries[i] := ⟨hi.1, hi.2, hr⟩
        have hself : ¬ a.Contains i i := hloop i i _ hin (.inl rfl)
        simp only [walkEntry]
        cases op.onEnter c d with
        | mk c1 r1 =>
          cases r1 with
          | error x => simp
          | ok b =>
            simp only
            have key : (if b = true then a.walkRange B op f range' c1 else (c1, .ok ())).2 ≠ .error .depth := by
              split
              · refine ih (i :: vs) range' c1 (List.nodup_cons.mpr ⟨fun h => hself (hvs i h i _ hin), hn⟩) ?_ ?_ ?_ (by simp; omega)
                · intro v hv
                  rcases List.mem_cons.mp hv with rfl | hv
                  · exact hil
                  · exact hlt v hv
                · intro v hv j r hj
                  have hij : a.Contains i j := .child hr hd hj
                  rcases List.mem_cons.mp hv with rfl | hv
                  · exact hij
                  · exact (hvs v hv i _ hin).trans hij
                · intro j k r hj hjk
                  have hij : a.Contains i j := .child hr hd hj
                  refine hloop i k _ hin (.inr ?_)
                  rcases hjk with rfl | hjk
                  · exact hij
                  · exact hij.trans hjk
              · simp
            revert key
            cases (if b = true then a.walkRange B op f range' c1 else (c1, .ok ())) with
            | mk c2 r2 =>
              intro key
              cases r2 with
              | error x => simpa using key
              | ok u => exact liftOp_ne_depth _

/-- **C57, termination, for every table.** If no directory that lies in the walked range (or in a directory of it, and so on) contains
itself, no walk recurses deeper than the table has rows: it ends. -/
theorem C57_walk_ends_noLoop {a : Archive} {range : Range} (hloop : a.NoLoop range) {E C F L D : Type} (B : Builder F L D)
    (op : Operator E C F L D) (depth : Nat) (hd : a.entries.length < depth) (c : C) :
    (a.walkFrom B op depth range c).2 ≠ .error .depth := by
  unfold Archive.walkFrom
  cases op.onStart c with
  | mk c1 r1 =>
    cases r1 with
    | error x => simp
    | ok u =>
      simp only
      have := walkRange_noLoop B op depth [] range c1 .nil (by simp) (by simp) hloop (by simpa using hd)
      revert this
      cases a.walkRange B op depth range c1 with
      | mk c2 r2 =>
        intro this
        cases r2 with
        | error x => simpa using this
        | ok u => exact liftOp_ne_depth _

theorem forEach_only {C X : Type} {E : Type} {body : C → X → C × Except (WErr E) Unit} : ∀ (l : List X) (c : C),
    (∀ c, ∀ y ∈ l, (body c y).2 = .ok () ∨ (body c y).2 = .error .depth) → (forEach body c l).2 = .ok () ∨ (forEach body c l).2 = .error .depth
  | [], _, _ => .inl rfl
  | x :: xs, c, h => by
    have h1 := h c x (by simp)
    simp only [forEach]
    revert h1
    cases body c x with
    | mk c' r =>
      intro h1
      cases r with
      | error y => simpa using h1
      | ok u => exact forEach_only xs c' (fun c y hy => h c y (by simp [hy]))

/-- An operator that enters every directory and never fails. -/
structure Operator.Eager {E C F L D : Type} (op : Operator E C F L D) : Prop where
  start : ∀ c, (op.onStart c).2 = .ok ()
  stop : ∀ c, (op.onStop c).2 = .ok ()
  enter : ∀ c d, (op.onEnter c d).2 = .ok true
  exit : ∀ c d, (op.onExit c d).2 = .ok ()
  file : ∀ c x, (op.onFile c x).2 = .ok ()
  link : ∀ c x, (op.onLink c x).2 = .ok ()

theorem walkRange_eager {a : Archive} {E C F L D : Type} {B : Builder F L D} {op : Operator E C F L D} (hop : op.Eager) :
    ∀ (f : Nat) (range : Range) (c : C), (∀ i, a.Met range i → ∃ e, a.create B i = .ok e) →
      (a.walkRange B op f range c).2 = .ok () ∨ (a.walkRange B op f range c).2 = .error .depth := by
  intro f
  induction f with
  | zero => intro range c _; exact .inr rfl
  | succ f ih =>
    intro range c hread
    unfold Archive.walkRange
    apply forEach_only
    intro c e he
    unfold Archive.readRange at he
    obtain ⟨i, hi, rfl⟩ := List.mem_map.mp he
    rw [List.mem_range'_1] at hi
    obtain ⟨y, hy⟩ := hread i (.here hi.1 hi.2)
    rw [hy]
    cases y with
    | file x =>
      left
      have := hop.file c x
      simp only [walkEntry]
      revert this
      cases op.onFile c x with | mk c' r => intro h; simp only at h; subst h; rfl
    | link x =>
      left
      have := hop.link c x
      simp only [walkEntry]
      revert this
      cases op.onLink c x with | mk c' r => intro h; simp only at h; subst h; rfl
    | dir range' d =>
      have hil : i < a.entries.length := by
        refine Classical.byContradiction fun hn => ?_
        have : a.entries[i]? = none := List.getElem?_eq_none (by omega)
        rw [Archive.create, this] at hy
        cases hy
      have hr : a.entries[i]? = some a.entries[i] := List.getElem?_eq_getElem hil
      have hd := Archive.create_dir hr hy
      simp only [walkEntry]
      have he := hop.enter c d
      revert he
      cases op.onEnter c d with
      | mk c1 r1 =>
        intro he
        simp only at he
        subst he
        simp only [if_true]
        have := ih range' c1 (fun k hk => hread k (.deeper ⟨hi.1, hi.2, hr⟩ hd hk))
        revert this
        cases a.walkRange B op f range' c1 with
        | mk c2 r2 =>
          intro this
          cases r2 with
          | error x => right; simpa using this
          | ok u =>
            left
            have := hop.exit c2 d
            revert this
            cases h : op.onExit c2 d with | mk c' r => intro h'; simp only at h'; subst h'; simp [liftOp, h]

/-- **C57, termination, exactly.** A walk that enters every directory, whose operator never fails and which can read every row it meets,
ends if and only if no directory that it meets contains itself; it then never goes deeper than the table has rows. -/
theorem C57_walk_ends_iff {a : Archive} {range : Range} {E C F L D : Type} {B : Builder F L D} {op : Operator E C F L D} (hop : op.Eager)
    (hread : ∀ i, a.Met range i → ∃ e, a.create B i = .ok e) (c : C) :
    ((∃ depth, (a.walkFrom B op depth range c).2 = .ok ()) ↔ a.NoLoop range) ∧
    (a.NoLoop range → ∀ depth, a.entries.length < depth → (a.walkFrom B op depth range c).2 = .ok ()) := by
  have fwd : a.NoLoop range → ∀ depth, a.entries.length < depth → (a.walkFrom B op depth range c).2 = .ok () := by
    intro hl depth hd
    have hne := C57_walk_ends_noLoop hl B op depth hd c
    revert hne
    unfold Archive.walkFrom
    have hs := hop.start c
    revert hs
    cases op.onStart c with
    | mk c1 r1 =>
      intro hs
      simp only at hs
      subst hs
      simp only
      have := walkRange_eager hop depth range c1 hread
      revert this
      cases a.walkRange B op depth range c1 with
      | mk c2 r2 =>
        intro this
        simp only at this
        rcases this with rfl | rfl
        · have := hop.stop c2
          revert this
          simp only
          cases op.onStop c2 with | mk c' r => intro h' _; simp only at h'; subst h'; rfl
        · intro h; exact absurd rfl h
  refine ⟨⟨?_, fun hl => ⟨_, fwd hl _ (Nat.lt_succ_self _)⟩⟩, fwd⟩
  rintro ⟨depth, h⟩ j i r hj hji hcyc
  exact C57_walk_cycle B op hop.enter hj hji hcyc depth c h

/-- Created archives are so: nothing above is about them. -/
theorem C57_created_forward {rs : List AddReq} {a : Archive} (h : Written rs a) : a.Forward := by
  obtain ⟨m, P, hm, G⟩ := h.good
  intro i r range hr hd
  have hlt : i < P.length := by rw [← G.len]; exact (List.getElem?_eq_some_iff.mp hr).1
  have hp := List.getElem?_eq_getElem hlt
  obtain ⟨r', n, h1, h2, h3⟩ := G.row_exists hlt
  rw [hr] at h1; cases h1
  have hk : n.kind = .dir := by
    obtain ⟨_, _, _, _, _, _, h4⟩ := h3
    cases hk : n.kind with
    | dir => rfl
    | file s c => rw [hk] at h4; have := hd.1; rw [h4.1] at this; cases this
    | link t => rw [hk] at h4; have := hd.1; rw [h4.1] at this; cases this
  obtain ⟨h5, _⟩ := G.rowRange hp hr h2 hk
  rw [hd.2]
  by_cases h0 : (rowRange r).count = 0
  · exact .inl h0
  · obtain ⟨c, hc⟩ := (h5 (rowRange r).offset).mp ⟨Nat.le_refl _, by omega⟩
    exact .inr ((G.lt_iff hp hc).mpr (.inl (by simp)))

example : shareTable.Forward ∧ (listCmd shareTable none 4) = (ascii "a\na/x\nb\nb/x\n", true) := by
  refine ⟨?_, by decide⟩
  intro i r range h hd
  match i with
  | 0 => cases h; right; rw [hd.2]; decide
  | 1 => cases h; right; rw [hd.2]; decide
  | 2 => cases h; cases hd.1
  | n + 3 => simp [shareTable] at h

/-- a directory that is its own only child -/
def loopTable : Archive := ⟨[row "a" 1 0 0 1], ⟨0, 1⟩⟩

theorem loopTable_contains : loopTable.Contains 0 0 :=
  .child (r := row "a" 1 0 0 1) (r' := row "a" 1 0 0 1) (range := ⟨0, 1⟩) rfl ⟨rfl, by decide⟩ ⟨by decide, by decide, rfl⟩

/-- **C57 is false for tables with a cycle**: `arx list` of a one-row table does not end; allowed to go `depth`
levels deep it has written at least `depth` bytes. -/
theorem C57_counterexample (depth : Nat) : (listCmd loopTable none depth).2 = false ∧ depth ≤ (listCmd loopTable none depth).1.length := by
  have h1 := C57_walk_cycle (a := loopTable) lightBuilder lister (fun _ _ => rfl) (range := loopTable.root) (i := 0) (j := 0)
    (r := row "a" 1 0 0 1) ⟨by decide, by decide, rfl⟩ (.inl rfl) loopTable_contains depth ([], [])
  have h2 : ∀ (f : Nat) (c : LightPath × Bytes), f ≤ (loopTable.walkRange lightBuilder lister f ⟨0, 1⟩ c).1.2.length - c.2.length ∧
      c.2.length ≤ (loopTable.walkRange lightBuilder lister f ⟨0, 1⟩ c).1.2.length := by
    intro f
    induction f with
    | zero => intro c; simp [Archive.walkRange]
    | succ f ih =>
      intro c
      have hr : loopTable.readRange lightBuilder ⟨0, 1⟩ = [.ok (.dir ⟨0, 1⟩ (ascii "a"))] := by decide
      unfold Archive.walkRange
      rw [hr]
      have ih := ih (c.1.push (ascii "a"), c.2 ++ (LightPath.push c.1 (ascii "a")).println)
      have hl : 0 < (LightPath.push c.1 (ascii "a")).println.length := by simp [LightPath.println, LightPath.println2]
      simp only [forEach, walkEntry, lister, if_true]
      revert ih
      change _ → _
      simp only [List.length_append]
      cases hw : loopTable.walkRange lightBuilder lister f ⟨0, 1⟩ (LightPath.push c.1 (ascii "a"), c.2 ++ (LightPath.push c.1 (ascii "a")).println) with
      | mk c2 r2 =>
        intro ih
        simp only [lister] at hw
        rw [hw]
        simp only at ih
        cases r2 with
        | error x => simp only; omega
        | ok u => simp only [liftOp, forEach]; omega
  simp only [listCmd]
  refine ⟨?_, ?_⟩
  · unfold Archive.walk
    revert h1
    cases loopTable.walkFrom lightBuilder lister depth loopTable.root ([], []) with
    | mk c r =>
      intro h1
      cases r with
      | error e => rfl
      | ok u => exact absurd rfl h1
  · have := h2 depth ([], [])
    unfold Archive.walk Archive.walkFrom
    have e1 : lister.onStart ([], []) = (([], []), .ok ()) := rfl
    rw [e1]
    simp only [loopTable] at *
    revert this
    cases Archive.walkRange _ lightBuilder lister depth ⟨0, 1⟩ ([], []) with
    | mk c r =>
      intro this
      cases r with
      | error e => simpa using this.1
      | ok u => simpa [liftOp, lister] using this.1

/-- a table whose only directory comes after its child: not `Forward`, but without a loop -/
def backTable : Archive := ⟨[row "f" 1 0 0 0, row "d" 1 0 0 1], ⟨1, 1⟩⟩

theorem lister_eager : lister.Eager := ⟨fun _ => rfl, fun _ => rfl, fun _ _ => rfl, fun _ _ => rfl, fun _ _ => rfl, fun _ _ => rfl⟩

theorem backTable_noLoop : backTable.NoLoop backTable.root ∧ ¬ backTable.Forward := by
  have child : ∀ {i j : Nat} {r r' : RawEntry} {range : Range}, backTable.entries[i]? = some r → r.IsDirOf range →
      backTable.RowIn range j r' → i = 1 ∧ j = 0 := by
    intro i j r r' range hr hd hj
    match i, hr with
    | 0, hr =>
      have : r = row "f" 1 0 0 0 := (Option.some.inj hr).symm
      subst this
      have : range = ⟨0, 0⟩ := hd.2.trans (by decide)
      subst this
      have := hj.2.1
      have := hj.1
      simp at *
    | 1, hr =>
      have : r = row "d" 1 0 0 1 := (Option.some.inj hr).symm
      subst this
      have : range = ⟨0, 1⟩ := hd.2.trans (by decide)
      subst this
      have := hj.2.1
      simp at this
      exact ⟨rfl, this⟩
    | n + 2, hr => simp [backTable] at hr
  have hc : ∀ {i j : Nat}, backTable.Contains i j → i = 1 ∧ j = 0 := by
    intro i j h
    induction h with
    | child h1 h2 h3 => exact child h1 h2 h3
    | deep h1 h2 h3 _ ih =>
      have := (child h1 h2 h3).2
      omega
  refine ⟨fun j i r _ _ h => ?_, fun h => ?_⟩
  · have := hc h; omega
  · have := h 1 (row "d" 1 0 0 1) ⟨0, 1⟩ rfl ⟨rfl, by decide⟩
    simp at this

/-- the hypotheses of `C57_walk_ends_iff` are met, with both answers: listing `backTable` ends, listing `loopTable` does not -/
example : (∃ depth, (backTable.walkFrom lightBuilder lister depth backTable.root ([], [])).2 = .ok ()) ∧
    ¬ ∃ depth, (loopTable.walkFrom lightBuilder lister depth loopTable.root ([], [])).2 = .ok () := by
  constructor
  · refine (C57_walk_ends_iff lister_eager ?_ _).1.mpr backTable_noLoop.1
    have : ∀ i, i < 2 → ∃ e, backTable.create lightBuilder i = .ok e := by
      intro i hi
      match i, hi with
      | 0, _ => exact ⟨_, rfl⟩
      | 1, _ => exact ⟨_, rfl⟩
    intro i hi
    refine this i ?_
    have : ∀ {range i}, backTable.Met range i → range.offset + range.count ≤ 2 → i < 2 := by
      intro range i h
      induction h with
      | here h1 h2 => intro h; omega
      | @deeper range range' j i r h1 h2 _ ih =>
        intro _
        refine ih ?_
        match j, h1.2.2 with
        | 0, hr =>
          have : r = row "f" 1 0 0 0 := (Option.some.inj hr).symm
          subst this
          rw [h2.2]; decide
        | 1, hr =>
          have : r = row "d" 1 0 0 1 := (Option.some.inj hr).symm
          subst this
          rw [h2.2]; decide
        | n + 2, hr => simp [backTable] at hr
    exact this hi (by decide)
  · rw [(C57_walk_ends_iff lister_eager ?_ _).1]
    · exact fun h => h 0 0 _ ⟨by decide, by decide, rfl⟩ (.inl rfl) loopTable_contains
    · have : ∀ {range i}, loopTable.Met range i → range = ⟨0, 1⟩ → i = 0 := by
        intro range i h
        induction h with
        | here h1 h2 => rintro rfl; simp at h2; exact h2
        | @deeper range range' j i r h1 h2 _ ih =>
          rintro rfl
          refine ih ?_
          have hj : j = 0 := by have := h1.2.1; simpa using this
          subst hj
          have : r = row "a" 1 0 0 1 := (Option.some.inj h1.2.2).symm
          subst this
          exact h2.2.trans (by decide)
      intro i hi
      have := this hi rfl
      subst this
      exact ⟨_, rfl⟩

/-- a link `x` to `/d`, and a directory also named `x` with a file `f` in it -/
def twinTable : Archive :=
  ⟨[{ row "x" 2 0 0 0 with target := ascii "/d" }, row "x" 1 0 2 1, { row "f" 0 2 0 0 with content := ⟨1, 0⟩, size := 3 }], ⟨0, 2⟩⟩

/-- Extracting an archive with two entries of the same name (which the creator never makes) to the empty
directory `/t` can write outside of it, though no name is special: the second entry goes through the link
that the first has left. -/
theorem C57_extract_counterexample :
    let r := XCfg.extractRange ⟨twinTable, exBytes, [], true, [ascii "t"], .error, quiet⟩ 5 twinTable.root
      (mkFs [([ascii "d"], .dir 0)] (fun _ => ⟨[], 0⟩) 0) finish
    twinTable.Forward ∧ r.2 = .ok ∧ r.1.finished ∧ r.1.fs.nodes [ascii "d", ascii "f"] = some (.file 0) := by
  refine ⟨?_, by decide +kernel, by decide +kernel, by decide +kernel⟩
  intro i r range h hd
  match i with
  | 0 => cases h; cases hd.1
  | 1 => cases h; right; rw [hd.2]; decide
  | 2 => cases h; cases hd.1
  | n + 3 => simp [twinTable] at h

end Arx
