import Verif.Spec.Container
import Verif.Props.Creation
/-!
# C66: opening an archive
-/
namespace Arx

/-- Values for a row are found exactly if no property lacks one (else jubako panics): this is why `C66_created_opens` says something about the
values that are given. -/
theorem pick_iff (values : List (PropName × Value)) (l : List (PropName × PropKind)) :
    (pick values l).isSome = true ↔ ∀ p ∈ l, ∃ v, values.lookup p.1 = some v := by
  induction l with
  | nil => simp [pick]
  | cons x l ih =>
    obtain ⟨p, k⟩ := x
    rw [pick]
    constructor
    · intro h y hy
      cases h1 : values.lookup p with
      | none => rw [h1] at h; cases h
      | some v =>
        cases h2 : pick values l with
        | none => rw [h1, h2] at h; cases h
        | some vs =>
          rw [h2] at ih
          rcases List.mem_cons.mp hy with rfl | hy
          · exact ⟨v, h1⟩
          · exact ih.mp rfl y hy
    · intro h
      obtain ⟨v, h1⟩ := h (p, k) (by simp)
      obtain ⟨vs, h2⟩ := Option.isSome_iff_exists.mp (ih.mpr (fun y hy => h y (by simp [hy])))
      rw [h1, h2]; rfl

theorem pick_common (st : Creator) (order : List Nat) (id : Nat) (e : CEntry) :
    pick (valuesOf st order id e) declCommon =
      some [.array e.name, .uint (parentKey order e.parent), .uint e.info.owner, .uint e.info.group, .uint e.info.rights,
        .uint e.info.mtime] := by
  rfl

/-- where the properties of an arx archive are -/
theorem arxSchema_props : AllProps.new arxSchema = .ok ⟨0, 1, 2, 3, 4, 5, 0, 1, 0, 1, 0⟩ := by decide +kernel

/-- One row: it can be written, and reading its properties by name gives the values that were stored. -/
theorem newFromSchema_row (st : Creator) (order : List Nat) (id : Nat) (e : CEntry) :
    ∃ r, newFromSchema (typeOf e) (valuesOf st order id e) = some r ∧
      AllProps.row ⟨0, 1, 2, 3, 4, 5, 0, 1, 0, 1, 0⟩ r = rawOf st order id e := by
  have hf : declVariants.findIdx? (fun v => v.1.text == EntryType.text .file) = some 0 := by decide +kernel
  have hd : declVariants.findIdx? (fun v => v.1.text == EntryType.text .dir) = some 1 := by decide +kernel
  have hl : declVariants.findIdx? (fun v => v.1.text == EntryType.text .link) = some 2 := by decide +kernel
  have lf : declVariants.lookup .file = some [(.content, .content), (.size, .uint)] := by decide +kernel
  have ld : declVariants.lookup .dir = some [(.firstChild, .uint), (.nbChildren, .uint)] := by decide +kernel
  have ll : declVariants.lookup .link = some [(.target, .array)] := by decide +kernel
  unfold newFromSchema
  rw [pick_common]
  obtain ⟨name, parent, info, kind⟩ := e
  cases kind with
  | dir =>
    simp only [typeOf]
    rw [hd, ld]
    exact ⟨_, rfl, rfl⟩
  | file size content =>
    simp only [typeOf]
    rw [hf, lf]
    exact ⟨_, rfl, rfl⟩
  | link target =>
    simp only [typeOf]
    rw [hl, ll]
    exact ⟨_, rfl, rfl⟩

theorem rowsOf_rows (st : Creator) (order : List Nat) : ∀ l : List Nat,
    ∃ rows, rowsOf st order l = some rows ∧
      rows.map (AllProps.row ⟨0, 1, 2, 3, 4, 5, 0, 1, 0, 1, 0⟩) =
        l.filterMap (fun id => (st.store[id]?).map (rawOf st order id))
  | [] => ⟨[], rfl, rfl⟩
  | id :: l => by
    obtain ⟨rows, h1, h2⟩ := rowsOf_rows st order l
    unfold rowsOf
    cases h : st.store[id]? with
    | none => exact ⟨rows, by simpa using h1, by simp [h, h2]⟩
    | some e =>
      obtain ⟨r, g1, g2⟩ := newFromSchema_row st order id e
      refine ⟨r :: rows, ?_, ?_⟩
      · simp only [g1, h1]
      · simp [h, g2, h2]

/-- **C66, what was created opens.** Whatever was added: the container that is written opens, for reading and for
mounting, as the archive of all the other theorems (`Written`): every attribute is read from where it was stored. -/
theorem C66_created_opens {rs : List AddReq} {st : Creator} {o : List Nat} (h : Creator.new.run rs = some st)
    (ho : IsLayout st o) (hs : st.store.length < 2 ^ 32) :
    ∃ c a, writeContainer st o = some c ∧ c.openArx = .ok a ∧ c.openMount = .ok a ∧ Written rs a := by
  obtain ⟨rows, h1, h2⟩ := rowsOf_rows st o o
  refine ⟨⟨[⟨arxSchema, rows⟩], [⟨"arx_entries", 0, ⟨0, asU32 st.store.length⟩⟩, ⟨"arx_root", 0, ⟨0, st.entryCount⟩⟩]⟩,
    writeArchive st o, ?_, ?_, ?_, st, o, h, ho, rfl, hs⟩
  · unfold writeContainer; rw [h1]; rfl
  all_goals
    have hr : (Container.mk [⟨arxSchema, rows⟩] [⟨"arx_entries", 0, ⟨0, asU32 st.store.length⟩⟩, ⟨"arx_root", 0, ⟨0, st.entryCount⟩⟩]).openArx =
        .ok (writeArchive st o) := by
      simp [Container.openArx, Container.index, arxSchema_props, bind, Except.bind, pure, Except.pure, h2, writeArchive]
  · exact hr
  · unfold Container.openMount
    rw [hr]
    have hl : rows.length = st.store.length := by
      have := congrArg List.length h2
      rw [List.length_map] at this
      rw [this]
      have hp := ho.1
      have : (o.filterMap (fun id => (st.store[id]?).map (rawOf st o id))).length = o.length := by
        rw [List.length_filterMap_eq_countP, List.countP_eq_length]
        intro id hid
        have := List.mem_range.mp (hp.mem_iff.mp hid)
        rw [List.getElem?_eq_getElem this]; rfl
      rw [this, hp.length_eq, List.length_range]
    have ht : rows.take (asU32 st.store.length) = rows := by
      rw [show asU32 st.store.length = rows.length from by rw [hl]; exact Nat.mod_eq_of_lt hs]
      exact List.take_length
    simp [Container.index, arxSchema_props, bind, Except.bind, pure, Except.pure, h2, ht, writeArchive]

/-- **C66, what is written can be written.** Whatever was added: every row has a value of the right kind for every property
of the schema that is written with it, so jubako accepts it; all indexes are on rows that are there. -/
theorem C66_rows_fit {rs : List AddReq} {st : Creator} {o : List Nat} (h : Creator.new.run rs = some st)
    (ho : IsLayout st o) (hs : st.store.length < 2 ^ 32) {c : Container} (hc : writeContainer st o = some c) :
    (∀ s ∈ c.stores, ∀ r ∈ s.rows, RowTyped s.schema r) ∧
    ∀ i ∈ c.indexes, ∃ s, c.stores[i.store]? = some s ∧ i.range.offset + i.range.count ≤ s.rows.length := by
  have hrow : ∀ (id : Nat) (e : CEntry) (r : StoreRow), newFromSchema (typeOf e) (valuesOf st o id e) = some r → RowTyped arxSchema r := by
    intro id e r hr
    have hf : declVariants.findIdx? (fun v => v.1.text == EntryType.text .file) = some 0 := by decide +kernel
    have hd : declVariants.findIdx? (fun v => v.1.text == EntryType.text .dir) = some 1 := by decide +kernel
    have hl : declVariants.findIdx? (fun v => v.1.text == EntryType.text .link) = some 2 := by decide +kernel
    have lf : declVariants.lookup .file = some [(.content, .content), (.size, .uint)] := by decide +kernel
    have ld : declVariants.lookup .dir = some [(.firstChild, .uint), (.nbChildren, .uint)] := by decide +kernel
    have ll : declVariants.lookup .link = some [(.target, .array)] := by decide +kernel
    unfold newFromSchema at hr
    rw [pick_common] at hr
    obtain ⟨name, parent, info, kind⟩ := e
    cases kind with
    | dir =>
      simp only [typeOf] at hr
      rw [hd, ld] at hr
      cases hr
      exact ⟨rfl, _, _, _, rfl, rfl, rfl⟩
    | file size content =>
      simp only [typeOf] at hr
      rw [hf, lf] at hr
      cases hr
      exact ⟨rfl, _, _, _, rfl, rfl, rfl⟩
    | link target =>
      simp only [typeOf] at hr
      rw [hl, ll] at hr
      cases hr
      exact ⟨rfl, _, _, _, rfl, rfl, rfl⟩
  have hrows : ∀ (l : List Nat) (rows : List StoreRow), rowsOf st o l = some rows → ∀ r ∈ rows, RowTyped arxSchema r := by
    intro l
    induction l with
    | nil => intro rows e; cases e; simp
    | cons id l ih =>
      intro rows e
      unfold rowsOf at e
      cases hx : st.store[id]? with
      | none => rw [hx] at e; exact ih rows e
      | some en =>
        rw [hx] at e
        simp only at e
        cases h1 : newFromSchema (typeOf en) (valuesOf st o id en) with
        | none => rw [h1] at e; cases e
        | some r0 =>
          cases h2 : rowsOf st o l with
          | none => rw [h1, h2] at e; cases e
          | some rs' =>
            rw [h1, h2] at e
            cases e
            intro r hr
            rcases List.mem_cons.mp hr with rfl | hr
            · exact hrow id en _ h1
            · exact ih rs' h2 r hr
  obtain ⟨rows, h1, h2⟩ := rowsOf_rows st o o
  unfold writeContainer at hc
  rw [h1] at hc
  cases hc
  have hl : rows.length = st.store.length := by
    have := congrArg List.length h2
    rw [List.length_map] at this
    rw [this]
    have hp := ho.1
    have : (o.filterMap (fun id => (st.store[id]?).map (rawOf st o id))).length = o.length := by
      rw [List.length_filterMap_eq_countP, List.countP_eq_length]
      intro id hid
      have := List.mem_range.mp (hp.mem_iff.mp hid)
      rw [List.getElem?_eq_getElem this]; rfl
    rw [this, hp.length_eq, List.length_range]
  refine ⟨?_, ?_⟩
  · intro s hs r hr
    rcases List.mem_singleton.mp hs with rfl
    exact hrows _ _ h1 r hr
  · intro i hi
    simp only [List.mem_cons, List.not_mem_nil, or_false] at hi
    rcases hi with rfl | rfl
    · refine ⟨_, rfl, ?_⟩
      simp only [Nat.zero_add, hl]
      exact Nat.mod_le _ _
    · refine ⟨_, rfl, ?_⟩
      simp only [Nat.zero_add, hl]
      obtain ⟨m, paths, hs', R⟩ := run_rel h
      refine Nat.le_trans (Nat.mod_le _ _) ?_
      have hn : (((st.cache none).map (·.1)).map (fun n => [n])).Nodup :=
        List.Pairwise.map _ (fun a b hab e => hab (by simpa using e)) (R.cacheNodup none)
      have hsub : ((st.cache none).map (·.1)).map (fun n => [n]) ⊆ paths := by
        intro p hp
        obtain ⟨n, hn, rfl⟩ := List.mem_map.mp hp
        obtain ⟨⟨n', ch⟩, hx, rfl⟩ := List.mem_map.mp hn
        obtain ⟨e, h1, h2, h3, _⟩ := R.cache none n' ch hx
        have := R.path ch.id e h1
        rw [h3, h2] at this
        exact List.mem_of_getElem? (by simpa [curPath] using this)
      have := hn.length_le_of_subset hsub
      rw [R.len] at this
      simpa using this

/-- the hypotheses are met by the example: three entries of the three kinds -/
example : Creator.new.run exReqs = some exSt ∧ IsLayout exSt exOrder ∧ exSt.store.length < 2 ^ 32 ∧ (writeContainer exSt exOrder).isSome = true := by
  obtain ⟨m, paths, hs, R⟩ := run_rel exRun
  exact ⟨exRun, R.layoutLoop_sound 3 _ _ (by rw [R.len]) exLayout, by decide, by decide +kernel⟩

/-! ## Any container -/

theorem findIdx_find {ps : List (String × PropKind)} (name : String) :
    (match ps.findIdx? (fun x => x.1 == name) with | none => none | some i => ps[i]?) = ps.find? (fun x => x.1 == name) := by
  induction ps with
  | nil => rfl
  | cons a l ih =>
    by_cases h : (a.1 == name) = true
    · simp [List.findIdx?_cons, List.find?_cons, h]
    · rw [List.findIdx?_cons, List.find?_cons, ← ih, if_neg h]
      simp only [h]
      cases l.findIdx? (fun x => x.1 == name) <;> rfl

theorem slot_ok {ps : List (String × PropKind)} {name : String} {kind : PropKind} :
    (∃ i, slot ps name kind = .ok i) ↔ Has ps name kind := by
  unfold slot Has
  rw [← findIdx_find]
  cases ps.findIdx? (fun x => x.1 == name) with
  | none => simp
  | some i =>
    simp only
    cases ps[i]? with
    | none => simp
    | some x =>
      obtain ⟨n, k⟩ := x
      simp only [Option.map_some, Option.some.injEq]
      by_cases h : k = kind
      · rw [if_pos h]; simp [h]
      · rw [if_neg h]; simp [h]

theorem slot_named {ps : List (String × PropKind)} {name : String} (kind : PropKind) (h : Named ps name) :
    slot ps name kind ≠ .error .panic := by
  obtain ⟨k, h⟩ := h
  have hf : ∃ x, ps.find? (fun x => x.1 == name) = some x := by
    cases hc : ps.find? (fun x => x.1 == name) with
    | some x => exact ⟨x, rfl⟩
    | none => exact absurd (List.find?_eq_none.mp hc _ h) (by simp)
  obtain ⟨x, hx⟩ := hf
  rw [← findIdx_find] at hx
  unfold slot
  cases hi : ps.findIdx? (fun x => x.1 == name) with
  | none => rw [hi] at hx; cases hx
  | some i =>
    rw [hi] at hx
    simp only at hx ⊢
    rw [hx]
    obtain ⟨n, k'⟩ := x
    simp only
    split <;> simp

theorem except_bind_ok {ε α β : Type} {x : Except ε α} {f : α → Except ε β} :
    (∃ b, (x >>= f) = .ok b) ↔ ∃ a, x = .ok a ∧ ∃ b, f a = .ok b := by
  cases x with
  | error e => simp [bind, Except.bind]
  | ok a => simp [bind, Except.bind]

theorem except_bind_panic {α β : Type} {x : Except OpenErr α} {f : α → Except OpenErr β} (hx : x ≠ .error .panic)
    (hf : ∀ a, x = .ok a → f a ≠ .error .panic) : (x >>= f) ≠ .error .panic := by
  cases x with
  | error e => simpa [bind, Except.bind] using hx
  | ok a => exact hf a rfl

theorem variantProps_ok {vs : List (String × List (String × PropKind))} {name : String} {ps : List (String × PropKind)} :
    variantProps vs name = .ok ps ↔ vs.lookup name = some ps := by
  unfold variantProps
  cases vs.lookup name <;> simp

theorem allProps_ok {s : Schema} : (∃ p, AllProps.new s = .ok p) ↔ HasSchema s := by
  unfold AllProps.new
  cases hv : s.variants with
  | none =>
    constructor
    · rintro ⟨p, h⟩; cases h
    · rintro ⟨_, vs, h, _⟩; rw [hv] at h; cases h
  | some vs =>
    by_cases h3 : vs.length = 3
    · simp only [if_pos h3]
      have hok : ∀ p : AllProps, ∃ b, (pure p : Except OpenErr AllProps) = .ok b := fun p => ⟨p, rfl⟩
      have e : ∀ {α : Type} (f : List (String × List (String × PropKind)) → Except OpenErr α), ((Except.ok vs : Except OpenErr _) >>= f) = f vs := fun _ => rfl
      rw [e]
      simp only [except_bind_ok, hok, and_true, exists_and_left, variantProps_ok]
      unfold HasSchema
      simp only [commonNeeded, variantsNeeded, List.forall_mem_cons, hv, h3, ← slot_ok]
      constructor
      · rintro ⟨_, c1, _, c2, _, c3, _, c4, _, c5, _, c6, f, hf, _, f1, f', hf', _, f2, d, hd, _, d1, d', hd', _, d2, l, hl, _, l1⟩
        rw [hf] at hf'; cases hf'
        rw [hd] at hd'; cases hd'
        exact ⟨⟨⟨_, c1⟩, ⟨_, c2⟩, ⟨_, c3⟩, ⟨_, c4⟩, ⟨_, c5⟩, ⟨_, c6⟩, fun _ h => absurd h (by simp)⟩, vs, rfl, h3,
          ⟨f, hf, ⟨_, f1⟩, ⟨_, f2⟩, fun _ h => absurd h (by simp)⟩, ⟨d, hd, ⟨_, d1⟩, ⟨_, d2⟩, fun _ h => absurd h (by simp)⟩,
          ⟨l, hl, ⟨_, l1⟩, fun _ h => absurd h (by simp)⟩, fun _ h => absurd h (by simp)⟩
      · rintro ⟨⟨⟨_, c1⟩, ⟨_, c2⟩, ⟨_, c3⟩, ⟨_, c4⟩, ⟨_, c5⟩, ⟨_, c6⟩, _⟩, vs', hvs, _,
          ⟨f, hf, ⟨_, f1⟩, ⟨_, f2⟩, _⟩, ⟨d, hd, ⟨_, d1⟩, ⟨_, d2⟩, _⟩, ⟨l, hl, ⟨_, l1⟩, _⟩, _⟩
        cases hvs
        exact ⟨_, c1, _, c2, _, c3, _, c4, _, c5, _, c6, f, hf, _, f1, f, hf, _, f2, d, hd, _, d1, d, hd, _, d2, l, hl, _, l1⟩
    · simp only [if_neg h3]
      constructor
      · rintro ⟨p, h⟩; cases h
      · rintro ⟨_, vs', h, h3', _⟩
        rw [hv] at h; cases h; exact absurd h3' h3

theorem allProps_named {s : Schema} (h : HasNames s) : AllProps.new s ≠ .error .panic := by
  obtain ⟨hc, vs, hv, h3, hvs⟩ := h
  simp only [commonNeeded, variantsNeeded, List.forall_mem_cons] at hc hvs
  obtain ⟨c1, c2, c3, c4, c5, c6, _⟩ := hc
  obtain ⟨⟨f, hf, f1, f2, _⟩, ⟨d, hd, d1, d2, _⟩, ⟨l, hl, l1, _⟩, _⟩ := hvs
  have gf : variantProps vs "file" = .ok f := variantProps_ok.mpr hf
  have gd : variantProps vs "dir" = .ok d := variantProps_ok.mpr hd
  have gl : variantProps vs "link" = .ok l := variantProps_ok.mpr hl
  have hok : ∀ {α β : Type} (a : α) (g : α → Except OpenErr β), ((Except.ok a : Except OpenErr α) >>= g) = g a := fun _ _ => rfl
  unfold AllProps.new
  rw [hv]
  simp only [if_pos h3, gf, gd, gl, hok]
  iterate 11 refine except_bind_panic (slot_named _ (by assumption)) (fun _ _ => ?_)
  simp [pure, Except.pure]

/-- **C66, exactly which containers open**: those with an index `arx_root` on a store with the schema of arx; for the
mount, also an index `arx_entries` on such a store. -/
theorem C66_opens_iff (c : Container) :
    ((∃ a, c.openArx = .ok a) ↔ ∃ i s, IndexOn c "arx_root" i s ∧ HasSchema s.schema) ∧
    ((∃ a, c.openMount = .ok a) ↔ (∃ i s, IndexOn c "arx_root" i s ∧ HasSchema s.schema) ∧
      ∃ i s, IndexOn c "arx_entries" i s ∧ HasSchema s.schema) := by
  have hi : ∀ {name : String} {i : Index}, c.index name = .ok i ↔ c.indexes.find? (fun x => x.name == name) = some i := by
    intro name i
    unfold Container.index
    cases c.indexes.find? (fun x => x.name == name) <;> simp
  have hs : ∀ {k : Nat} {s : Store}, (match c.stores[k]? with | some s => .ok s | none => .error .err : Except OpenErr Store) = .ok s ↔ c.stores[k]? = some s := by
    intro (k : Nat) s
    cases c.stores[k]? <;> simp
  have hok : ∀ {α : Type} (p : α), ∃ b, (pure p : Except OpenErr α) = .ok b := fun p => ⟨p, rfl⟩
  have h1 : (∃ a, c.openArx = .ok a) ↔ ∃ i s, IndexOn c "arx_root" i s ∧ HasSchema s.schema := by
    unfold Container.openArx
    simp only [except_bind_ok, hok, and_true, hi, hs, allProps_ok, IndexOn]
    constructor
    · rintro ⟨i, h1, s, h2, h3⟩; exact ⟨i, s, ⟨h1, hs.mp h2⟩, h3⟩
    · rintro ⟨i, s, ⟨h1, h2⟩, h3⟩; exact ⟨i, h1, s, hs.mpr h2, h3⟩
  refine ⟨h1, ?_⟩
  unfold Container.openMount
  rw [except_bind_ok, ← h1]
  simp only [except_bind_ok, hok, and_true, hi, hs, allProps_ok, IndexOn]
  constructor
  · rintro ⟨a, h, i, h1, s, h2, h3⟩; exact ⟨⟨a, h⟩, i, s, ⟨h1, hs.mp h2⟩, h3⟩
  · rintro ⟨⟨a, h⟩, i, s, ⟨h1, h2⟩, h3⟩; exact ⟨a, h, i, h1, s, hs.mpr h2, h3⟩

/-- **C66, partial: no crash.** A container without an index `arx_root` (any other jubako file) is refused with an
error; so is one whose entries have all properties of arx but of other kinds. Missing: containers with an index
`arx_root` whose entries lack a property, for which it is false (`C66_counterexample`). -/
theorem C66_no_crash_partial (c : Container) :
    ((∀ i ∈ c.indexes, i.name ≠ "arx_root") → c.openArx = .error .err ∧ c.openMount = .error .err) ∧
    ((∀ s ∈ c.stores, HasNames s.schema) → c.openArx ≠ .error .panic ∧ c.openMount ≠ .error .panic) := by
  have hx : ∀ name, c.index name ≠ .error .panic := by
    intro name; unfold Container.index; split <;> simp
  have hst : ∀ k : Nat, (match c.stores[k]? with | some s => .ok s | none => .error .err : Except OpenErr Store) ≠ .error .panic := by
    intro k; split <;> simp
  constructor
  · intro h
    have hn : c.index "arx_root" = .error .err := by
      unfold Container.index
      rw [List.find?_eq_none.mpr (fun x hx => by simpa using h x hx)]
    have h1 : c.openArx = .error .err := by unfold Container.openArx; rw [hn]; rfl
    exact ⟨h1, by unfold Container.openMount; rw [h1]; rfl⟩
  · intro h
    have hp : ∀ (k : Nat) (s : Store), (match c.stores[k]? with | some s => .ok s | none => .error .err : Except OpenErr Store) = .ok s →
        AllProps.new s.schema ≠ .error .panic := by
      intro k s e
      cases hk : c.stores[k]? with
      | none => rw [hk] at e; cases e
      | some s' => rw [hk] at e; cases e; exact allProps_named (h _ (List.mem_of_getElem? hk))
    have h1 : c.openArx ≠ .error .panic := by
      unfold Container.openArx
      refine except_bind_panic (hx _) (fun _ _ => except_bind_panic (hst _) (fun s hs => except_bind_panic (hp _ s hs) (fun _ _ => ?_)))
      simp [pure, Except.pure]
    refine ⟨h1, ?_⟩
    unfold Container.openMount
    refine except_bind_panic h1 (fun _ _ => except_bind_panic (hx _) (fun _ _ => except_bind_panic (hst _) (fun s hs =>
      except_bind_panic (hp _ s hs) (fun _ _ => ?_))))
    simp [pure, Except.pure]

/-! ## Exactly which containers crash -/

theorem slot_panic {ps : List (String × PropKind)} {name : String} {kind : PropKind} :
    slot ps name kind = .error .panic ↔ ¬ Named ps name := by
  constructor
  · exact fun h hn => slot_named kind hn h
  · intro hn
    unfold slot
    cases hi : ps.findIdx? (fun x => x.1 == name) with
    | none => rfl
    | some i =>
      exfalso
      obtain ⟨hlt, h, _⟩ := List.findIdx?_eq_some_iff_getElem.mp hi
      refine hn ⟨ps[i].2, ?_⟩
      have he : ps[i].1 = name := by simpa using h
      rw [← he]
      exact List.getElem_mem hlt

theorem except_bind_panic_iff {α β : Type} {x : Except OpenErr α} {f : α → Except OpenErr β} :
    (x >>= f) = .error .panic ↔ x = .error .panic ∨ ∃ a, x = .ok a ∧ f a = .error .panic := by
  cases x with
  | error e => simp [bind, Except.bind]
  | ok a => simp [bind, Except.bind]

/-- the checks one after the other -/
def FirstMissing (s : Schema) : List (Option String × String × PropKind) → Prop
  | [] => False
  | x :: l => ¬ s.namedAt x ∨ (s.hasAt x ∧ FirstMissing s l)

theorem firstMissing_iff {s : Schema} : ∀ {l : List (Option String × String × PropKind)}, FirstMissing s l ↔
    ∃ pre x post, l = pre ++ x :: post ∧ (∀ y ∈ pre, s.hasAt y) ∧ ¬ s.namedAt x
  | [] => by simp [FirstMissing]
  | a :: l => by
    unfold FirstMissing
    rw [firstMissing_iff]
    constructor
    · rintro (h | ⟨h, pre, x, post, rfl, h1, h2⟩)
      · exact ⟨[], a, l, rfl, by simp, h⟩
      · exact ⟨a :: pre, x, post, rfl, List.forall_mem_cons.mpr ⟨h, h1⟩, h2⟩
    · rintro ⟨pre, x, post, e, h1, h2⟩
      cases pre with
      | nil => cases e; exact Or.inl h2
      | cons b pre =>
        cases e
        exact Or.inr ⟨h1 _ (by simp), pre, x, post, rfl, fun y hy => h1 y (by simp [hy]), h2⟩

/-- one check -/
theorem check_panic {β : Type} {ps : List (String × PropKind)} {s : Schema} {v : Option String} (hps : s.propsOf v = some ps)
    {name : String} {kind : PropKind} {f : Nat → Except OpenErr β} {Q : Prop} (hf : ∀ i, f i = .error .panic ↔ Q) :
    (slot ps name kind >>= f) = .error .panic ↔ ¬ s.namedAt (v, name, kind) ∨ (s.hasAt (v, name, kind) ∧ Q) := by
  rw [except_bind_panic_iff, slot_panic]
  have h1 : s.namedAt (v, name, kind) ↔ Named ps name := by
    unfold Schema.namedAt; simp only; rw [hps]
    exact ⟨fun ⟨_, e, h⟩ => by cases e; exact h, fun h => ⟨_, rfl, h⟩⟩
  have h2 : s.hasAt (v, name, kind) ↔ Has ps name kind := by
    unfold Schema.hasAt; simp only; rw [hps]
    exact ⟨fun ⟨_, e, h⟩ => by cases e; exact h, fun h => ⟨_, rfl, h⟩⟩
  rw [h1, h2, ← slot_ok]
  simp only [hf]
  constructor
  · rintro (h | ⟨a, h, q⟩)
    · exact Or.inl h
    · exact Or.inr ⟨⟨a, h⟩, q⟩
  · rintro (h | ⟨⟨a, h⟩, q⟩)
    · exact Or.inl h
    · exact Or.inr ⟨a, h, q⟩

/-- one check of a property of a variant -/
theorem checkV_panic {β : Type} {vs : List (String × List (String × PropKind))} {s : Schema} (hv : s.variants = some vs)
    {v name : String} {kind : PropKind} {f : Nat → Except OpenErr β} {Q : Prop} (hf : ∀ i, f i = .error .panic ↔ Q) :
    (variantProps vs v >>= fun ps => slot ps name kind >>= f) = .error .panic ↔
      ¬ s.namedAt (some v, name, kind) ∨ (s.hasAt (some v, name, kind) ∧ Q) := by
  cases hl : vs.lookup v with
  | none =>
    have e : variantProps vs v = .error .panic := by simp [variantProps, hl]
    rw [e]
    have hn : s.propsOf (some v) = none := by simp [Schema.propsOf, hv, hl]
    constructor
    · intro _; left
      rintro ⟨ps, h, _⟩
      rw [hn] at h; cases h
    · intro _; rfl
  | some ps =>
    rw [variantProps_ok.mpr hl]
    have hn : s.propsOf (some v) = some ps := by simp [Schema.propsOf, hv, hl]
    exact check_panic hn hf

theorem allProps_panic {s : Schema} : AllProps.new s = .error .panic ↔ Incomplete s := by
  unfold Incomplete
  rw [← firstMissing_iff]
  unfold AllProps.new
  cases hv : s.variants with
  | none => simp [bind, Except.bind]
  | some vs =>
    by_cases h3 : vs.length = 3
    · have e : ∀ {α : Type} (f : List (String × List (String × PropKind)) → Except OpenErr α), ((Except.ok vs : Except OpenErr _) >>= f) = f vs := fun _ => rfl
      simp only [if_pos h3, e]
      have hl : lookedFor = [(none, "name", .array), (none, "parent", .uint), (none, "owner", .uint), (none, "group", .uint),
        (none, "rights", .uint), (none, "mtime", .uint), (some "file", "content", .content), (some "file", "size", .uint),
        (some "dir", "first_child", .uint), (some "dir", "nb_children", .uint), (some "link", "target", .array)] := rfl
      rw [hl]
      simp only [FirstMissing]
      have hn : ¬ ¬ ∃ vs', some vs = some vs' ∧ vs'.length = 3 := not_not_intro ⟨vs, rfl, h3⟩
      simp only [hn, false_or]
      iterate 6 refine check_panic rfl (fun _ => ?_)
      iterate 5 refine checkV_panic hv (fun _ => ?_)
      simp [pure, Except.pure]
    · simp only [if_neg h3]
      constructor
      · intro _; left
        rintro ⟨vs', e, h⟩
        cases e; exact h3 h
      · intro _; rfl

/-- **C66, exactly which containers crash**: those with an index `arx_root` on a store whose schema is `Incomplete`;
the mount also those that open, but have such an index `arx_entries`. -/
theorem C66_panics_iff (c : Container) :
    (c.openArx = .error .panic ↔ ∃ i s, IndexOn c "arx_root" i s ∧ Incomplete s.schema) ∧
    (c.openMount = .error .panic ↔ (∃ i s, IndexOn c "arx_root" i s ∧ Incomplete s.schema) ∨
      ((∃ i s, IndexOn c "arx_root" i s ∧ HasSchema s.schema) ∧ ∃ i s, IndexOn c "arx_entries" i s ∧ Incomplete s.schema)) := by
  have hi : ∀ {name : String} {i : Index}, c.index name = .ok i ↔ c.indexes.find? (fun x => x.name == name) = some i := by
    intro name i
    unfold Container.index
    cases c.indexes.find? (fun x => x.name == name) <;> simp
  have hx : ∀ name, c.index name ≠ .error .panic := by
    intro name; unfold Container.index; split <;> simp
  have hst : ∀ k : Nat, (match c.stores[k]? with | some s => .ok s | none => .error .err : Except OpenErr Store) ≠ .error .panic := by
    intro k; split <;> simp
  have hs : ∀ {k : Nat} {s : Store}, (match c.stores[k]? with | some s => .ok s | none => .error .err : Except OpenErr Store) = .ok s ↔ c.stores[k]? = some s := by
    intro (k : Nat) s
    cases c.stores[k]? <;> simp
  have hp : ∀ {α : Type} (x : α), ¬ ((pure x : Except OpenErr α) = .error .panic) := by intro α x h; cases h
  have step : ∀ {α : Type} (name : String) (f : AllProps → Store → Index → α),
      (c.index name >>= fun i => (match c.stores[i.store]? with | some s => .ok s | none => .error .err : Except OpenErr Store) >>= fun s =>
        AllProps.new s.schema >>= fun p => (pure (f p s i) : Except OpenErr α)) = .error .panic ↔
      ∃ i s, IndexOn c name i s ∧ Incomplete s.schema := by
    intro α name f
    simp only [except_bind_panic_iff, hx, hst, hp, hi, allProps_panic, false_or, and_false, exists_false, or_false]
    constructor
    · rintro ⟨i, h1, s, h2, h3⟩; exact ⟨i, s, ⟨h1, hs.mp h2⟩, h3⟩
    · rintro ⟨i, s, ⟨h1, h2⟩, h3⟩; exact ⟨i, h1, s, hs.mpr h2, h3⟩
  have h1 : c.openArx = .error .panic ↔ ∃ i s, IndexOn c "arx_root" i s ∧ Incomplete s.schema :=
    step "arx_root" (fun p s i => ({ entries := s.rows.map p.row, root := i.range } : Archive))
  refine ⟨h1, ?_⟩
  unfold Container.openMount
  rw [except_bind_panic_iff, h1]
  have h2 : ∀ a : Archive, _ := fun a => step "arx_entries" (fun p s i =>
    ({ entries := ((s.rows.drop i.range.offset).take i.range.count).map p.row, root := a.root } : Archive))
  rw [← (C66_opens_iff c).1]
  constructor
  · rintro (h | ⟨a, ha, h⟩)
    · exact Or.inl h
    · exact Or.inr ⟨⟨a, ha⟩, (h2 a).mp h⟩
  · rintro (h | ⟨⟨a, ha⟩, h⟩)
    · exact Or.inl h
    · exact Or.inr ⟨a, ha, (h2 a).mpr h⟩

/-! ## Concrete cases -/

/-- a container with an index of that name on entries of another sort -/
def otherContainer : Container :=
  ⟨[⟨⟨[("name", .array)], none⟩, [⟨[.array [97]], 0, []⟩]⟩], [⟨"arx_root", 0, ⟨0, 1⟩⟩]⟩

/-- **C66 is false for hostile containers**: opening crashes instead of returning an error. -/
theorem C66_counterexample : otherContainer.openArx = .error .panic ∧ otherContainer.openMount = .error .panic := by
  refine ⟨by decide +kernel, by decide +kernel⟩

/-- the example archive, as a container -/
example : (writeContainer exSt [1, 0, 2, 3]).isSome = true := by decide +kernel

/-- the kinds are checked -/
example : (Container.mk [⟨{ arxSchema with common := ("name", .uint) :: arxSchema.common.tail }, []⟩] [⟨"arx_root", 0, ⟨0, 0⟩⟩]).openArx = .error .err := by
  decide +kernel

/-- the order of the properties does not matter -/
example : (Container.mk [⟨{ arxSchema with common := arxSchema.common.reverse },
      [⟨[.uint 5, .uint 4, .uint 3, .uint 2, .uint 0, .array [97]], 2, [.array [98]]⟩]⟩] [⟨"arx_root", 0, ⟨0, 1⟩⟩]).openArx =
    .ok ⟨[⟨[97], 0, 2, 3, 4, 5, 2, default, 0, 0, 0, [98]⟩], ⟨0, 1⟩⟩ := by decide +kernel

end Arx
