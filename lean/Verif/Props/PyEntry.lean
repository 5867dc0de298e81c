import Verif.Props.Python2
/-!
# C87: entries of the Python module are the entries of the archive
-/
namespace Arx

/-- How a Python program can get hold of an entry, and the path it then knows for it: `get_entry`; iterating the archive; iterating
an entry it has; the parent of an entry it has. (`n` calls of `__next__` have been made.) -/
inductive PyHas (a : Archive) : List Bytes → FullEntry → Prop where
  | get (text : Bytes) (e : FullEntry) : pyGetEntry a text = .ok e → PyHas a (pyPathOf text) e
  | top (n : Nat) (e : FullEntry) : .ok (some e) ∈ (pyIterRoot a).nexts a n → PyHas a [(pyCommon e).path] e
  | child (p : List Bytes) (d e : FullEntry) (it : PyIter) (n : Nat) :
      PyHas a p d → pyIterEntry d = some it → .ok (some e) ∈ it.nexts a n → PyHas a (p ++ [(pyCommon e).path]) e
  | parent (p : List Bytes) (c : Bytes) (e d : FullEntry) : PyHas a (p ++ [c]) e → pyParent a e = .ok (some d) → PyHas a p d

theorem mem_answers {es : List FullEntry} {n : Nat} {e : FullEntry} (h : .ok (some e) ∈ answers es n) :
    ∃ k : Nat, es[k]? = some e := by
  rw [answers, List.mem_append] at h
  rcases h with h | h
  · obtain ⟨x, hx, e1⟩ := List.mem_map.mp h
    cases e1
    exact List.mem_iff_getElem?.mp (List.mem_of_mem_take hx)
  · have := List.eq_of_mem_replicate h
    cases this

theorem pyCommon_eq (e : FullEntry) : pyCommon e = e.common := by cases e <;> rfl

theorem PyHas.shows {rs : List AddReq} {a : Archive} {m : PathMap} (h : Written rs a) (hm : SpecRun PathMap.empty rs m)
    {p : List Bytes} {e : FullEntry} (he : PyHas a p e) : Shows a p e := by
  obtain ⟨it1, it2⟩ := C39_iteration h hm
  induction he with
  | get text e hg =>
    obtain ⟨h1, h2, h3⟩ := C53_get_entry_partial h hm text
    by_cases c1 : text.head? = some SEP
    · rw [h1 c1] at hg; cases hg
    · by_cases c2 : ∀ c ∈ comps text, validUtf8 c = true
      · by_cases c3 : pyPathOf text = []
        · have : pyGetEntry a text = .error .panic := by
            rw [pyGetEntry, fromPathBuf_eq, if_neg c1, if_pos c2]
            show (match a.getEntry fullBuilder (joinPath (pyPathOf text)) with | .ok e => _ | .error .panic => _ | .error _ => _) = _
            rw [c3]; rfl
          rw [this] at hg; cases hg
        · have := h3 c1 c2 c3
          cases hn : m (pyPathOf text) with
          | none => rw [hn] at this; rw [this] at hg; cases hg
          | some n =>
            rw [hn] at this
            obtain ⟨e', g1, g2, _⟩ := this
            rw [g1] at hg; cases hg; exact g2
      · have : ∃ c ∈ comps text, validUtf8 c = false := Classical.byContradiction fun hc =>
          c2 fun c hcc => by
            cases hv : validUtf8 c with
            | true => rfl
            | false => exact absurd ⟨c, hcc, hv⟩ hc
        rw [h2 c1 this] at hg; cases hg
  | top n e hmem =>
    obtain ⟨ns, es, _, hl, hans, hrow⟩ := it1
    rw [hans] at hmem
    obtain ⟨k, hk⟩ := mem_answers hmem
    have hkl : k < ns.length := by rw [← hl]; exact (List.getElem?_eq_some_iff.mp hk).1
    obtain ⟨g1, g2, _⟩ := hrow k _ e (List.getElem?_eq_getElem hkl) hk
    rw [g1]; exact g2
  | child p d e it n _ hit hmem ih =>
    have := it2 p d ih
    cases hn : m p with
    | none => rw [hn] at this; exact absurd this id
    | some nd =>
      rw [hn] at this
      obtain ⟨_, this⟩ := this
      by_cases hd : nd.isDir = true
      · rw [if_pos hd] at this
        obtain ⟨it', ns, es, i1, _, hl, _, hans, hrow⟩ := this
        rw [i1] at hit; cases hit
        rw [hans] at hmem
        obtain ⟨k, hk⟩ := mem_answers hmem
        have hkl : k < ns.length := by rw [← hl]; exact (List.getElem?_eq_some_iff.mp hk).1
        obtain ⟨g1, g2, _⟩ := hrow k _ e (List.getElem?_eq_getElem hkl) hk
        rw [g1]; exact g2
      · rw [if_neg hd] at this
        rw [this.1] at hit; cases hit
  | parent p c e d _ hpar ih =>
    obtain ⟨P, G⟩ := h.good' hm
    obtain ⟨i, hPi, hat⟩ := G.of_shows ih
    obtain ⟨n, hn⟩ := (G.dom _).mp (List.mem_of_getElem? hPi)
    obtain ⟨e', e1, _, _, _, _, e6, _⟩ := G.getEntryAt hPi hn
    have hat' : a.create fullBuilder i = .ok e := hat
    rw [hat'] at e1; cases e1
    by_cases hp : p = []
    · subst hp
      rw [pyParent, pyCommon_eq, e6, if_pos (by simp)] at hpar
      cases hpar
    · have hl : 0 < p.length := List.length_pos_iff.mpr hp
      rw [pyParent, pyCommon_eq, e6, if_neg (by simp; omega), List.dropLast_concat] at hpar
      obtain ⟨np, hnp, _⟩ := G.wf.ancestors _ _ p hn ⟨hp, by simp, List.prefix_append _ _⟩
      obtain ⟨j, hj⟩ := G.idx_of hnp
      simp only [G.idxOf_eq hj] at hpar
      cases hg : a.getEntryAt fullBuilder j with
      | error x => rw [hg] at hpar; cases hpar
      | ok x => rw [hg] at hpar; cases hpar; exact G.shows hj hg

/-- Every entry can be reached by iterating from the archive downwards. -/
theorem PyHas.exists {rs : List AddReq} {a : Archive} {m : PathMap} (h : Written rs a) (hm : SpecRun PathMap.empty rs m) :
    ∀ (k : Nat) (p : List Bytes) (n : Node), p.length ≤ k → m p = some n → ∃ e, PyHas a p e := by
  obtain ⟨it1, it2⟩ := C39_iteration h hm
  obtain ⟨P, G⟩ := h.good' hm
  intro k
  induction k with
  | zero =>
    intro p n hl hn
    rw [List.length_eq_zero_iff.mp (by omega : p.length = 0), G.wf.root] at hn
    cases hn
  | succ k ih =>
    intro p n hl hn
    rcases nil_or_snoc p with rfl | ⟨q, c, rfl⟩
    · rw [G.wf.root] at hn; cases hn
    by_cases hq : q = []
    · subst hq
      obtain ⟨ns, es, hk, hlen, hans, hrow⟩ := it1
      obtain ⟨j, hj⟩ := List.mem_iff_getElem?.mp ((hk.2 c).mpr ⟨n, hn⟩)
      have hjl : j < es.length := by rw [hlen]; exact (List.getElem?_eq_some_iff.mp hj).1
      have hje := List.getElem?_eq_getElem hjl
      obtain ⟨g1, _⟩ := hrow j c _ hj hje
      refine ⟨es[j], ?_⟩
      have := PyHas.top (a := a) es.length es[j] (by
        rw [hans, answers, List.mem_append]
        exact Or.inl (List.mem_map.mpr ⟨_, by rw [List.take_length]; exact List.getElem_mem hjl, rfl⟩))
      rw [g1] at this; exact this
    · obtain ⟨nq, hnq, hqd⟩ := G.wf.ancestors _ _ q hn ⟨hq, by simp, List.prefix_append _ _⟩
      obtain ⟨d, hd⟩ := ih q nq (by simp at hl; omega) hnq
      have := it2 q d (hd.shows h hm)
      rw [hnq] at this
      obtain ⟨_, this⟩ := this
      rw [if_pos hqd] at this
      obtain ⟨it, ns, es, i1, hk, hlen, _, hans, hrow⟩ := this
      obtain ⟨j, hj⟩ := List.mem_iff_getElem?.mp ((hk.2 c).mpr ⟨n, hn⟩)
      have hjl : j < es.length := by rw [hlen]; exact (List.getElem?_eq_some_iff.mp hj).1
      have hje := List.getElem?_eq_getElem hjl
      obtain ⟨g1, _⟩ := hrow j c _ hj hje
      refine ⟨es[j], ?_⟩
      have := PyHas.child q d es[j] it es.length hd i1 (by
        rw [hans, answers, List.mem_append]
        exact Or.inl (List.mem_map.mpr ⟨_, by rw [List.take_length]; exact List.getElem_mem hjl, rfl⟩))
      rw [g1] at this; exact this

/-- **C87, one archive.** An entry that a program has got in any way (by path, by iterating, as a parent) and knows as `p`: the
archive has an entry at `p`, and it shows the values of that; its name is the last name of `p`; `parent` gives the entry of the path
above (nothing at top level); it compares equal to another entry exactly if that is the entry of the same path, and then all they
show is the same. -/
theorem C87_identity_partial {rs : List AddReq} {a : Archive} {m : PathMap} (h : Written rs a) (hm : SpecRun PathMap.empty rs m)
    {p : List Bytes} {e : FullEntry} (he : PyHas a p e) :
    (∃ n, m p = some n ∧ EntryIs e n ∧ (∀ c, pyContentAddress e = some c ↔ ∃ s, n.kind = .file s c)) ∧
    p.getLast? = some (pyCommon e).path ∧
    (∀ c, p = [c] → pyParent a e = .ok none) ∧
    (∀ q c, p = q ++ [c] → q ≠ [] → ∃ d, pyParent a e = .ok (some d) ∧ PyHas a q d) ∧
    (∀ q f, PyHas a q f → (pyEq e f = true ↔ p = q) ∧ (p = q → e = f)) := by
  obtain ⟨P, G⟩ := h.good' hm
  obtain ⟨i, hPi, hat⟩ := G.of_shows (he.shows h hm)
  obtain ⟨n, hn⟩ := (G.dom _).mp (List.mem_of_getElem? hPi)
  obtain ⟨e', e1, e2, e3, e4, _, e6, _⟩ := G.getEntryAt hPi hn
  have hat' : a.create fullBuilder i = .ok e := hat
  rw [hat'] at e1; cases e1
  refine ⟨⟨n, hn, e2, ?_⟩, by rw [pyCommon_eq]; exact e3, ?_, ?_, ?_⟩
  · intro c
    obtain ⟨_, _, _, q⟩ := e2
    cases hk : n.kind with
    | dir => rw [hk] at q; obtain ⟨r, d, rfl⟩ := q; simp [pyContentAddress]
    | link t => rw [hk] at q; obtain ⟨l, rfl, _⟩ := q; simp [pyContentAddress]
    | file s ct =>
      rw [hk] at q; obtain ⟨f, rfl, _, rfl⟩ := q
      simp [pyContentAddress]
  · intro c hp
    subst hp
    rw [pyParent, pyCommon_eq, e6, if_pos (by simp)]
  · intro q c hp hq
    subst hp
    have hl : 0 < q.length := List.length_pos_iff.mpr hq
    obtain ⟨np, hnp, _⟩ := G.wf.ancestors _ _ q hn ⟨hq, by simp, List.prefix_append _ _⟩
    obtain ⟨j, hj⟩ := G.idx_of hnp
    obtain ⟨d, d1, _⟩ := G.getEntryAt hj hnp
    have hd : pyParent a e = .ok (some d) := by
      have d1' : a.getEntryAt fullBuilder j = .ok d := d1
      rw [pyParent, pyCommon_eq, e6, if_neg (by simp; omega), List.dropLast_concat]
      simp only [G.idxOf_eq hj, d1']
    exact ⟨d, hd, .parent q c e d he hd⟩
  · intro q f hf
    obtain ⟨j, hPj, hatj⟩ := G.of_shows (hf.shows h hm)
    obtain ⟨n', hn'⟩ := (G.dom _).mp (List.mem_of_getElem? hPj)
    obtain ⟨f', f1, _, _, f4, _⟩ := G.getEntryAt hPj hn'
    have hatj' : a.create fullBuilder j = .ok f := hatj
    rw [hatj'] at f1; cases f1
    have hpq : p = q → i = j := fun e => by subst e; exact G.idx_inj hPi hPj
    refine ⟨?_, fun e => ?_⟩
    · rw [pyEq, pyCommon_eq, pyCommon_eq, e4, f4, beq_iff_eq]
      constructor
      · intro e; rw [e, hPj] at hPi; exact (Option.some.inj hPi).symm
      · exact hpq
    · rw [← hpq e, hat'] at hatj'; cases hatj'; rfl

/-- **C87, comparison exactly.** Entries of two archives compare equal if and only if they are at the same position when the entries of each archive are listed shallow ones first,
then by names. -/
theorem C87_compare {rs ss : List AddReq} {a b : Archive} {m m' : PathMap} (h : Written rs a) (h' : Written ss b)
    (hm : SpecRun PathMap.empty rs m) (hm' : SpecRun PathMap.empty ss m')
    {L L' : List (List Bytes)} (hL : L.Pairwise canonLt ∧ ∀ p, p ∈ L ↔ m p ≠ none) (hL' : L'.Pairwise canonLt ∧ ∀ p, p ∈ L' ↔ m' p ≠ none)
    {p q : List Bytes} {e f : FullEntry} (he : PyHas a p e) (hf : PyHas b q f) :
    pyEq e f = true ↔ ∃ i : Nat, L[i]? = some p ∧ L'[i]? = some q := by
  have key : ∀ {rs : List AddReq} {a : Archive} {m : PathMap}, Written rs a → SpecRun PathMap.empty rs m →
      ∀ {L : List (List Bytes)}, (L.Pairwise canonLt ∧ ∀ p, p ∈ L ↔ m p ≠ none) → ∀ {p : List Bytes} {e : FullEntry}, PyHas a p e →
        ∀ i : Nat, L[i]? = some p ↔ i = (pyCommon e).idx := by
    intro rs a m h hm L hL p e he i
    obtain ⟨P, G⟩ := h.good' hm
    have hPL : P = L := pairwise_lt_unique canonLt_irrefl canonLt_trans G.sorted hL.1 (fun x => by
      rw [G.dom, hL.2]; cases m x <;> simp)
    subst hPL
    obtain ⟨j, hPj, hat⟩ := G.of_shows (he.shows h hm)
    obtain ⟨n, hn⟩ := (G.dom _).mp (List.mem_of_getElem? hPj)
    obtain ⟨e', e1, _, _, e4, _⟩ := G.getEntryAt hPj hn
    have hat' : a.create fullBuilder j = .ok e := hat
    rw [hat'] at e1; cases e1
    rw [pyCommon_eq, e4]
    constructor
    · intro hi; exact G.idx_inj hi hPj
    · rintro rfl; exact hPj
  rw [pyEq, beq_iff_eq]
  constructor
  · intro hx
    exact ⟨_, (key h hm hL he _).mpr rfl, (key h' hm' hL' hf _).mpr hx⟩
  · rintro ⟨i, h1, h2⟩
    rw [← (key h hm hL he i).mp h1, ← (key h' hm' hL' hf i).mp h2]

/-- **C87, numbers.** Every entry of the archive can be got; their indices are 0, 1, … up to their number, each once; the entries that
an iteration of the archive gives have the indices 0, 1, …, those of a directory start at its `first_child`. -/
theorem C87_index {rs : List AddReq} {a : Archive} {m : PathMap} (h : Written rs a) (hm : SpecRun PathMap.empty rs m) :
    (∀ p n, m p = some n → ∃ e, PyHas a p e) ∧
    (∃ count, (∀ p e, PyHas a p e → (pyCommon e).idx < count) ∧ ∀ i, i < count → ∃ p e, PyHas a p e ∧ (pyCommon e).idx = i) ∧
    (∀ (n j : Nat) e, ((pyIterRoot a).nexts a n)[j]? = some (.ok (some e)) → (pyCommon e).idx = j) ∧
    (∀ p d it k, PyHas a p d → pyIterEntry d = some it → pyFirstChild d = some k →
      ∀ (n j : Nat) e, (it.nexts a n)[j]? = some (.ok (some e)) → (pyCommon e).idx = k + j) := by
  obtain ⟨P, G⟩ := h.good' hm
  have hans : ∀ (es : List FullEntry) (n j : Nat) e, (answers es n)[j]? = some (.ok (some e)) → es[j]? = some e := by
    intro es n j e he
    rw [answers] at he
    by_cases hj : j < (es.take n).length
    · rw [List.getElem?_append_left (by rw [List.length_map]; exact hj), List.getElem?_map] at he
      cases hx : (es.take n)[j]? with
      | none => rw [hx] at he; cases he
      | some x =>
        rw [hx] at he; cases he
        have hjn : j < n := by rw [List.length_take] at hj; omega
        rw [List.getElem?_take_of_lt hjn] at hx; exact hx
    · rw [List.getElem?_append_right (by rw [List.length_map]; omega)] at he
      have := List.eq_of_mem_replicate (List.mem_of_getElem? he)
      cases this
  have hrange : ∀ (p : List Bytes) (rg : Range), RangeIs P p rg.offset rg.count → ∀ (n j : Nat) e,
      ((PyIter.new rg).nexts a n)[j]? = some (.ok (some e)) → (pyCommon e).idx = rg.offset + j := by
    intro p rg hr n j e he
    obtain ⟨ns, es, h1, h2, h3, h4, h5⟩ := G.rows hr
    have : (PyIter.new rg).nexts a n = answers es n := PyIter.nexts_rows a n _ _ _ h4
    rw [this] at he
    have hj := hans es n j e he
    have hjl : j < ns.length := by rw [← h2]; exact (List.getElem?_eq_some_iff.mp hj).1
    obtain ⟨_, _, _, _, _, _, g6, _⟩ := h5 j _ e (List.getElem?_eq_getElem hjl) hj
    rw [pyCommon_eq, g6]
  refine ⟨fun p n hn => PyHas.exists h hm p.length p n (Nat.le_refl _) hn, ⟨P.length, ?_, ?_⟩, ?_, ?_⟩
  · intro p e he
    obtain ⟨i, hPi, hat⟩ := G.of_shows (he.shows h hm)
    obtain ⟨n, hn⟩ := (G.dom _).mp (List.mem_of_getElem? hPi)
    obtain ⟨e', e1, _, _, e4, _⟩ := G.getEntryAt hPi hn
    have hat' : a.create fullBuilder i = .ok e := hat
    rw [hat'] at e1; cases e1
    rw [pyCommon_eq, e4]; exact (List.getElem?_eq_some_iff.mp hPi).1
  · intro i hi
    have hPi := List.getElem?_eq_getElem hi
    obtain ⟨n, hn⟩ := (G.dom _).mp (List.mem_of_getElem? hPi)
    obtain ⟨e, he⟩ := PyHas.exists h hm _ _ n (Nat.le_refl _) hn
    obtain ⟨j, hPj, hat⟩ := G.of_shows (he.shows h hm)
    obtain ⟨e', e1, _, _, e4, _⟩ := G.getEntryAt hPj hn
    have hat' : a.create fullBuilder j = .ok e := hat
    rw [hat'] at e1; cases e1
    refine ⟨_, e, he, ?_⟩
    rw [pyCommon_eq, e4]; exact G.idx_inj hPj hPi
  · intro n j e he
    have hroot : RangeIs P [] a.root.offset a.root.count := by rw [G.root.1]; exact G.root.2
    have := hrange [] a.root hroot n j e he
    rw [G.root.1] at this; simpa using this
  · intro p d it k hd hit hk n j e he
    obtain ⟨i, hPi, hat⟩ := G.of_shows (hd.shows h hm)
    obtain ⟨nd, hn⟩ := (G.dom _).mp (List.mem_of_getElem? hPi)
    obtain ⟨d', e1, _, _, _, _, _, e7⟩ := G.getEntryAt hPi hn
    have hat' : a.create fullBuilder i = .ok d := hat
    rw [hat'] at e1; cases e1
    cases d with
    | file f => cases hit
    | link l => cases hit
    | dir r dd =>
      cases hit; cases hk
      obtain ⟨_, hr, _⟩ := e7 r dd rfl
      exact hrange p r hr n j e he

/-- **C87, content.** Reading the content address of an entry from the archive is the same as reading the content of the entry. -/
theorem C87_content (bytes : ContentAddr → GetBytes) (e : FullEntry) :
    (∀ c, pyContentAddress e = some c → pyGetContent bytes c = pyContent bytes e) ∧
    (pyContentAddress e = none → pyContent bytes e = .typeError) := by
  cases e <;> simp [pyContentAddress, pyContent]

/-- **C87, `repr`.** For entries with a name in UTF-8: kind and name; so two entries of one directory never look the same. -/
theorem C87_repr (e : FullEntry) (hv : validUtf8 (pyCommon e).path = true) :
    (∃ k, pyRepr e = .ok (k ++ ascii "(" ++ (pyCommon e).path ++ ascii ")") ∧
      k = match e with | .file _ => ascii "File" | .link _ => ascii "Link" | .dir _ _ => ascii "Dir") := by
  cases e <;> exact ⟨_, by rw [pyRepr, if_pos hv]; rfl, rfl⟩

def otherReqs : List AddReq := [⟨ascii "z", .ok (some .dir), ⟨0, 0, 0, 0⟩⟩]
def otherSt : Creator := (Creator.new.run otherReqs).getD Creator.new
def otherArchive : Archive := writeArchive otherSt [0]
theorem otherWritten : Written otherReqs otherArchive := by
  obtain ⟨m, paths, hs, R⟩ := run_rel (show Creator.new.run otherReqs = some otherSt from rfl)
  exact ⟨otherSt, [0], rfl, R.layoutLoop_sound 3 _ _ (by rw [R.len]) (by decide), rfl, by decide⟩

/-- **C87 is false in full**: an entry compares equal to any entry of another archive that has the same index. -/
theorem C87_counterexample : ∃ (rs ss : List AddReq) (a b : Archive) (p q : List Bytes) (e f : FullEntry),
    Written rs a ∧ Written ss b ∧ PyHas a p e ∧ PyHas b q f ∧ p ≠ q ∧ (pyCommon e).path ≠ (pyCommon f).path ∧ pyEq e f = true := by
  obtain ⟨e, he⟩ : ∃ e, pyGetEntry exArchive (ascii "a") = .ok e ∧ (pyCommon e).idx = 0 ∧ (pyCommon e).path = ascii "a" :=
    ⟨_, rfl, by decide, by decide⟩
  obtain ⟨f, hf⟩ : ∃ f, pyGetEntry otherArchive (ascii "z") = .ok f ∧ (pyCommon f).idx = 0 ∧ (pyCommon f).path = ascii "z" :=
    ⟨_, rfl, by decide, by decide⟩
  refine ⟨exReqs, otherReqs, exArchive, otherArchive, _, _, e, f, exWritten, otherWritten, .get _ e he.1, .get _ f hf.1,
    by decide, ?_, ?_⟩
  · rw [he.2.2, hf.2.2]; decide
  · rw [pyEq, he.2.1, hf.2.1]; rfl

/-- what a program got: -/
def gotB : FullEntry := match pyGetEntry exArchive (ascii "b") with | .ok e => e | .error _ => .dir ⟨0, 0⟩ ⟨⟨0, [], none, 0, 0, 0, 0⟩, ⟨0, 0⟩⟩
def gotBX : FullEntry := match pyGetEntry exArchive (ascii "b/x") with | .ok e => e | .error _ => .dir ⟨0, 0⟩ ⟨⟨0, [], none, 0, 0, 0, 0⟩, ⟨0, 0⟩⟩

/-- one entry got in three ways, and its child -/
example : PyHas exArchive [ascii "b"] gotB ∧ PyHas exArchive [ascii "b", ascii "x"] gotBX ∧
    pyParent exArchive gotBX = .ok (some gotB) ∧ .ok (some gotB) ∈ (pyIterRoot exArchive).nexts exArchive 2 ∧
    pyEq gotBX gotB = false ∧ pyRepr gotB = .ok (ascii "Dir(b)") :=
  ⟨.get (ascii "b") gotB (by decide), .get (ascii "b/x") gotBX (by decide), by decide, by decide, by decide, by decide⟩

/-- the hypotheses of `C87_compare` are met -/
example : ∃ L : List (List Bytes), (L.Pairwise canonLt ∧ ∀ p, p ∈ L ↔ exMap p ≠ none) ∧ PyHas exArchive [ascii "b"] gotB := by
  obtain ⟨P, G⟩ := exWritten.good' exMap_spec
  exact ⟨P, ⟨G.sorted, fun p => by rw [G.dom]; cases exMap p <;> simp⟩, .get (ascii "b") gotB (by decide)⟩

end Arx
