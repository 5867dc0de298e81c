import Verif.Props.Python
/-!
# C39, C53: reading with the Python module
-/
namespace Arx

/-! ## C39 -/

/-- `e` is what the module shows for the entry at path `p`: a row of the archive that the parent links place at
`p`. -/
def Shows (a : Archive) (p : List Bytes) (e : FullEntry) : Prop :=
  ∃ i, i < a.entries.length ∧ a.getEntryAt fullBuilder i = .ok e ∧ pathUp a a.entries.length i = some p

theorem PyIter.nexts_rows (a : Archive) : ∀ (n o c : Nat) (es : List FullEntry),
    (List.range' o c).map (fun i => a.getEntryAt fullBuilder i) = es.map .ok →
    PyIter.nexts a n ⟨o, o + c⟩ = (es.take n).map (fun e => .ok (some e)) ++ List.replicate (n - es.length) (.ok none) := by
  intro n
  induction n with
  | zero => intro o c es _; simp [PyIter.nexts]
  | succ n ih =>
    intro o c es h
    cases c with
    | zero =>
      have hes : es = [] := by simpa using h.symm
      subst hes
      have := ih o 0 [] (by simp)
      simp only [PyIter.nexts, PyIter.next, Nat.add_zero, if_pos] at this ⊢
      rw [this]
      simp [List.replicate_succ]
    | succ c =>
      cases es with
      | nil => simp [List.range'_succ] at h
      | cons e es =>
        simp only [List.range'_succ, List.map_cons, List.cons.injEq] at h
        have := ih (o + 1) c es h.2
        have h2 : o + 1 + c = o + (c + 1) := by omega
        rw [h2] at this
        have hn : PyIter.next a ⟨o, o + (c + 1)⟩ = (.ok (some e), ⟨o + 1, o + (c + 1)⟩) := by
          simp only [PyIter.next]
          rw [if_neg (by omega), h.1]
        simp only [PyIter.nexts, hn, this]
        simp

/-- the rows of a range -/
theorem Good.rows {a : Archive} {m : PathMap} {P : List (List Bytes)} (G : Good a m P) {d : List Bytes} {rg : Range}
    (hr : RangeIs P d rg.offset rg.count) :
    ∃ (ns : List Bytes) (es : List FullEntry), KidsOf m d ns ∧ es.length = ns.length ∧ rg.count = ns.length ∧
      (List.range' rg.offset rg.count).map (fun i => a.getEntryAt fullBuilder i) = es.map .ok ∧
      ∀ k c e, ns[k]? = some c → es[k]? = some e → ∃ n, m (d ++ [c]) = some n ∧ EntryIs e n ∧ e.common.path = c ∧
        P[rg.offset + k]? = some (d ++ [c]) ∧ a.getEntryAt fullBuilder (rg.offset + k) = .ok e ∧ e.common.idx = rg.offset + k ∧
        e.common.parent = (if d = [] then none else some (P.idxOf d)) := by
  have hk := G.kidsOf d
  have hread := G.readRange fullBuilder hr
  have hlen : rg.count = (kids P d).length := by simpa [Archive.readRange] using congrArg List.length hread
  have hex : ∀ c ∈ kids P d, ∃ e, a.entOf P fullBuilder (d ++ [c]) = .ok e := by
    intro c hc
    obtain ⟨n, hn⟩ := (hk.2 c).mp hc
    obtain ⟨i, hi⟩ := G.idx_of hn
    obtain ⟨e, h1, _⟩ := G.getEntryAt hi hn
    exact ⟨e, by rw [Archive.entOf, G.idxOf_eq hi]; exact h1⟩
  obtain ⟨es, hes⟩ : ∃ es : List FullEntry, (kids P d).map (fun c => a.entOf P fullBuilder (d ++ [c])) = es.map .ok := by
    generalize kids P d = l at hex
    induction l with
    | nil => exact ⟨[], rfl⟩
    | cons c l ih =>
      obtain ⟨e, he⟩ := hex c (by simp)
      obtain ⟨es, hes⟩ := ih (fun c' h' => hex c' (by simp [h']))
      exact ⟨e :: es, by simp [he, hes]⟩
  have hrows : (List.range' rg.offset rg.count).map (fun i => a.getEntryAt fullBuilder i) = es.map .ok := by
    rw [← hes, ← hread]; rfl
  have hlen2 : es.length = (kids P d).length := by simpa using (congrArg List.length hes).symm
  refine ⟨kids P d, es, hk, hlen2, hlen, hrows, ?_⟩
  intro k c e hc he
  obtain ⟨n, hn⟩ := (hk.2 c).mp (List.mem_of_getElem? hc)
  have hkl : k < rg.count := by rw [hlen]; exact (List.getElem?_eq_some_iff.mp hc).1
  have hat : a.getEntryAt fullBuilder (rg.offset + k) = .ok e := by
    have := congrArg (fun l => l[k]?) hrows
    simp only [List.getElem?_map, he, List.getElem?_range' hkl, Option.map_some, Nat.one_mul] at this
    exact Option.some.inj this
  -- the row holds d ++ [c]
  obtain ⟨x, hx⟩ := (hr (rg.offset + k)).mp ⟨by omega, by omega⟩
  obtain ⟨nx, hnx⟩ := (G.dom _).mp (List.mem_of_getElem? hx)
  have hent : a.entOf P fullBuilder (d ++ [c]) = .ok e := by
    have := congrArg (fun l => l[k]?) hes
    simp only [List.getElem?_map, he, hc, Option.map_some] at this
    exact Option.some.inj this
  obtain ⟨i, hi⟩ := G.idx_of hn
  obtain ⟨e', h1, h2, h3, h4, h5, h6, _⟩ := G.getEntryAt hi hn
  rw [Archive.entOf, G.idxOf_eq hi, h1] at hent
  cases hent
  obtain ⟨e', g1, _, _, g4, _⟩ := G.getEntryAt hx hnx
  have hat' : a.create fullBuilder (rg.offset + k) = .ok e := hat
  rw [hat'] at g1; cases g1
  have hii : i = rg.offset + k := by rw [← h4, g4]
  subst hii
  refine ⟨n, hn, h2, by simpa using h3.symm, hi, hat, h4, ?_⟩
  rw [h6]
  by_cases hd : d = []
  · subst hd; simp
  · have : 0 < d.length := List.length_pos_iff.mpr hd
    rw [if_neg hd, if_neg (by simp; omega)]
    simp

theorem Good.shows {a : Archive} {m : PathMap} {P : List (List Bytes)} (G : Good a m P) {i : Nat} {p : List Bytes} {e : FullEntry}
    (hp : P[i]? = some p) (he : a.getEntryAt fullBuilder i = .ok e) : Shows a p e := by
  have hi : i < a.entries.length := by rw [G.len]; exact (List.getElem?_eq_some_iff.mp hp).1
  have hlen := G.length_path_le _ p i (Nat.le_refl _) hp
  exact ⟨i, hi, he, G.pathUp _ _ _ hp (by omega)⟩

theorem Good.of_shows {a : Archive} {m : PathMap} {P : List (List Bytes)} (G : Good a m P) {p : List Bytes} {e : FullEntry}
    (h : Shows a p e) : ∃ i, P[i]? = some p ∧ a.getEntryAt fullBuilder i = .ok e := by
  obtain ⟨i, hi, he, hp⟩ := h
  have hi' : i < P.length := by rw [← G.len]; exact hi
  have hPi := List.getElem?_eq_getElem hi'
  have hlen := G.length_path_le _ P[i] i (Nat.le_refl _) hPi
  rw [G.pathUp _ _ _ hPi (by omega)] at hp
  cases hp
  exact ⟨i, hPi, he⟩

/-- the answers of `n` calls of `__next__` of an iterator that gives `es` -/
def answers (es : List FullEntry) (n : Nat) : List (Except RErr (Option FullEntry)) :=
  (es.take n).map (fun e => .ok (some e)) ++ List.replicate (n - es.length) (.ok none)

/-- **C39.** For every archive:
* iterating it gives, by calling `__next__` any number of times, its top-level entries — one per name, in
  increasing order of the names — and then nothing for ever; they have no parent;
* iterating the entry of a directory gives its children in the same way; `nb_children` is their number, and
  the `parent` of each child is (equal to) the directory;
* entries of files and links cannot be iterated and have no number of children (TypeError). -/
theorem C39_iteration {rs : List AddReq} {a : Archive} {m : PathMap} (h : Written rs a)
    (hm : SpecRun PathMap.empty rs m) :
    (∃ ns es, KidsOf m [] ns ∧ es.length = ns.length ∧ (∀ n, (pyIterRoot a).nexts a n = answers es n) ∧
      ∀ (k : Nat) c e, ns[k]? = some c → es[k]? = some e → (pyCommon e).path = c ∧ Shows a [c] e ∧ (∃ n, m [c] = some n ∧ EntryIs e n) ∧
        pyParent a e = .ok none) ∧
    (∀ p d, Shows a p d →
      (match m p with
       | none => False
       | some n =>
        EntryIs d n ∧
        if n.isDir then
          ∃ it ns es, pyIterEntry d = some it ∧ KidsOf m p ns ∧ es.length = ns.length ∧ pyNbChildren d = some ns.length ∧
            (∀ n, it.nexts a n = answers es n) ∧
            ∀ (k : Nat) c e, ns[k]? = some c → es[k]? = some e → (pyCommon e).path = c ∧ Shows a (p ++ [c]) e ∧
              (∃ n, m (p ++ [c]) = some n ∧ EntryIs e n) ∧ ∃ d', pyParent a e = .ok (some d') ∧ pyEq d' d = true ∧ Shows a p d'
        else pyIterEntry d = none ∧ pyNbChildren d = none)) := by
  obtain ⟨P, G⟩ := h.good' hm
  have hcom : ∀ e : FullEntry, pyCommon e = e.common := by intro e; cases e <;> rfl
  constructor
  · have hroot : RangeIs P [] a.root.offset a.root.count := by rw [G.root.1]; exact G.root.2
    obtain ⟨ns, es, h1, h2, h3, h4, h5⟩ := G.rows hroot
    refine ⟨ns, es, h1, h2, fun n => PyIter.nexts_rows a n _ _ _ h4, ?_⟩
    intro k c e hc he
    obtain ⟨n, g1, g2, g3, g4, g5, g6, g7⟩ := h5 k c e hc he
    refine ⟨by rw [hcom, g3], G.shows g4 g5, ⟨n, g1, g2⟩, ?_⟩
    rw [pyParent, hcom, g7, if_pos rfl]
  · intro p d hd
    obtain ⟨i, hPi, hat⟩ := G.of_shows hd
    obtain ⟨n, hn⟩ := (G.dom p).mp (List.mem_of_getElem? hPi)
    obtain ⟨d', e1, e2, e3, e4, e5, e6, e7⟩ := G.getEntryAt hPi hn
    have hat' : a.create fullBuilder i = .ok d := hat
    rw [hat'] at e1; cases e1
    rw [hn]
    refine ⟨e2, ?_⟩
    have hpne : p ≠ [] := by intro e; rw [e, G.wf.root] at hn; cases hn
    obtain ⟨q1, q2, q3, q4⟩ := e2
    cases hk : n.kind with
    | dir =>
      rw [hk] at q4
      obtain ⟨r, dd, rfl⟩ := q4
      obtain ⟨_, hr, _⟩ := e7 r dd rfl
      rw [if_pos (show n.isDir = true from Kind.isDir_iff.mpr hk)]
      obtain ⟨ns, es, h1, h2, h3, h4, h5⟩ := G.rows hr
      refine ⟨_, ns, es, rfl, h1, h2, by rw [pyNbChildren, h3], fun n => PyIter.nexts_rows a n _ _ _ h4, ?_⟩
      intro k c e hc he
      obtain ⟨n, g1, g2, g3, g4, g5, g6, g7⟩ := h5 k c e hc he
      refine ⟨by rw [hcom, g3], G.shows g4 g5, ⟨n, g1, g2⟩, .dir r dd, ?_, by simp [pyEq], hd⟩
      rw [pyParent, hcom, g7, if_neg hpne]
      simp only [G.idxOf_eq hPi, hat]
    | file s ct =>
      rw [hk] at q4
      obtain ⟨f, rfl, _⟩ := q4
      rw [if_neg (by intro hc; rw [Node.isDir] at hc; have := Kind.isDir_iff.mp hc; rw [hk] at this; cases this)]
      exact ⟨rfl, rfl⟩
    | link t =>
      rw [hk] at q4
      obtain ⟨f, rfl, _⟩ := q4
      rw [if_neg (by intro hc; rw [Node.isDir] at hc; have := Kind.isDir_iff.mp hc; rw [hk] at this; cases this)]
      exact ⟨rfl, rfl⟩

example : ((pyIterRoot exArchive).nexts exArchive 4).map (fun x => x.map (fun o => o.map (fun e => (pyCommon e).path))) =
    [.ok (some (ascii "a")), .ok (some (ascii "b")), .ok none, .ok none] := by decide

/-! ## C53 -/

/-- The path of the archive that the Python module looks for: the names of the text without the `.` ones. -/
def pyPathOf (text : Bytes) : List Bytes := (comps text).filter (· ≠ CUR)

/-- **C53 (partial), `get_entry`.** For every archive and text:
* an absolute path raises RuntimeError, a path that is not UTF-8 raises (UnicodeDecodeError);
* for any other path that names something: the entry of the archive at that path, with the stored values, if
  there is one, ValueError otherwise.
Missing: paths that name nothing, like `""` and `"."` (crash, `C53_counterexamples`). -/
theorem C53_get_entry_partial {rs : List AddReq} {a : Archive} {m : PathMap} (h : Written rs a)
    (hm : SpecRun PathMap.empty rs m) (text : Bytes) :
    (text.head? = some SEP → pyGetEntry a text = .error .runtime) ∧
    (text.head? ≠ some SEP → (∃ c ∈ comps text, validUtf8 c = false) → pyGetEntry a text = .error .unicode) ∧
    (text.head? ≠ some SEP → (∀ c ∈ comps text, validUtf8 c = true) → pyPathOf text ≠ [] →
      match m (pyPathOf text) with
      | some n => ∃ e, pyGetEntry a text = .ok e ∧ Shows a (pyPathOf text) e ∧ EntryIs e n ∧
          pyPath e = .ok ((pyPathOf text).getLastD []) ∧ (pyCommon e).rights = n.info.rights % 256
      | none => pyGetEntry a text = .error .value) := by
  refine ⟨fun h1 => ?_, fun h1 h2 => ?_, fun h1 h2 h3 => ?_⟩
  · rw [pyGetEntry, fromPathBuf_eq, if_pos h1]
  · rw [pyGetEntry, fromPathBuf_eq, if_neg h1, if_neg]
    obtain ⟨c, hc, hv⟩ := h2
    intro hall
    rw [hall c hc] at hv; cases hv
  · have hcp : comps (joinPath (pyPathOf text)) = pyPathOf text :=
      comps_joinPath (fun c hc => filterCur_valid hc)
    have hget := C01_read_back h hm (joinPath (pyPathOf text)) (by rw [hcp]; exact h3)
    rw [hcp] at hget
    have hpy : pyGetEntry a text = (match a.getEntry fullBuilder (joinPath (pyPathOf text)) with
      | .ok e => .ok e
      | .error .panic => .error .panic
      | .error _ => .error .value) := by
      rw [pyGetEntry, fromPathBuf_eq, if_neg h1, if_pos h2]; rfl
    cases hn : m (pyPathOf text) with
    | none =>
      rw [hn] at hget
      rw [hpy, hget]
    | some n =>
      rw [hn] at hget
      obtain ⟨e, g1, g2, g3⟩ := hget
      have hok : pyGetEntry a text = .ok e := by rw [hpy, g1]
      have hcom : pyCommon e = e.common := by cases e <;> rfl
      obtain ⟨P, G⟩ := h.good' hm
      obtain ⟨i, hi⟩ := G.idx_of hn
      obtain ⟨e', k1, k2, k3, k4, k5, _⟩ := G.getEntryAt hi hn
      have hroot : RangeIs P [] a.root.offset a.root.count := by rw [G.root.1]; exact G.root.2
      have hl := G.getLoop G.fullBuilder_total (comps (joinPath (pyPathOf text))) [] a.root (by rw [hcp]; exact h3) hroot
      simp only [List.nil_append, hcp] at hl
      have hee : e' = e := by
        rcases hl with ⟨j, hj, hc⟩ | ⟨hn', _⟩ | ⟨q, nq, _, _, _, _, _, _, hn', _⟩
        · have : j = i := G.idx_inj hj hi
          subst this
          rw [Archive.getEntry, hcp, hc, k1] at g1
          cases g1; rfl
        · rw [hn] at hn'; cases hn'
        · rw [hn] at hn'; cases hn'
      subst hee
      refine ⟨e', hok, G.shows hi k1, g2, ?_, by rw [hcom, k5]⟩
      have hlast : (pyPathOf text).getLastD [] = e'.common.path := by
        rw [List.getLastD_eq_getLast?, g3]; rfl
      rw [pyPath, hcom, hlast, if_pos]
      have := List.mem_of_getLast? g3
      exact h2 _ (List.mem_filter.mp this).1

/-- **C53, entries.** For every entry the module shows: `get_content` of a file whose content is available is a
stream on exactly that content, at its beginning; OSError if its pack is missing; TypeError for directories and
links. `get_target` of a link is its target; TypeError for others. -/
theorem C53_entry {rs : List AddReq} {a : Archive} {m : PathMap} (h : Written rs a)
    (hm : SpecRun PathMap.empty rs m) (bytes : ContentAddr → GetBytes) {p : List Bytes} {e : FullEntry} (he : Shows a p e) :
    ∃ n, m p = some n ∧ EntryIs e n ∧
      (∀ s c, n.kind = .file s c → pyTarget e = none ∧
        (∀ b, bytes c = .found b → pyContent bytes e = .stream ⟨b, 0⟩) ∧
        (bytes c = .missing → pyContent bytes e = .osError)) ∧
      (∀ t, n.kind = .link t → pyTarget e = some t ∧ pyContent bytes e = .typeError) ∧
      (n.kind = .dir → pyTarget e = none ∧ pyContent bytes e = .typeError) := by
  obtain ⟨P, G⟩ := h.good' hm
  obtain ⟨i, hPi, hat⟩ := G.of_shows he
  obtain ⟨n, hn⟩ := (G.dom p).mp (List.mem_of_getElem? hPi)
  obtain ⟨d', e1, e2, _⟩ := G.getEntryAt hPi hn
  have hat' : a.create fullBuilder i = .ok e := hat
  rw [hat'] at e1; cases e1
  refine ⟨n, hn, e2, ?_⟩
  obtain ⟨_, _, _, q⟩ := e2
  refine ⟨fun s c hk => ?_, fun t hk => ?_, fun hk => ?_⟩ <;> rw [hk] at q
  · obtain ⟨f, rfl, _, rfl⟩ := q
    refine ⟨rfl, fun b hb => ?_, fun hb => ?_⟩ <;> simp [pyContent, pyGetContent, hb]
  · obtain ⟨l, rfl, rfl⟩ := q; exact ⟨rfl, rfl⟩
  · obtain ⟨r, d, rfl⟩ := q; exact ⟨rfl, rfl⟩

/-- **C53, `extract`.** On every file system and with whatever failures, nothing that exists is lost or
changed; and in an empty place (which need not exist), with entries that can be recreated and no failure of
system calls, the whole tree is recreated. -/
theorem C53_extract {rs : List AddReq} {a : Archive} {m : PathMap} (h : Written rs a) (hm : SpecRun PathMap.empty rs m)
    (bytes : ContentAddr → GetBytes) (env : Env) (cwd : List Bytes) (path : Bytes) (before : FS) :
    (before.WF → ∀ depth last q x, before.nodes q = some x →
      (pyExtract a bytes env cwd path depth before last).1.fs.nodes q = some x ∧
      ∀ i, x = .file i → (pyExtract a bytes env cwd path depth before last).1.fs.data i = before.data i) ∧
    (Extractable (m.sub []) bytes → EmptyTarget before (baseNames cwd path) →
      (∀ n, env.fault n = false) → (∀ n, NoErr (env.sched n)) →
      ∀ depth last w res, a.entries.length < depth → NoErr last →
        pyExtract a bytes env cwd path depth before last = (w, res) → w.finished →
        res = .ok ∧ TreeAt w.fs (baseNames cwd path) (m.sub []) bytes) := by
  constructor
  · intro hw depth last q x hq
    exact C15_existing_kept _ (Or.inr (Or.inl rfl)) before hw depth _ last q x hq
  · intro hE hT h1 h2 depth last w res hd hl hrun hfin
    have hx : CleanExtraction { a := a, bytes := bytes, files := [], recurse := true, base := baseNames cwd path, mode := .warn, env := env }
        a.root before w.fs res := ⟨h1, h2, depth, last, w, hd, hrun, hfin, rfl, hl⟩
    obtain ⟨k1, k2, _⟩ := C14_reproduces (d0 := []) ⟨h, hm, Or.inl ⟨rfl, rfl⟩⟩ rfl hE hT hx
    exact ⟨k1, k2⟩

/-- **C53 is false in full**: paths that name nothing crash, on every archive (even an empty one); so does
`get_content` of a file whose content cannot be read. -/
theorem C53_counterexamples :
    (∀ (a : Archive), pyGetEntry a [] = .error .panic ∧ pyGetEntry a (ascii ".") = .error .panic) ∧
    (∀ (bytes : ContentAddr → GetBytes) (f : FileEntry), bytes f.content = .err → pyContent bytes (.file f) = .panic) := by
  refine ⟨fun a => ⟨rfl, rfl⟩, fun bytes f h => ?_⟩
  simp [pyContent, pyGetContent, h]

/-- the hypotheses of `C53_extract` are met: extraction of the example archive to `t` from `/` -/
example : Extractable (exMap.sub []) exBytes ∧ EmptyTarget fs0 (baseNames [] (ascii "t")) := ⟨exExtractable, exT⟩

example : (pyGetEntry exArchive (ascii "b//x")).map (fun e => (pyCommon e).mtime) = .ok 99 ∧
    (pyGetEntry exArchive (ascii "./b/x/.")).map (fun e => (pyCommon e).mtime) = .ok 99 ∧
    (pyGetEntry exArchive (ascii "b/y")).map (fun e => (pyCommon e).mtime) = .error .value ∧
    (pyGetEntry exArchive (ascii "/b/x")).map (fun e => (pyCommon e).mtime) = .error .runtime := by decide

end Arx
