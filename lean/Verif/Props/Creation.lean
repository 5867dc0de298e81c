import Verif.Proof.WrittenProof
/-!
# Properties of created archives: C01–C08, C32, C40, C48, C49
-/
namespace Arx

/-! A concrete history used to show that hypotheses are met: an implicit directory, a file below an
existing directory, a refused file, a link, a repeated directory. -/

def exMeta : Meta := ⟨7, 8, 0o640, 99⟩
def exReqs : List AddReq :=
  [ ⟨ascii "b/x", .ok (some (.file 3 ⟨1, 0⟩)), exMeta⟩,
    ⟨ascii "a", .ok (some .dir), exMeta⟩,
    ⟨ascii "b/x", .ok (some (.file 4 ⟨1, 1⟩)), exMeta⟩,
    ⟨ascii "a/l", .ok (some (.link (ascii "../b"))), exMeta⟩,
    ⟨ascii "b", .ok (some .dir), exMeta⟩,
    ⟨ascii "b/x/y", .ok (some .dir), exMeta⟩ ]

/-- the final creator state of the example -/
def exSt : Creator := (Creator.new.run exReqs).getD Creator.new
/-- its layout: a, b, a/l, b/x -/
def exOrder : List Nat := [2, 0, 3, 1]
def exArchive : Archive := writeArchive exSt exOrder

theorem exRun : Creator.new.run exReqs = some exSt := by rfl

theorem exLayout : layoutLoop exSt 3 (List.range exSt.store.length) = some exOrder := by decide

theorem exWritten : Written exReqs exArchive := by
  obtain ⟨m, paths, hs, R⟩ := run_rel exRun
  refine ⟨exSt, exOrder, exRun, ?_, rfl, by decide⟩
  exact R.layoutLoop_sound 3 _ _ (by rw [R.len]) exLayout

example : exArchive.entries.map (fun r => (r.name, r.parent, r.firstChild, r.nbChildren)) =
    [(ascii "a", 0, 2, 1), (ascii "b", 0, 3, 1), (ascii "l", 1, 0, 0), (ascii "x", 2, 0, 0)] := by decide

/-- every crash-free history has exactly one specification map -/
theorem spec_exists {rs : List AddReq} {a : Archive} (h : Written rs a) :
    ∃ m, SpecRun PathMap.empty rs m ∧ ∀ m', SpecRun PathMap.empty rs m' → m' = m := by
  obtain ⟨m, P, hm, _⟩ := h.good
  exact ⟨m, hm, fun m' h' => h'.det hm⟩

/-! ## C01 -/

/-- **C01.** For every history and every non-empty queried path: the lookup finds an entry iff the
specification map has one there, and the entry has that node's kind, size, content, target, owner,
group and mtime, and the last component as its name. Otherwise the answer is "not found". -/
theorem C01_read_back {rs : List AddReq} {a : Archive} {m : PathMap} (h : Written rs a)
    (hm : SpecRun PathMap.empty rs m) (path : RPath) (hp : comps path ≠ []) :
    match m (comps path) with
    | some n => ∃ e, a.getEntry fullBuilder path = .ok e ∧ EntryIs e n ∧
        (comps path).getLast? = some e.common.path
    | none => a.getEntry fullBuilder path = .error .notFound := by
  obtain ⟨P, G⟩ := h.good' hm
  have hroot : RangeIs P [] a.root.offset a.root.count := by rw [G.root.1]; exact G.root.2
  have hl := G.getLoop G.fullBuilder_total (comps path) [] a.root hp hroot
  simp only [List.nil_append] at hl
  rcases hl with ⟨i, hi, hc⟩ | ⟨hn, hc⟩ | ⟨q, n, _, _, _, hne, hq, hqd, hn, e, hc⟩
  · obtain ⟨n, hn⟩ := (G.dom _).mp (List.mem_of_getElem? hi)
    obtain ⟨e, h1, h2, h3, _⟩ := G.getEntryAt hi hn
    rw [hn]
    exact ⟨e, by rw [Archive.getEntry, hc, h1], h2, h3⟩
  · rw [hn]; exact hc
  · rw [hn]
    -- the full builder never fails, so the error is "not found"
    exact G.getLoop_notFound (comps path) [] a.root hp hroot hn

example : (exArchive.getEntry fullBuilder (ascii "b/x")).map (fun e => e.common.mtime) = .ok 99 := by decide
example : exArchive.getEntry fullBuilder (ascii "b/y") = .error .notFound := by decide

/-! ## C03, C04 -/

/-- the outcome and the effect of one add in any reachable state, in terms of the specification -/
theorem add_spec {rs : List AddReq} {st : Creator} {m : PathMap} (h : Creator.new.run rs = some st)
    (hm : SpecRun PathMap.empty rs m) (r : AddReq) :
    ∃ m', SpecAdd m r m' (st.addEntry r).2 ∧
      ((st.addEntry r).2 ≠ .panic → SpecRun PathMap.empty (rs ++ [r]) m') := by
  obtain ⟨m0, paths, hs, R⟩ := run_rel h
  have := hs.det hm; subst this
  obtain ⟨m', h1, _⟩ := R.addEntry r
  exact ⟨m', h1, fun hne => hs.append (.cons h1 hne (.nil _))⟩

/-- **C03.** For an entry with a usable name: the add is accepted exactly when no proper ancestor is a
file or link and either the path is free, or both the new and the existing entry are directories;
otherwise it is refused with an error (never a crash). -/
theorem C03_accepted_iff {rs : List AddReq} {st : Creator} {m : PathMap}
    (h : Creator.new.run rs = some st) (hm : SpecRun PathMap.empty rs m) (r : AddReq) (k : Kind)
    (hk : r.kind = .ok (some k)) (hp : entryPath r.path ≠ [])
    (hl : (entryPath r.path).getLast? ≠ some PARENT) :
    ((st.addEntry r).2 = .ok ↔
      ¬ (∃ q n, ProperAncestor q (entryPath r.path) ∧ m q = some n ∧ n.isDir = false) ∧
      (m (entryPath r.path) = none ∨
        (k = .dir ∧ ∃ n, m (entryPath r.path) = some n ∧ n.isDir = true))) ∧
    ((st.addEntry r).2 = .ok ∨ ∃ e, (st.addEntry r).2 = .err e) := by
  obtain ⟨m', hs, _⟩ := add_spec h hm r
  cases ho : (st.addEntry r).2 with
  | ok =>
    rw [ho] at hs
    refine ⟨⟨fun _ => ?_, fun _ => rfl⟩, Or.inl rfl⟩
    cases hs with
    | ignored h1 h2 => rw [hk] at h2; cases h2
    | sameDir n h1 h2 h3 h4 h5 h6 =>
      rw [hk] at h4; cases h4
      exact ⟨h1, Or.inr ⟨rfl, n, h5, h6⟩⟩
    | added k' h1 h2 h3 h4 h5 => exact ⟨h1, Or.inl h5⟩
  | err e =>
    rw [ho] at hs
    refine ⟨⟨fun hh => (by cases hh), ?_⟩, Or.inr ⟨e, rfl⟩⟩
    rintro ⟨hnb, hfree⟩
    exfalso
    cases hs with
    | blocked hb => exact hnb hb
    | kindErr u h1 h2 => rw [hk] at h2; cases h2
    | «exists» k' n e' h1 h2 h3 h4 h5 h6 =>
      rw [hk] at h4; cases h4
      rcases hfree with hf | ⟨rfl, n', hn', hd⟩
      · rw [h5] at hf; cases hf
      · rw [h5] at hn'; cases hn'; simp [Kind.isDir, hd] at h6
  | panic =>
    rw [ho] at hs
    cases hs with
    | noName _ k' h1 h2 h3 =>
      rcases h3 with h3 | h3
      · exact absurd h3 hp
      · exact absurd h3 hl

/-- **C03 (re-adding a directory).** Re-adding an existing directory is accepted and changes nothing:
the archive written afterwards is the same. -/
theorem C03_readd_dir {rs : List AddReq} {m : PathMap} (r : AddReq) (n : Node)
    (hm : SpecRun PathMap.empty rs m) (hk : r.kind = .ok (some .dir))
    (hl : (entryPath r.path).getLast? ≠ some PARENT)
    (he : m (entryPath r.path) = some n) (hd : n.isDir = true)
    {st : Creator} (h : Creator.new.run rs = some st) :
    (st.addEntry r).2 = .ok ∧ SpecRun PathMap.empty (rs ++ [r]) m := by
  obtain ⟨m0, paths, hs, R⟩ := run_rel h
  have := hs.det hm; subst this
  have hp : entryPath r.path ≠ [] := by
    intro e; rw [e, R.wf.root] at he; cases he
  have hnb : ¬ Blocked m0 (entryPath r.path) := by
    rintro ⟨q, n', hq, hmq, hnd⟩
    obtain ⟨d, hd1, hd2⟩ := R.wf.ancestors _ _ q he hq
    rw [hmq] at hd1; cases hd1; rw [hnd] at hd2; cases hd2
  have hok := ((C03_accepted_iff h hm r .dir hk hp hl).1).mpr ⟨hnb, Or.inr ⟨rfl, n, he, hd⟩⟩
  refine ⟨hok, hs.append (.cons (SpecAdd.sameDir n hnb hp hl hk he hd) (by simp) (.nil _))⟩

example : (exSt.addEntry ⟨ascii "b/x", .ok (some .dir), exMeta⟩).2 = .err .dirOverNonDir ∧
    (exSt.addEntry ⟨ascii "b/x/z", .ok (some .dir), exMeta⟩).2 = .err .notADir ∧
    (exSt.addEntry ⟨ascii "b//./", .ok (some .dir), exMeta⟩).2 = .ok ∧
    (exSt.addEntry ⟨ascii "b/z", .ok (some .dir), exMeta⟩).2 = .ok := by decide

/-- **C04.** After an accepted add of a new entry: the entry is there as given, every proper ancestor
is a directory, the ancestors that did not exist have owner 1000, group 1000, rights 0755 and mtime 0,
and every other path is unchanged. -/
theorem C04_implicit_parents {rs : List AddReq} {st : Creator} {m m' : PathMap}
    (h : Creator.new.run rs = some st) (hm : SpecRun PathMap.empty rs m) (r : AddReq) (k : Kind)
    (hk : r.kind = .ok (some k)) (hok : (st.addEntry r).2 = .ok)
    (hm' : SpecRun PathMap.empty (rs ++ [r]) m') :
    (m (entryPath r.path) = none → m' (entryPath r.path) = some ⟨r.info, k⟩) ∧
    (∀ q, ProperAncestor q (entryPath r.path) → ∃ d, m' q = some d ∧ d.isDir = true) ∧
    (∀ q, ProperAncestor q (entryPath r.path) → m q = none →
      m' q = some ⟨⟨1000, 1000, 0o755, 0⟩, .dir⟩) ∧
    (∀ q n, m q = some n → m' q = some n) ∧
    (∀ q, m q = none → ¬ ProperAncestor q (entryPath r.path) → q ≠ entryPath r.path → m' q = none) := by
  obtain ⟨m2, hs, hrun⟩ := add_spec h hm r
  have := (hrun (by rw [hok]; simp)).det hm'; subst this
  obtain ⟨m0, paths, hs0, R⟩ := run_rel h
  have := hs0.det hm; subst this
  have hwf' : m2.WF := by
    obtain ⟨m3, h3, h4⟩ := R.addEntry r
    obtain ⟨p', R'⟩ := h4 (by rw [hok]; simp)
    have := hs.det h3 (by rw [hok]; simp) (by rw [hok]; simp)
    subst this; exact R'.wf
  rw [hok] at hs
  cases hs with
  | ignored h1 h2 => rw [hk] at h2; cases h2
  | sameDir n h1 h2 h3 h4 h5 h6 =>
    refine ⟨fun hn => (by rw [h5] at hn; cases hn), fun q hq => R.wf.ancestors _ _ q h5 hq, ?_, fun q n hn => hn, fun q hn _ _ => hn⟩
    intro q hq hn
    obtain ⟨d, hd, _⟩ := R.wf.ancestors _ _ q h5 hq
    rw [hn] at hd; cases hd
  | added k' h1 h2 h3 h4 h5 =>
    rw [hk] at h4; cases h4
    have hself : setNode (withParents m0 (entryPath r.path)) (entryPath r.path) ⟨r.info, k⟩ (entryPath r.path) = some ⟨r.info, k⟩ := setNode_same _ _ _
    refine ⟨fun _ => hself, fun q hq => hwf'.ancestors _ _ q hself hq, ?_, ?_, ?_⟩
    · intro q hq hn
      rw [setNode_other _ _ hq.2.1]
      simp [withParents, hn, hq, defaultDir, defaultMeta]
    · intro q n hn
      rw [setNode_other _ _ (by intro e; subst e; rw [h5] at hn; cases hn)]
      simp [withParents, hn]
    · intro q hn hq hne
      rw [setNode_other _ _ hne]
      simp [withParents, hn, hq]

example : (exArchive.getEntry fullBuilder (ascii "b")).map (fun e => (e.common.owner, e.common.mtime)) = .ok (1000, 0) ∧
    (exArchive.getEntry fullBuilder (ascii "a")).map (fun e => (e.common.owner, e.common.mtime)) = .ok (7, 99) := by decide

/-! ## C06 -/

/-- **C06.** Two histories (any order, any refused or repeated adds) that describe the same path map
produce the same table, entry by entry. -/
theorem C06_order_independent {rs ss : List AddReq} {a b : Archive} {m : PathMap}
    (ha : Written rs a) (hb : Written ss b) (hr : SpecRun PathMap.empty rs m)
    (hs : SpecRun PathMap.empty ss m) : a = b := by
  obtain ⟨P, Ga⟩ := ha.good' hr
  obtain ⟨Q, Gb⟩ := hb.good' hs
  exact Ga.toEncodes.unique Gb.toEncodes

/-- the same history always gives the same archive -/
theorem Written.unique {rs : List AddReq} {a b : Archive} (ha : Written rs a) (hb : Written rs b) : a = b := by
  obtain ⟨m, P, hm, _⟩ := ha.good
  exact C06_order_independent ha hb hm hm

/-- example: reversing independent adds -/
def exReqs2 : List AddReq :=
  [ ⟨ascii "a", .ok (some .dir), exMeta⟩,
    ⟨ascii "a/l", .ok (some (.link (ascii "../b"))), exMeta⟩,
    ⟨ascii "b/x", .ok (some (.file 3 ⟨1, 0⟩)), exMeta⟩ ]

example : (Creator.new.run exReqs2).bind (fun st => st.finalize 3) = some exArchive := by decide

/-! ## C02 -/

/-- **C02 (partial).** If `add_entry` is refused for any reason but a failing `kind()`, every archive
written after any continuation is the archive written without that call. Missing: the case
`kind() = Err`, where the ancestors have already been created (see `C02_counterexample`). -/
theorem C02_refused_add_partial {rs ss : List AddReq} {st : Creator} {r : AddReq} {e : AddErr} {a b : Archive}
    (h : Creator.new.run rs = some st) (he : (st.addEntry r).2 = .err e) (hne : e ≠ .kind)
    (ha : Written (rs ++ r :: ss) a) (hb : Written (rs ++ ss) b) : a = b := by
  obtain ⟨m, paths, hs, R⟩ := run_rel h
  obtain ⟨m', h1, _⟩ := R.addEntry r
  rw [he] at h1
  have hm' : m' = m := by cases h1 <;> simp_all
  subst hm'
  obtain ⟨mb, hmb, _⟩ := spec_exists hb
  obtain ⟨ma, hma, _⟩ := spec_exists ha
  -- split the specification run at `rs`
  have split : ∀ (rs ss : List AddReq) (m0 m2 : PathMap), SpecRun m0 (rs ++ ss) m2 →
      ∃ m1, SpecRun m0 rs m1 ∧ SpecRun m1 ss m2 := by
    intro rs
    induction rs with
    | nil => intro ss m0 m2 h; exact ⟨m0, .nil _, h⟩
    | cons x xs ih =>
      intro ss m0 m2 h
      cases h with
      | cons a1 b1 c1 =>
        obtain ⟨m1, g1, g2⟩ := ih ss _ m2 c1
        exact ⟨m1, .cons a1 b1 g1, g2⟩
  obtain ⟨m1, g1, g2⟩ := split rs ss _ _ hmb
  have := g1.det hs; subst this
  have hrun : SpecRun PathMap.empty (rs ++ r :: ss) mb := g1.append (.cons h1 (by simp) g2)
  have := hma.det hrun; subst this
  exact C06_order_independent ha hb hma hmb

example : ((Creator.new.run (exReqs.take 2)).map (fun st => (st.addEntry ⟨ascii "b/x", .ok (some (.file 4 ⟨1, 1⟩)), exMeta⟩).2))
    = some (.err .fileExists) := by decide

/-- **C02 is false in full**: an entry whose `kind()` fails is refused, yet the written archive has
gained a directory. -/
theorem C02_counterexample : ∃ (rs : List AddReq) (st : Creator) (r : AddReq) (e : AddErr) (a b : Archive),
    Creator.new.run rs = some st ∧ (st.addEntry r).2 = .err e ∧
    Written (rs ++ [r]) a ∧ Written rs b ∧ a ≠ b := by
  let r : AddReq := ⟨ascii "d/f", .error (), exMeta⟩
  refine ⟨[], Creator.new, r, .kind, writeArchive (Creator.new.addEntry r).1 [0], writeArchive Creator.new [],
    rfl, by decide, ?_, ?_, by decide⟩
  · refine ⟨(Creator.new.addEntry r).1, [0], rfl, ⟨?_, ?_⟩, rfl, by decide⟩
    · have : (Creator.new.addEntry r).1.store.length = 1 := by decide
      rw [this]; exact List.Perm.refl _
    · simp
  · exact ⟨Creator.new, [], rfl, ⟨by simp [Creator.new], by simp⟩, rfl, by decide⟩

/-! ## C05, C08 -/

/-- **C08.** For every row of a written archive: `parent()` is `None` exactly for top-level entries,
otherwise it is the row of the directory whose child range contains the entry; and following parents
ends at the root after spelling exactly the path under which the specification map has this entry. -/
theorem C08_parent_links {rs : List AddReq} {a : Archive} {m : PathMap} (h : Written rs a)
    (hm : SpecRun PathMap.empty rs m) (i : Nat) (hi : i < a.entries.length) :
    ∃ p n e, pathUp a a.entries.length i = some p ∧ m p = some n ∧
      a.getEntryAt fullBuilder i = .ok e ∧ EntryIs e n ∧ e.common.idx = i ∧
      (e.common.parent = none ↔ p.length = 1) ∧
      (∀ j, e.common.parent = some j ↔
        ∃ rg d, a.getEntryAt fullBuilder j = .ok (.dir rg d) ∧ rg.offset ≤ i ∧ i < rg.offset + rg.count) := by
  obtain ⟨P, G⟩ := h.good' hm
  have hi' : i < P.length := by rw [← G.len]; exact hi
  have hPi := List.getElem?_eq_getElem hi'
  obtain ⟨n, hn⟩ := (G.dom P[i]).mp (List.mem_of_getElem? hPi)
  obtain ⟨e, h1, h2, h3, h4, h5, h6, _⟩ := G.getEntryAt hPi hn
  have hlen := G.length_path_le _ P[i] i (Nat.le_refl _) hPi
  have hne : P[i] ≠ [] := by intro e; rw [e, G.wf.root] at hn; cases hn
  have hpos := List.length_pos_iff.mpr hne
  have hlast : P[i] = P[i].dropLast ++ [e.common.path] := by
    rcases List.eq_nil_or_concat P[i] with hp | ⟨q, c, hp⟩
    · exact absurd hp hne
    · rw [List.concat_eq_append] at hp; rw [hp] at h3; simp at h3; rw [hp]; simp [h3]
  refine ⟨P[i], n, e, G.pathUp _ _ _ hPi (by omega), hn, h1, h2, h4, ?_, ?_⟩
  · rw [h6]
    by_cases hl : P[i].length ≤ 1
    · simp [hl]; omega
    · simp [hl]; omega
  · intro j
    rw [h6]
    constructor
    · intro hj
      by_cases hl : P[i].length ≤ 1
      · simp [hl] at hj
      · simp only [if_neg hl, Option.some.injEq] at hj
        obtain ⟨d, hd, hdd⟩ := G.wf.ancestors _ _ P[i].dropLast hn
          ⟨by intro e; have := congrArg List.length e; simp at this; omega,
           by intro e; have := congrArg List.length e; simp at this; omega,
           List.dropLast_prefix _⟩
        obtain ⟨j', hj'⟩ := G.idx_of hd
        have hjj : j = j' := by rw [← hj]; exact idxOf_of_getElem? G.nodup hj'
        subst hjj
        obtain ⟨ej, e1, e2, _, _, _, _, e7⟩ := G.getEntryAt hj' hd
        have hk : d.kind = .dir := Kind.isDir_iff.mp hdd
        obtain ⟨_, _, _, e2⟩ := e2
        rw [hk] at e2
        obtain ⟨rg, dd, rfl⟩ := e2
        obtain ⟨_, e8, _⟩ := e7 rg dd rfl
        have := (e8 i).mpr ⟨e.common.path, by rw [hPi, ← hlast]⟩
        exact ⟨rg, dd, e1, this.1, this.2⟩
    · rintro ⟨rg, d, hj, hle, hlt⟩
      -- row j exists
      have hj' : j < P.length := by
        rw [← G.len]
        cases hx : a.entries[j]? with
        | none => simp [Archive.getEntryAt, Archive.create, hx] at hj
        | some r => exact (List.getElem?_eq_some_iff.mp hx).1
      have hPj := List.getElem?_eq_getElem hj'
      obtain ⟨nj, hnj⟩ := (G.dom P[j]).mp (List.mem_of_getElem? hPj)
      obtain ⟨ej, e1, _, _, _, _, _, e7⟩ := G.getEntryAt hPj hnj
      simp only [Archive.getEntryAt] at hj
      rw [e1] at hj; cases hj
      obtain ⟨_, e8, _⟩ := e7 rg d rfl
      obtain ⟨c, hc⟩ := (e8 i).mp ⟨hle, hlt⟩
      rw [hPi] at hc
      have hc' : P[i] = P[j] ++ [c] := by simpa using hc
      have hnej : P[j] ≠ [] := by intro e; rw [e, G.wf.root] at hnj; cases hnj
      have hposj := List.length_pos_iff.mpr hnej
      rw [hc']
      simp only [List.length_append, List.length_singleton, List.dropLast_concat]
      rw [if_neg (by omega), idxOf_of_getElem? G.nodup hPj]

example : pathUp exArchive 4 3 = some [ascii "b", ascii "x"] ∧ pathUp exArchive 4 0 = some [ascii "a"] := by decide

/-- **C05.** In a written archive: the rows of the child range of a directory are exactly the rows of
the entries one name below it (`pathUp` reads the path of a row through parent links), the root range
is exactly the top-level rows, names strictly increase inside a range, and the ranges of different
directories are disjoint. -/
theorem C05_child_ranges {rs : List AddReq} {a : Archive} {m : PathMap} (h : Written rs a)
    (hm : SpecRun PathMap.empty rs m) :
    -- all rows are the entries of the map, each once
    (∀ p, (∃ n, m p = some n) ↔ ∃ i, i < a.entries.length ∧ pathUp a a.entries.length i = some p) ∧
    (∀ i j p, pathUp a a.entries.length i = some p → pathUp a a.entries.length j = some p →
      i < a.entries.length → j < a.entries.length → i = j) ∧
    -- child ranges
    (∀ i rg d p, a.getEntryAt fullBuilder i = .ok (.dir rg d) → pathUp a a.entries.length i = some p →
      d.range = rg ∧
      ∀ j, (rg.offset ≤ j ∧ j < rg.offset + rg.count) ↔
        (j < a.entries.length ∧ ∃ c, pathUp a a.entries.length j = some (p ++ [c]))) ∧
    -- the root index
    (∀ j, (a.root.offset ≤ j ∧ j < a.root.offset + a.root.count) ↔
        (j < a.entries.length ∧ ∃ c, pathUp a a.entries.length j = some [c])) ∧
    -- names increase inside a directory (and inside the root)
    (∀ i j p c d, i < a.entries.length → j < a.entries.length →
      pathUp a a.entries.length i = some (p ++ [c]) → pathUp a a.entries.length j = some (p ++ [d]) →
      (i < j ↔ ltBytes c d)) ∧
    -- ranges are disjoint
    (∀ i j rg rg' d d' k, a.getEntryAt fullBuilder i = .ok (.dir rg d) →
      a.getEntryAt fullBuilder j = .ok (.dir rg' d') → rg.offset ≤ k → k < rg.offset + rg.count →
      rg'.offset ≤ k → k < rg'.offset + rg'.count → i = j) := by
  obtain ⟨P, G⟩ := h.good' hm
  have hup : ∀ i, i < a.entries.length → pathUp a a.entries.length i = P[i]? := by
    intro i hi
    have hi' : i < P.length := by rw [← G.len]; exact hi
    have hPi := List.getElem?_eq_getElem hi'
    have hlen := G.length_path_le _ P[i] i (Nat.le_refl _) hPi
    rw [hPi, G.pathUp _ _ _ hPi (by omega)]
  have hlt : ∀ {i : Nat} {e}, a.getEntryAt fullBuilder i = .ok e → i < a.entries.length := by
    intro i e hi
    cases hx : a.entries[i]? with
    | none => simp [Archive.getEntryAt, Archive.create, hx] at hi
    | some r => exact (List.getElem?_eq_some_iff.mp hx).1
  have hidx : ∀ {i : Nat} {p}, P[i]? = some p → i < a.entries.length := by
    intro i p hi; rw [G.len]; exact (List.getElem?_eq_some_iff.mp hi).1
  have hdir : ∀ {i : Nat} {rg d}, a.getEntryAt fullBuilder i = .ok (.dir rg d) →
      ∃ p, P[i]? = some p ∧ d.range = rg ∧ RangeIs P p rg.offset rg.count := by
    intro i rg d hi
    have hi' : i < P.length := by rw [← G.len]; exact hlt hi
    have hPi := List.getElem?_eq_getElem hi'
    obtain ⟨n, hn⟩ := (G.dom P[i]).mp (List.mem_of_getElem? hPi)
    obtain ⟨e, h1, _, _, _, _, _, h7⟩ := G.getEntryAt hPi hn
    simp only [Archive.getEntryAt] at hi
    rw [h1] at hi; cases hi
    obtain ⟨h8, h9, _⟩ := h7 rg d rfl
    exact ⟨P[i], hPi, h8, h9⟩
  refine ⟨?_, ?_, ?_, ?_, ?_, ?_⟩
  · intro p
    rw [← G.dom, List.mem_iff_getElem?]
    constructor
    · rintro ⟨i, hi⟩; exact ⟨i, hidx hi, by rw [hup i (hidx hi)]; exact hi⟩
    · rintro ⟨i, hi, hp⟩; exact ⟨i, by rw [← hup i hi]; exact hp⟩
  · intro i j p h1 h2 h3 h4
    rw [hup i h3] at h1; rw [hup j h4] at h2
    exact G.idx_inj h1 h2
  · intro i rg d p hi hp
    obtain ⟨p', h1, h2, h3⟩ := hdir hi
    rw [hup i (hlt hi), h1] at hp; cases hp
    refine ⟨h2, ?_⟩
    intro j
    rw [h3 j]
    constructor
    · rintro ⟨c, hc⟩; exact ⟨hidx hc, c, by rw [hup j (hidx hc)]; exact hc⟩
    · rintro ⟨hj, c, hc⟩; exact ⟨c, by rw [← hup j hj]; exact hc⟩
  · intro j
    have hr := G.root.2 j
    rw [G.root.1, hr]
    constructor
    · rintro ⟨c, hc⟩; exact ⟨hidx hc, c, by rw [hup j (hidx hc)]; exact hc⟩
    · rintro ⟨hj, c, hc⟩; exact ⟨c, by rw [← hup j hj]; exact hc⟩
  · intro i j p c d hi hj h1 h2
    rw [hup i hi] at h1; rw [hup j hj] at h2
    rw [G.lt_iff h1 h2, canonLt_snoc]
    constructor
    · rintro (h | h)
      · exact absurd h (canonLt_irrefl _)
      · exact h.2
    · intro h; exact Or.inr ⟨rfl, h⟩
  · intro i j rg rg' d d' k hi hj h1 h2 h3 h4
    obtain ⟨p, hp, _, hr⟩ := hdir hi
    obtain ⟨q, hq, _, hr'⟩ := hdir hj
    obtain ⟨c, hc⟩ := (hr k).mp ⟨h1, h2⟩
    obtain ⟨c', hc'⟩ := (hr' k).mp ⟨h3, h4⟩
    rw [hc] at hc'
    have : p = q := (List.append_inj' (Option.some.inj hc') rfl).1
    subst this; exact G.idx_inj hp hq

example : ∃ rg d, exArchive.getEntryAt fullBuilder 1 = .ok (.dir rg d) ∧ rg = ⟨3, 1⟩ := ⟨_, _, rfl, by decide⟩

/-! ## C07 -/

/-- `d` bounds the depth of every path of the map. -/
def DepthLe (m : PathMap) (d : Nat) : Prop := ∀ p n, m p = some n → p.length ≤ d

/-- **C07.** For every archive content of depth at most `d`, from every initial numbering: sorting and
renumbering succeeds within any budget of at least `d` rounds, the layout found is sorted for its own
numbering, and there is no other such layout. The second part says the same for every possible sort
procedure: in any sequence of numberings where each is the previous one sorted by its keys, the `d`-th
is a layout. -/
theorem C07_finalize_converges {rs : List AddReq} {st : Creator} {m : PathMap} {d : Nat}
    (h : Creator.new.run rs = some st) (hm : SpecRun PathMap.empty rs m) (hd : DepthLe m d)
    (start : List Nat) (hs : start.Perm (List.range st.store.length)) :
    (∀ budget, d ≤ budget → ∃ o, layoutLoop st budget start = some o ∧ IsLayout st o) ∧
    (∀ o o', IsLayout st o → IsLayout st o' → o = o') ∧
    (∀ seq : Nat → List Nat, seq 0 = start →
      (∀ k, (seq (k + 1)).Perm (seq k) ∧ (seq (k + 1)).Pairwise (fun x y => keyCmp st (seq k) x y ≠ .gt)) →
      IsLayout st (seq d)) := by
  obtain ⟨m0, paths, hs0, R⟩ := run_rel h
  have := hs0.det hm; subst this
  have hD : ∀ id, id < paths.length → (pth paths id).length ≤ d := by
    intro id hid
    obtain ⟨e, he⟩ := R.store_lt hid
    rw [R.pth_eq he]; exact hd _ _ (R.node id e he)
  have hs' : start.Perm (List.range paths.length) := by rw [R.len]; exact hs
  refine ⟨?_, ?_, ?_⟩
  · intro budget hb
    obtain ⟨o, h1, h2⟩ := R.layoutLoop_ok hD d start hs' (by simpa using R.goodTo_zero start) (Nat.le_refl _)
    exact ⟨o, R.layoutLoop_mono d start o h1 budget hb, h2⟩
  · intro o o' ho ho'
    have hmem : ∀ {o : List Nat}, IsLayout st o → ∀ x, x ∈ o ↔ x < paths.length := by
      intro o ho x; rw [ho.1.mem_iff, R.len]; simp
    have hnd : ∀ {o : List Nat}, IsLayout st o → o.Nodup := fun ho => ho.1.nodup_iff.mpr List.nodup_range
    have hlen : o.length = o'.length := by rw [ho.1.length_eq, ho'.1.length_eq]
    -- both are sorted by the canonical order of paths
    have hpw : ∀ {o : List Nat}, IsLayout st o → o.Pairwise (fun x y => canonLt (pth paths x) (pth paths y)) := by
      intro o ho
      rw [List.pairwise_iff_getElem]
      intro i j hi hj hij
      have h1 := posOf_of_getElem? (hnd ho) (List.getElem?_eq_getElem hi)
      have h2 := posOf_of_getElem? (hnd ho) (List.getElem?_eq_getElem hj)
      exact (R.layout_pos ho ((hmem ho _).mp (List.getElem_mem hi)) ((hmem ho _).mp (List.getElem_mem hj))).mp (by omega)
    have : ∀ (l l' : List Nat), l.Pairwise (fun x y => canonLt (pth paths x) (pth paths y)) →
        l'.Pairwise (fun x y => canonLt (pth paths x) (pth paths y)) → (∀ x, x ∈ l ↔ x ∈ l') → l = l' := by
      intro l
      induction l with
      | nil =>
        intro l' _ _ hx
        cases l' with
        | nil => rfl
        | cons y ys => have := (hx y).mpr (by simp); simp at this
      | cons x xs ih =>
        intro l' h1 h2 hx
        cases l' with
        | nil => have := (hx x).mp (by simp); simp at this
        | cons y ys =>
          have h1' := List.pairwise_cons.mp h1
          have h2' := List.pairwise_cons.mp h2
          have hxy : x = y := by
            rcases List.mem_cons.mp ((hx x).mp (by simp)) with e | hm1
            · exact e
            · rcases List.mem_cons.mp ((hx y).mpr (by simp)) with e | hm2
              · exact e.symm
              · exact absurd (h1'.1 y hm2) (canonLt_asymm (h2'.1 x hm1))
          subst hxy
          congr 1
          apply ih ys h1'.2 h2'.2
          intro z
          constructor
          · intro hz
            rcases List.mem_cons.mp ((hx z).mp (by simp [hz])) with rfl | hz'
            · exact absurd (h1'.1 _ hz) (canonLt_irrefl _)
            · exact hz'
          · intro hz
            rcases List.mem_cons.mp ((hx z).mpr (by simp [hz])) with rfl | hz'
            · exact absurd (h2'.1 _ hz) (canonLt_irrefl _)
            · exact hz'
    exact this o o' (hpw ho) (hpw ho') (fun x => (hmem ho x).trans (hmem ho' x).symm)
  · intro seq h0 hstep
    have hperm : ∀ k, (seq k).Perm (List.range paths.length) := by
      intro k
      induction k with
      | zero => rw [h0]; exact hs'
      | succ k ih => exact (hstep k).1.trans ih
    have hgood : ∀ k, GoodTo paths k (seq k) := by
      intro k
      induction k with
      | zero => exact R.goodTo_zero _
      | succ k ih => exact R.goodTo_step (hperm k) (hperm (k+1)) (hstep k).2 ih
    exact ⟨by rw [← R.len]; exact hperm d, R.good_sorted (hperm d) hD (hgood d)⟩

/-- **C07 (finalize).** With a retry budget of at least the depth, finalization produces an archive. -/
theorem C07_finalize_succeeds {rs : List AddReq} {st : Creator} {m : PathMap} {d budget : Nat}
    (h : Creator.new.run rs = some st) (hm : SpecRun PathMap.empty rs m) (hd : DepthLe m d)
    (hb : d ≤ budget) (hsmall : st.store.length < 2 ^ 32) :
    ∃ a, st.finalize budget = some a ∧ Written rs a := by
  obtain ⟨o, h1, h2⟩ := (C07_finalize_converges h hm hd _ (List.Perm.refl _)).1 budget hb
  exact ⟨writeArchive st o, by simp [Creator.finalize, h1], st, o, h, h2, rfl, hsmall⟩

/-- the example needs sorting: creation order is not a layout -/
example : layoutLoop exSt 0 (List.range 4) = none ∧ (layoutLoop exSt 2 (List.range 4)).isSome := by decide

/-! ## C32, C49: panics -/

/-- **C32 (partial).** On a written archive `get_entry` never panics for a path with at least one
component. Missing: the empty path (`C32_counterexample`). -/
theorem C32_lookup_no_panic_partial {rs : List AddReq} {a : Archive} (h : Written rs a) (path : RPath)
    (hp : comps path ≠ []) : a.getEntry fullBuilder path ≠ .error .panic := by
  obtain ⟨m, hm, _⟩ := spec_exists h
  have := C01_read_back h hm path hp
  intro he
  cases hx : m (comps path) with
  | none => rw [hx] at this; simp only at this; rw [he] at this; cases this
  | some n => rw [hx] at this; obtain ⟨e, h1, _⟩ := this; rw [he] at h1; cases h1

/-- **C32 is false in full**: on every archive, every path without components (`""`, `"/"`) panics. -/
theorem C32_counterexample (a : Archive) : a.getEntry fullBuilder [] = .error .panic ∧
    a.getEntry fullBuilder [SEP] = .error .panic := ⟨rfl, rfl⟩

/-- **C49 (partial).** `add_entry` does not panic for an entry whose path has a usable last name (not
empty, not `..`). Missing: exactly the other paths, see `C49_panics_iff`. -/
theorem C49_add_no_panic_partial {rs : List AddReq} {st : Creator} (h : Creator.new.run rs = some st)
    (r : AddReq) (hp : entryPath r.path ≠ []) (hl : (entryPath r.path).getLast? ≠ some PARENT) :
    (st.addEntry r).2 ≠ .panic := by
  intro he
  obtain ⟨m, paths, hs, R⟩ := run_rel h
  obtain ⟨m', h1, _⟩ := R.addEntry r
  rw [he] at h1
  cases h1 with
  | noName _ k h1 h2 h3 =>
    rcases h3 with h3 | h3
    · exact hp h3
    · exact hl h3

/-- **C49, exact.** `add_entry` panics exactly when the entry has a kind, no ancestor blocks it, and its
path is empty (e.g. `""`, `"."`, a tar member `./`) or ends in `..`. -/
theorem C49_panics_iff {rs : List AddReq} {st : Creator} {m : PathMap} (h : Creator.new.run rs = some st)
    (hm : SpecRun PathMap.empty rs m) (r : AddReq) :
    (st.addEntry r).2 = .panic ↔
      (∃ k, r.kind = .ok (some k)) ∧ ¬ Blocked m (entryPath r.path) ∧
      (entryPath r.path = [] ∨ (entryPath r.path).getLast? = some PARENT) := by
  obtain ⟨m', hs, _⟩ := add_spec h hm r
  constructor
  · intro he
    rw [he] at hs
    cases hs with
    | noName _ k h1 h2 h3 => exact ⟨⟨k, h2⟩, h1, h3⟩
  · rintro ⟨⟨k, hk⟩, hnb, hbad⟩
    generalize (st.addEntry r).2 = o at hs
    cases hs with
    | noName => rfl
    | blocked hb => exact absurd hb hnb
    | kindErr u h1 h2 => rw [hk] at h2; cases h2
    | ignored h1 h2 => rw [hk] at h2; cases h2
    | sameDir n h1 h2 h3 h4 =>
      rcases hbad with h | h
      · exact absurd h h2
      · exact absurd h h3
    | «exists» k' n e h1 h2 h3 h4 =>
      rcases hbad with h | h
      · exact absurd h h2
      · exact absurd h h3
    | added k' h1 h2 h3 h4 =>
      rcases hbad with h | h
      · exact absurd h h2
      · exact absurd h h3

example : (Creator.new.addEntry ⟨ascii "./", .ok (some .dir), exMeta⟩).2 = .panic ∧
    (exSt.addEntry ⟨ascii "b/..", .ok (some .dir), exMeta⟩).2 = .panic := by decide

/-! ## C40: metadata read-back -/

/-- **C40 (partial).** Through the entry API: mtime is exact; owner and group are the stored values
modulo 2^32; `rights()` is the stored mode modulo 256. Missing: the full statement `rights() = mode`
is false (`C40_counterexample`). -/
theorem C40_metadata_partial {rs : List AddReq} {a : Archive} {m : PathMap} (h : Written rs a)
    (hm : SpecRun PathMap.empty rs m) (path : RPath) (n : Node) (hn : m (comps path) = some n) :
    ∃ e, a.getEntry fullBuilder path = .ok e ∧ e.common.mtime = n.info.mtime ∧
      (n.info.owner < 2 ^ 32 → e.common.owner = n.info.owner) ∧
      (n.info.group < 2 ^ 32 → e.common.group = n.info.group) ∧
      e.common.rights = n.info.rights % 256 := by
  obtain ⟨P, G⟩ := h.good' hm
  have hp : comps path ≠ [] := by intro e; rw [e, G.wf.root] at hn; cases hn
  have hroot : RangeIs P [] a.root.offset a.root.count := by rw [G.root.1]; exact G.root.2
  have hl := G.getLoop G.fullBuilder_total (comps path) [] a.root hp hroot
  simp only [List.nil_append] at hl
  rcases hl with ⟨i, hi, hc⟩ | ⟨hx, _⟩ | ⟨q, n', _, _, _, _, _, _, hx, _⟩
  · obtain ⟨e, h1, h2, _, _, h5, _⟩ := G.getEntryAt hi hn
    refine ⟨e, by rw [Archive.getEntry, hc, h1], h2.1, ?_, ?_, h5⟩
    · intro hlt; rw [h2.2.1]; exact asU32_lt hlt
    · intro hlt; rw [h2.2.2.1]; exact asU32_lt hlt
  · rw [hx] at hn; cases hn
  · rw [hx] at hn; cases hn

/-- **C40 is false in full**: a file added with mode 0640 is read back with rights 0240. -/
theorem C40_counterexample : Written exReqs exArchive ∧
    (exArchive.getEntry fullBuilder (ascii "b/x")).map (fun e => e.common.rights) = .ok 0o240 :=
  ⟨exWritten, by decide⟩

/-! ## C48: redundant separators -/

/-- **C48.** Two spellings with the same components are the same entry for adding, for lookup and for
selection. -/
theorem C48_same_components {p q : RPath} (h : comps p = comps q) :
    (∀ (st : Creator) (k : Except Unit (Option Kind)) (i : Meta),
      st.addEntry ⟨p, k, i⟩ = st.addEntry ⟨q, k, i⟩) ∧
    (∀ (a : Archive), a.getEntry fullBuilder p = a.getEntry fullBuilder q) ∧
    (∀ s : RPath, RPath.eqv p s = RPath.eqv q s) := by
  have he : entryPath p = entryPath q := by simp [entryPath, h]
  refine ⟨?_, ?_, ?_⟩
  · intro st k i
    have hloop : ∀ (cs : List Bytes) (st : Creator) (cur : Option Nat),
        st.addLoop ⟨p, k, i⟩ cur cs = st.addLoop ⟨q, k, i⟩ cur cs := by
      intro cs
      induction cs with
      | nil => intro st cur; simp only [Creator.addLoop, Creator.addFinal, entryPath_fileName, he]
      | cons c cs ih =>
        intro st cur
        simp only [Creator.addLoop, ih]
    rw [addEntry_eq, addEntry_eq, he, hloop]
  · intro a; simp [Archive.getEntry, h]
  · intro s; simp [RPath.eqv, h]

/-- **C48 (spellings).** Doubling a separator, or adding one at the end or at the beginning, does not
change the components. -/
theorem C48_spellings (x y : Bytes) :
    comps (x ++ SEP :: SEP :: y) = comps (x ++ SEP :: y) ∧
    comps (x ++ [SEP]) = comps x ∧ comps (SEP :: x) = comps x := by
  refine ⟨?_, comps_append_sep x, comps_sep_cons x⟩
  rw [comps_append, comps_append, comps_sep_cons]

example : comps (ascii "//a//b/") = comps (ascii "a/b") := by decide

end Arx
