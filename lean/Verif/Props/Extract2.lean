import Verif.Props.Extract
import Verif.Props.Walk
/-!
# Properties of extraction (continued)
-/
namespace Arx

/-! ## C13 -/

/-- **C13.** Whatever is extracted from a created archive to a place where its entries do not exist yet: if
the extraction succeeds, an entry exists afterwards iff it is selected. (`C17_inside_partial` says that
nothing else appears.) -/
theorem C13_selection {rs : List AddReq} {m : PathMap} {cfg : XCfg} {rg : Range} {d0 : List Bytes} {before after : FS}
    (h : Source rs m cfg.a rg d0) (T : PlainTarget before cfg.base (m.sub d0))
    (hx : Extraction cfg rg before after .ok)
    (hnew : ∀ p n, m.sub d0 p = some n → before.nodes (cfg.base ++ p) = none)
    (hcont : ∀ p n s c, m.sub d0 p = some n → n.kind = .file s c → ∃ b, cfg.bytes c = .found b) :
    ∀ p n, m.sub d0 p = some n →
      (after.nodes (cfg.base ++ p) ≠ none ↔ Selected cfg.files cfg.recurse p n.isDir) := by
  obtain ⟨k1, _, k3⟩ := hx.main h T
  obtain ⟨_, k4⟩ := k3 rfl
  intro p n hp
  have hpe := (PathMap.sub_some hp).1
  constructor
  · intro hne
    refine Classical.byContradiction (fun hns => hne ?_)
    rw [k1.nodes _ (not_prefix_base hpe), hnew p n hp]
    rintro ⟨p', n', e, h1, h2⟩
    rw [List.append_cancel_left_eq] at e
    subst e
    rw [hp] at h1; cases h1
    exact hns h2
  · intro hs
    have := k4 p n hp hs
    simp only [Extracted] at this
    cases hk : n.kind with
    | dir => simp only [hk] at this; obtain ⟨⟨t, ht⟩, _⟩ := this; rw [ht]; simp
    | link t => simp only [hk, hnew p n hp] at this; obtain ⟨_, t, ht⟩ := this; rw [ht]; simp
    | file s c =>
      obtain ⟨b, hb⟩ := hcont p n s c hp hk
      simp only [hk, hb, hnew p n hp] at this
      obtain ⟨i, hi, _⟩ := this; rw [hi]; simp

/-- selecting `b/x`: directory `b` is created, `a` and `a/l` are not -/
example : let r := (exX [ascii "b//x"] .error).extractRange 5 exArchive.root fs0 finish
    r.2 = .ok ∧ r.1.finished ∧ r.1.fs.nodes [ascii "t", ascii "b", ascii "x"] = some (.file 0) ∧
    r.1.fs.nodes [ascii "t", ascii "b"] ≠ none ∧
    r.1.fs.nodes [ascii "t", ascii "a"] = none ∧ r.1.fs.nodes [ascii "t", ascii "a", ascii "l"] = none := by decide
example : Selected [ascii "b//x"] true [ascii "b"] true ∧ Selected [ascii "b//x"] true [ascii "b", ascii "x"] false ∧
    ¬ Selected [ascii "b//x"] true [ascii "a"] true := by
  have e : comps (ascii "b//x") = [ascii "b", ascii "x"] := by decide
  refine ⟨Or.inr ⟨ascii "b//x", by simp, Or.inr (Or.inr ⟨rfl, ascii "x", [], by rw [e]; rfl, by decide⟩)⟩,
    Or.inr ⟨ascii "b//x", by simp, Or.inl e⟩, ?_⟩
  rintro (h | ⟨f, hf, h⟩)
  · cases h
  · simp only [List.mem_cons, List.not_mem_nil, or_false] at hf
    subst hf
    rw [e] at h
    rcases h with h | ⟨_, h, _⟩ | ⟨_, c, t, h, _⟩
    · exact absurd h (by decide)
    · exact absurd h (by decide)
    · simp only [List.cons_append, List.nil_append, List.cons.injEq] at h
      exact absurd h.1 (by decide)
example : PlainTarget fs0 [ascii "t"] (exMap.sub []) := exT.plain (bytes := exBytes) exExtractable.names

/-- A directory is only entered when selected; this loses nothing: every directory on the way to a selected
entry is selected. -/
theorem C13_not_pruned {files : List RPath} {recurse : Bool} {p q : List Bytes} {d : Bool}
    (h : Selected files recurse p d) (hq : ProperAncestor q p) (hcur : CUR ∉ p) : Selected files recurse q true := by
  obtain ⟨h1, h2, t, rfl⟩ := hq
  have ht : t ≠ [] := by rintro rfl; simp at h2
  obtain ⟨c, t, rfl⟩ := List.exists_cons_of_ne_nil ht
  rcases h with h | ⟨f, hf, h⟩
  · exact Or.inl h
  · refine Or.inr ⟨f, hf, ?_⟩
    have hc : c ≠ CUR := by rintro rfl; exact hcur (by simp)
    rcases h with h | ⟨hr, ⟨s, hs⟩, hne⟩ | ⟨hd, c', t', h, hc'⟩
    · exact Or.inr (Or.inr ⟨rfl, c, t, h, hc⟩)
    · rcases List.append_eq_append_iff.mp hs with ⟨u, hu, hv⟩ | ⟨u, hu, hv⟩
      · by_cases hue : u = []
        · subst hue; left; simpa using hu.symm
        · right; left
          exact ⟨hr, ⟨u, hu.symm⟩, by rintro e; rw [e] at hu; simp at hu; exact hue hu⟩
      · cases u with
        | nil => left; simpa using hu
        | cons x u =>
          right; right
          simp only [List.cons_append, List.cons.injEq] at hv
          exact ⟨rfl, x, u, hu, by rw [← hv.1]; exact hc⟩
    · refine Or.inr (Or.inr ⟨rfl, c, t ++ c' :: t', by rw [h]; simp, hc⟩)

/-! ## C15 -/

/-- **C15.** In modes skip, warn and error, whatever the archive (well formed or not), the extracted rows,
the selection, the file system, the failing calls, the schedule, and wherever the extraction stops (`depth`
and `last` are arbitrary): every existing entry is still there and the content of every existing file is
unchanged. -/
theorem C15_existing_kept (cfg : XCfg) (hm : cfg.mode = .skip ∨ cfg.mode = .warn ∨ cfg.mode = .error)
    (before : FS) (hw : before.WF) (depth : Nat) (rg : Range) (last : List (Nat × WriteRes)) :
    ∀ q x, before.nodes q = some x →
      (cfg.extractRange depth rg before last).1.fs.nodes q = some x ∧
      ∀ i, x = .file i → (cfg.extractRange depth rg before last).1.fs.data i = before.data i := by
  have hk : cfg.mode.keeps = true := by rcases hm with h | h | h <;> rw [h] <;> rfl
  have := XCfg.extractRange_inv (kept_worldInv before) cfg hk depth rg before last (Kept.init before)
  intro q x hq
  refine ⟨this.nodes q x hq, ?_⟩
  rintro i rfl
  exact this.data i (hw.inos q i hq)

/-- the target with `t/b/x` already there (content "old", time 1000 s) -/
def fsOld : FS := mkFs [([ascii "t"], .dir 0), ([ascii "t", ascii "b"], .dir 0), ([ascii "t", ascii "b", ascii "x"], .file 0),
    ([ascii "t", ascii "a"], .dir 0), ([ascii "t", ascii "a", ascii "l"], .link (ascii "/") 50000000000)]
  (fun i => if i = 0 then ⟨ascii "old", 1000000000000⟩ else ⟨[], 0⟩) 1

theorem fsOld_paths {q : List Bytes} {x : FNode} (h : fsOld.nodes q = some x) :
    (q = [] ∧ x = .dir 0) ∨ (q = [ascii "t"] ∧ x = .dir 0) ∨ (q = [ascii "t", ascii "b"] ∧ x = .dir 0) ∨
    (q = [ascii "t", ascii "b", ascii "x"] ∧ x = .file 0) ∨ (q = [ascii "t", ascii "a"] ∧ x = .dir 0) ∨
    (q = [ascii "t", ascii "a", ascii "l"] ∧ x = .link (ascii "/") 50000000000) := by
  simp only [fsOld, mkFs] at h
  by_cases h0 : q = []
  · rw [if_pos h0] at h; cases h; exact Or.inl ⟨h0, rfl⟩
  rw [if_neg h0] at h
  by_cases h1 : q = [ascii "t"]
  · subst h1; exact Or.inr (Or.inl ⟨rfl, (Option.some.inj h).symm⟩)
  by_cases h2 : q = [ascii "t", ascii "b"]
  · subst h2; exact Or.inr (Or.inr (Or.inl ⟨rfl, (Option.some.inj h).symm⟩))
  by_cases h3 : q = [ascii "t", ascii "b", ascii "x"]
  · subst h3; exact Or.inr (Or.inr (Or.inr (Or.inl ⟨rfl, (Option.some.inj h).symm⟩)))
  by_cases h4 : q = [ascii "t", ascii "a"]
  · subst h4; exact Or.inr (Or.inr (Or.inr (Or.inr (Or.inl ⟨rfl, (Option.some.inj h).symm⟩))))
  by_cases h5 : q = [ascii "t", ascii "a", ascii "l"]
  · subst h5; exact Or.inr (Or.inr (Or.inr (Or.inr (Or.inr ⟨rfl, (Option.some.inj h).symm⟩))))
  simp [List.lookup, beq_eq_false_iff_ne.mpr h1, beq_eq_false_iff_ne.mpr h2, beq_eq_false_iff_ne.mpr h3,
    beq_eq_false_iff_ne.mpr h4, beq_eq_false_iff_ne.mpr h5] at h

theorem fsOld_wf : fsOld.WF where
  root := ⟨0, rfl⟩
  tree q c x h := by
    have key : ∀ (l : List Bytes) (hl : q ++ [c] = l), q = l.dropLast := by
      intro l hl; rw [← hl]; simp
    rcases fsOld_paths h with ⟨e, _⟩ | ⟨e, _⟩ | ⟨e, _⟩ | ⟨e, _⟩ | ⟨e, _⟩ | ⟨e, _⟩
    · simp at e
    all_goals (have := key _ e; subst this; exact ⟨0, rfl⟩)
  inos q i h := by
    rcases fsOld_paths h with ⟨_, e⟩ | ⟨_, e⟩ | ⟨_, e⟩ | ⟨_, e⟩ | ⟨_, e⟩ | ⟨_, e⟩ <;> cases e
    decide

example : let r := (exX [] .warn).extractRange 5 exArchive.root fsOld finish
    r.2 = .ok ∧ r.1.fs.nodes [ascii "t", ascii "b", ascii "x"] = some (.file 0) ∧ (r.1.fs.data 0).bytes = ascii "old" ∧
    r.1.fs.nodes [ascii "t", ascii "a", ascii "l"] = some (.link (ascii "/") 50000000000) := by decide

/-! ## C16 -/

/-- **C16, files.** A selected file entry whose target is an existing file: mode `overwrite` replaces its
content; mode `newer` does so iff the archived time is not before the file's time, and leaves it alone
otherwise. -/
theorem C16_files {rs : List AddReq} {m : PathMap} {cfg : XCfg} {rg : Range} {d0 : List Bytes} {before after : FS}
    (h : Source rs m cfg.a rg d0) (T : PlainTarget before cfg.base (m.sub d0))
    (hx : Extraction cfg rg before after .ok) {p : List Bytes} {n : Node} {s : Nat} {c : ContentAddr} {b : Bytes} {i : Nat}
    (hp : m.sub d0 p = some n) (hs : Selected cfg.files cfg.recurse p n.isDir) (hk : n.kind = .file s c)
    (hb : cfg.bytes c = .found b) (hi : before.nodes (cfg.base ++ p) = some (.file i)) :
    after.nodes (cfg.base ++ p) = some (.file i) ∧
    (cfg.mode = .overwrite → (after.data i).bytes = b) ∧
    (cfg.mode = .newer → (before.data i).mtime ≤ (n.info.mtime : Int) * 1000000000 → (after.data i).bytes = b) ∧
    (cfg.mode = .newer → (n.info.mtime : Int) * 1000000000 < (before.data i).mtime → after.data i = before.data i) := by
  obtain ⟨_, _, k3⟩ := hx.main h T
  have := (k3 rfl).2 p n hp hs
  simp only [Extracted, hk, hb, hi, FS.timeOf] at this
  obtain ⟨a1, a2, a3, a4⟩ := this
  refine ⟨a2, fun hm => ?_, fun hm hle => ?_, fun hm hlt => ?_⟩
  · obtain ⟨j, e, hj⟩ := a3 (Or.inl hm); cases e; exact hj
  · obtain ⟨j, e, hj⟩ := a3 (Or.inr ⟨hm, hle⟩); cases e; exact hj
  · refine a4 ?_ i rfl
    rintro (e | ⟨_, e⟩)
    · rw [hm] at e; cases e
    · omega

/-- **C16, links.** The same for a selected link entry whose target is an existing file or link. -/
theorem C16_links {rs : List AddReq} {m : PathMap} {cfg : XCfg} {rg : Range} {d0 : List Bytes} {before after : FS}
    (h : Source rs m cfg.a rg d0) (T : PlainTarget before cfg.base (m.sub d0))
    (hx : Extraction cfg rg before after .ok) {p : List Bytes} {n : Node} {target : Bytes} {x : FNode}
    (hp : m.sub d0 p = some n) (hs : Selected cfg.files cfg.recurse p n.isDir) (hk : n.kind = .link target)
    (hi : before.nodes (cfg.base ++ p) = some x) :
    (cfg.mode = .overwrite → ∃ t, after.nodes (cfg.base ++ p) = some (.link target t)) ∧
    (cfg.mode = .newer → before.timeOf x ≤ (n.info.mtime : Int) * 1000000000 →
      ∃ t, after.nodes (cfg.base ++ p) = some (.link target t)) ∧
    (cfg.mode = .newer → (n.info.mtime : Int) * 1000000000 < before.timeOf x → after.nodes (cfg.base ++ p) = some x ∧
      ∀ i, x = .file i → after.data i = before.data i) := by
  obtain ⟨_, _, k3⟩ := hx.main h T
  have := (k3 rfl).2 p n hp hs
  simp only [Extracted, hk, hi] at this
  obtain ⟨_, a1, a2, a3⟩ := this
  refine ⟨fun hm => (a2 (Or.inl hm)).2, fun hm hle => (a2 (Or.inr ⟨hm, hle⟩)).2, fun hm hlt => a3 ?_⟩
  rintro (e | ⟨_, e⟩)
  · rw [hm] at e; cases e
  · omega

/-- **C16, the rest.** In every mode, whatever the result: everything that is not the target of a selected
entry is unchanged (apart from missing directories leading to the output directory); existing directories
stay; in a successful extraction, in mode `newer` or `overwrite`, a selected entry that meets nothing is
created. -/
theorem C16_nothing_else {rs : List AddReq} {m : PathMap} {cfg : XCfg} {rg : Range} {d0 : List Bytes} {before after : FS}
    {res : XResult} (h : Source rs m cfg.a rg d0) (T : PlainTarget before cfg.base (m.sub d0))
    (hx : Extraction cfg rg before after res) :
    Untouched cfg.files cfg.recurse cfg.base (m.sub d0) before after := (hx.main h T).1

/-- the archived `b/x` is of second 99: `newer` keeps the file of second 1000 and replaces the link of second 50;
`overwrite` replaces both -/
example : (let r := (exX [] .newer).extractRange 5 exArchive.root fsOld finish
    r.2 = .ok ∧ (r.1.fs.data 0).bytes = ascii "old" ∧
    r.1.fs.nodes [ascii "t", ascii "a", ascii "l"] = some (.link (ascii "../b") 5000000000)) ∧
    (let r := (exX [] .overwrite).extractRange 5 exArchive.root fsOld finish
    r.2 = .ok ∧ (r.1.fs.data 0).bytes = ascii "xyz" ∧
    r.1.fs.nodes [ascii "t", ascii "a", ascii "l"] = some (.link (ascii "../b") 5000000000)) := by decide

theorem fsOld_plain : PlainTarget fsOld [ascii "t"] (exMap.sub []) where
  toWF := fsOld_wf
  baseNames := exT.names
  baseLinks q hq t s e := by
    rcases fsOld_paths e with ⟨_, e⟩ | ⟨_, e⟩ | ⟨_, e⟩ | ⟨_, e⟩ | ⟨_, e⟩ | ⟨e, _⟩
    · cases e
    · cases e
    · cases e
    · cases e
    · cases e
    · subst e; have := hq.length_le; simp at this
  links p n hp hk t s e := by
    rcases fsOld_paths e with ⟨_, e⟩ | ⟨_, e⟩ | ⟨_, e⟩ | ⟨_, e⟩ | ⟨_, e⟩ | ⟨e, _⟩
    · cases e
    · cases e
    · cases e
    · cases e
    · cases e
    · simp only [List.cons_append, List.nil_append, List.cons.injEq, true_and] at e
      subst e
      obtain ⟨_, hp⟩ := PathMap.sub_some hp
      obtain ⟨n', hn', hk'⟩ := exMap_kinds.2.2.1
      rw [List.nil_append, hn'] at hp; cases hp
      exact hk _ hk'
  alias p n i q hp e e' := by
    rcases fsOld_paths e with ⟨_, e⟩ | ⟨_, e⟩ | ⟨_, e⟩ | ⟨h1, e⟩ | ⟨_, e⟩ | ⟨_, e⟩ <;> cases e
    rcases fsOld_paths e' with ⟨_, e⟩ | ⟨_, e⟩ | ⟨_, e⟩ | ⟨h2, e⟩ | ⟨_, e⟩ | ⟨_, e⟩ <;> cases e
    rw [h1, h2]
  names := exExtractable.names

/-! ## C17 -/

/-- **C17 (partial).** Whatever is extracted from a created archive, with whatever selection, mode,
failures and result, to a target as `PlainTarget` describes (in particular: no entry is named `"."` or
`".."`, no symbolic link is in the way, existing files to be replaced have no other hard link): outside of
the output directory nothing changes, except that missing directories leading to it may appear. Missing:
archives with entries named `"."` or `".."`, for which the claim is false, see `C17_parent_counterexample`
and `C17_link_counterexample`. -/
theorem C17_inside_partial {rs : List AddReq} {m : PathMap} {cfg : XCfg} {rg : Range} {d0 : List Bytes} {before after : FS}
    {res : XResult} (h : Source rs m cfg.a rg d0) (T : PlainTarget before cfg.base (m.sub d0))
    (hx : Extraction cfg rg before after res) :
    (∀ q, ¬ cfg.base <+: q → after.nodes q = before.nodes q ∨
      (q <+: cfg.base ∧ before.nodes q = none ∧ ∃ t, after.nodes q = some (.dir t))) ∧
    (∀ q i, ¬ cfg.base <+: q → before.nodes q = some (.file i) → after.data i = before.data i) := by
  have U := (hx.main h T).1
  refine ⟨fun q hq => ?_, fun q i hq hi => ?_⟩
  · by_cases hb : q <+: cfg.base
    · cases hn : before.nodes q with
      | some x => left; rw [U.above q x hb hn]
      | none =>
        rcases U.way q hb hn with e | e
        · left; rw [e]
        · right; exact ⟨hb, rfl, e⟩
    · left
      refine U.nodes q hb ?_
      rintro ⟨p, n, rfl, _⟩
      exact hq (List.prefix_append _ _)
  · refine U.data i (T.inos q i hi) ?_
    rintro q' hq' ⟨p, n, rfl, h1, _⟩
    have := T.alias p n i q h1 hq' hi
    subst this
    exact hq (List.prefix_append _ _)

example : Extraction (exX [] .newer) exArchive.root fsOld ((exX [] .newer).extractRange 5 exArchive.root fsOld finish).1.fs
    ((exX [] .newer).extractRange 5 exArchive.root fsOld finish).2 :=
  ⟨5, finish, _, by decide, rfl, by decide, rfl⟩

/-- an entry added as `../x` -/
def upReqs : List AddReq := [⟨ascii "../x", .ok (some (.file 3 ⟨1, 0⟩)), exMeta⟩]
def upSt : Creator := (Creator.new.run upReqs).getD Creator.new
def upArchive : Archive := writeArchive upSt [0, 1]
theorem upWritten : Written upReqs upArchive := by
  obtain ⟨m, paths, hs, R⟩ := run_rel (st := upSt) (rs := upReqs) (by rfl)
  exact ⟨upSt, [0, 1], rfl, R.layoutLoop_sound 3 _ _ (by rw [R.len]) (by decide), rfl, by decide⟩

/-- **C17 is false for archives with an entry named `".."`**: the creator accepts `../x`, and extracting
to directory `/t` writes `/x`. -/
theorem C17_parent_counterexample : Written upReqs upArchive ∧
    let r := XCfg.extractRange ⟨upArchive, exBytes, [], true, [ascii "t"], .error, quiet⟩ 5 upArchive.root fs0 finish
    r.2 = .ok ∧ r.1.finished ∧ r.1.fs.nodes [ascii "x"] = some (.file 0) := ⟨upWritten, by decide⟩

/-- a link `-l` to directory `d` of the root, and a file `x` in a directory `-l` of a directory `.` -/
def throughReqs : List AddReq :=
  [⟨ascii "-l", .ok (some (.link (ascii "/d"))), exMeta⟩, ⟨ascii "./-l/x", .ok (some (.file 3 ⟨1, 0⟩)), exMeta⟩]
def throughSt : Creator := (Creator.new.run throughReqs).getD Creator.new
def throughArchive : Archive := writeArchive throughSt [0, 1, 2, 3]
theorem throughWritten : Written throughReqs throughArchive := by
  obtain ⟨m, paths, hs, R⟩ := run_rel (st := throughSt) (rs := throughReqs) (by rfl)
  exact ⟨throughSt, [0, 1, 2, 3], rfl, R.layoutLoop_sound 4 _ _ (by rw [R.len]) (by decide), rfl, by decide⟩

/-- **C17 is false for archives with an entry named `"."`**: such an archive can write through a link it has
extracted itself. The target directory is empty; `/d` gets a new file. -/
theorem C17_link_counterexample : Written throughReqs throughArchive ∧
    let r := XCfg.extractRange ⟨throughArchive, exBytes, [], true, [ascii "t"], .error, quiet⟩ 5 throughArchive.root
      (mkFs [([ascii "d"], .dir 0)] (fun _ => ⟨[], 0⟩) 0) finish
    r.2 = .ok ∧ r.1.finished ∧ r.1.fs.nodes [ascii "d", ascii "x"] = some (.file 0) := ⟨throughWritten, by decide +kernel⟩

/-- An existing symbolic link at the place of a file is followed in modes `overwrite` and `newer`: a file
outside is overwritten. (This is why `PlainTarget` excludes links at the places of files.) -/
theorem C17_overwrite_follows_link :
    let r := (exX [] .overwrite).extractRange 5 exArchive.root
      (mkFs [([ascii "t"], .dir 0), ([ascii "t", ascii "b"], .dir 0),
        ([ascii "t", ascii "b", ascii "x"], .link (ascii "/secret") 0), ([ascii "secret"], .file 0)]
        (fun _ => ⟨ascii "old", 0⟩) 1) finish
    r.2 = .ok ∧ r.1.finished ∧ r.1.fs.nodes [ascii "secret"] = some (.file 0) ∧ (r.1.fs.data 0).bytes = ascii "xyz" := by
  decide

/-! ## C20 -/

/-- **C20 (partial).** If an extraction to a plain target reports success, every selected file whose
content is available has been completely written, or its target existed and the mode says to leave it
alone. Missing: contents in a missing pack, see `C20_counterexample`. -/
theorem C20_success_partial {rs : List AddReq} {m : PathMap} {cfg : XCfg} {rg : Range} {d0 : List Bytes} {before after : FS}
    (h : Source rs m cfg.a rg d0) (T : PlainTarget before cfg.base (m.sub d0))
    (hx : Extraction cfg rg before after .ok) {p : List Bytes} {n : Node} {s : Nat} {c : ContentAddr} {b : Bytes}
    (hp : m.sub d0 p = some n) (hs : Selected cfg.files cfg.recurse p n.isDir) (hk : n.kind = .file s c)
    (hb : cfg.bytes c = .found b) :
    (∃ i, after.nodes (cfg.base ++ p) = some (.file i) ∧ (after.data i).bytes = b) ∨
    (∃ x, before.nodes (cfg.base ++ p) = some x ∧ after.nodes (cfg.base ++ p) = some x ∧
      (cfg.mode = .skip ∨ cfg.mode = .warn ∨ (cfg.mode = .newer ∧ (n.info.mtime : Int) * 1000000000 < before.timeOf x))) := by
  obtain ⟨_, _, k3⟩ := hx.main h T
  have := (k3 rfl).2 p n hp hs
  simp only [Extracted, hk, hb] at this
  cases hx' : before.nodes (cfg.base ++ p) with
  | none =>
    simp only [hx'] at this
    obtain ⟨i, h1, _, h2⟩ := this
    exact Or.inl ⟨i, h1, h2⟩
  | some x =>
    simp only [hx'] at this
    obtain ⟨a1, a2, a3, _⟩ := this
    by_cases hr : Replaces cfg.mode n.info.mtime (before.timeOf x)
    · obtain ⟨i, rfl, hi⟩ := a3 hr
      exact Or.inl ⟨i, a2, hi⟩
    · refine Or.inr ⟨x, rfl, a2, ?_⟩
      simp only [Replaces, not_or] at hr
      cases hm : cfg.mode with
      | skip => exact Or.inl rfl
      | warn => exact Or.inr (Or.inl rfl)
      | error => exact absurd hm a1
      | overwrite => exact absurd hm hr.1
      | newer =>
        refine Or.inr (Or.inr ⟨rfl, ?_⟩)
        have := hr.2
        simp only [hm, true_and, Int.not_le] at this
        exact this

/-- **C20 is false in full**: when the pack with the content of `b/x` is missing, the file is not created
and the extraction reports success. -/
theorem C20_counterexample : Written exReqs exArchive ∧
    let r := XCfg.extractRange ⟨exArchive, fun _ => .missing, [], true, [ascii "t"], .error, quiet⟩ 5 exArchive.root fs0 []
    r.2 = .ok ∧ r.1.finished ∧ r.1.fs.nodes [ascii "t", ascii "b", ascii "x"] = none := ⟨exWritten, by decide⟩

/-! ## C47 -/

/-- a write error is reported -/
example : let r := (exX [] .error).extractRange 5 exArchive.root fs0 [(0, .wrote 2), (0, .err)]
    r.2 = .writes ∧ r.1.finished := by decide

theorem SpecRun.kind_from_req {rs : List AddReq} : ∀ {m m' : PathMap}, SpecRun m rs m' →
    ∀ p n, m' p = some n → m p = some n ∨ n.kind = .dir ∨ ∃ r ∈ rs, r.kind = .ok (some n.kind) := by
  intro m m' h
  induction h with
  | nil m => intro p n hp; exact Or.inl hp
  | @cons m m1 m2 r rs o h1 h2 h3 ih =>
    intro p n hp
    have hwp : withParents m (entryPath r.path) p = some n → m p = some n ∨ n.kind = .dir := by
      intro h
      simp only [withParents] at h
      cases hm : m p with
      | some k => rw [hm] at h; left; simpa using h
      | none =>
        rw [hm] at h
        simp only at h
        split at h
        · cases h; right; rfl
        · cases h
    rcases ih p n hp with h | h | ⟨r', hr', h⟩
    · have : m p = some n ∨ n.kind = .dir ∨ r.kind = .ok (some n.kind) := by
        cases h1 with
        | blocked => exact Or.inl h
        | kindErr => rcases hwp h with h | h; exact Or.inl h; exact Or.inr (Or.inl h)
        | ignored => rcases hwp h with h | h; exact Or.inl h; exact Or.inr (Or.inl h)
        | noName => exact absurd rfl h2
        | sameDir => exact Or.inl h
        | «exists» => exact Or.inl h
        | added k _ _ _ hk =>
          simp only [setNode] at h
          split at h
          · cases h; exact Or.inr (Or.inr hk)
          · rcases hwp h with h | h; exact Or.inl h; exact Or.inr (Or.inl h)
      rcases this with h | h | h
      · exact Or.inl h
      · exact Or.inr (Or.inl h)
      · exact Or.inr (Or.inr ⟨r, by simp, h⟩)
    · exact Or.inr (Or.inl h)
    · exact Or.inr (Or.inr ⟨r', by simp [hr'], h⟩)

/-- An entry to be added that can be recreated on a file system: UTF-8 path with plain names; a link target
is UTF-8, not empty, without NUL; the content of a file is available. -/
structure GoodReq (bytes : ContentAddr → GetBytes) (r : AddReq) : Prop where
  utf8 : validUtf8 r.path = true
  names : ∀ c ∈ comps r.path, PlainName c
  target : ∀ t, r.kind = .ok (some (.link t)) → validUtf8 t = true ∧ t ≠ [] ∧ (0 : UInt8) ∉ t
  content : ∀ s c, r.kind = .ok (some (.file s c)) → ∃ b, bytes c = .found b

theorem Extractable.of_reqs {rs : List AddReq} {m : PathMap} {bytes : ContentAddr → GetBytes}
    (h : SpecRun PathMap.empty rs m) (hr : ∀ r ∈ rs, GoodReq bytes r) (d0 : List Bytes) : Extractable (m.sub d0) bytes := by
  refine ⟨?_, ?_, ?_, ?_⟩
  · intro p n hp c hc
    obtain ⟨_, hp⟩ := PathMap.sub_some hp
    rcases h.from_req _ n hp with ⟨x, hx⟩ | ⟨r, hr', hpre⟩
    · cases hx
    · exact (hr r hr').names c (mem_dropTrailingCur (hpre.subset (by simp [hc])))
  · intro p n hp c hc
    obtain ⟨_, hp⟩ := PathMap.sub_some hp
    exact h.utf8_names (fun r h => (hr r h).utf8) _ n hp c (by simp [hc])
  · intro p n t hp hk
    obtain ⟨_, hp⟩ := PathMap.sub_some hp
    rcases h.kind_from_req _ n hp with hx | hx | ⟨r, hr', hx⟩
    · cases hx
    · rw [hk] at hx; cases hx
    · exact (hr r hr').target t (by rw [hx, hk])
  · intro p n s c hp hk
    obtain ⟨_, hp⟩ := PathMap.sub_some hp
    rcases h.kind_from_req _ n hp with hx | hx | ⟨r, hr', hx⟩
    · cases hx
    · rw [hk] at hx; cases hx
    · exact (hr r hr').content s c (by rw [hx, hk])

/-- **C47 (partial).** Every archive created from entries that can be recreated on a file system extracts
without error to an empty place, reproducing the tree, if no system call fails. Missing: link targets that
are empty, contain NUL or are not UTF-8, and names `"."`/`".."` — the creator accepts them, see
`C47_counterexamples`. -/
theorem C47_created_extracts_partial {rs : List AddReq} {m : PathMap} {cfg : XCfg} {before after : FS} {res : XResult}
    (hw : Written rs cfg.a) (hm : SpecRun PathMap.empty rs m) (hr : ∀ r ∈ rs, GoodReq cfg.bytes r)
    (hall : cfg.files = []) (hT : EmptyTarget before cfg.base) (hx : CleanExtraction cfg cfg.a.root before after res) :
    res = .ok ∧ TreeAt after cfg.base m cfg.bytes := by
  have hs : m.sub [] = m := by
    obtain ⟨P, G⟩ := hw.good' hm
    funext p
    simp only [PathMap.sub, List.nil_append]
    split
    · rename_i e; rw [e]; exact G.wf.root.symm
    · rfl
  obtain ⟨h1, h2, _⟩ := C14_reproduces ⟨hw, hm, Or.inl ⟨rfl, rfl⟩⟩ hall (Extractable.of_reqs hm hr []) hT hx
  exact ⟨h1, by rw [← hs]; exact h2⟩

def linkReqs (t : Bytes) : List AddReq := [⟨ascii "l", .ok (some (.link t)), exMeta⟩]
def linkSt (t : Bytes) : Creator := (Creator.new.run (linkReqs t)).getD Creator.new
def linkArchive (t : Bytes) : Archive := writeArchive (linkSt t) [0]
theorem linkWritten (t : Bytes) : Written (linkReqs t) (linkArchive t) := by
  obtain ⟨m, paths, hs, R⟩ := run_rel (st := linkSt t) (rs := linkReqs t) (by rfl)
  refine ⟨linkSt t, [0], rfl, ?_, rfl, ?_⟩
  · have : (linkSt t).store.length = 1 := rfl
    exact ⟨by rw [this]; exact List.Perm.refl _, by simp⟩
  · show 1 < 2 ^ 32
    decide

/-- **C47 is false in full**: archives with a single link to a non UTF-8 target, to the empty target or to a
target with a NUL byte can be created but not extracted to an empty file system. -/
theorem C47_counterexamples :
    (∀ t, Written (linkReqs t) (linkArchive t)) ∧
    ∀ t ∈ [[0xff], [], [0]],
      (XCfg.extractRange ⟨linkArchive t, exBytes, [], true, [ascii "t"], .error, quiet⟩ 3 (linkArchive t).root fs0 []).2 ≠ .ok := by
  refine ⟨linkWritten, ?_⟩
  decide

/-- the hypotheses of the partial theorem are met by the example of `Props/Creation`, up to its refused adds -/
example : ∀ r ∈ exReqs2, GoodReq exBytes r := by
  intro r hr
  simp only [exReqs2, List.mem_cons, List.not_mem_nil, or_false] at hr
  have plain : ∀ c ∈ [ascii "a", ascii "b", ascii "l", ascii "x"], PlainName c := by
    intro c hc
    simp only [List.mem_cons, List.not_mem_nil, or_false] at hc
    rcases hc with h | h | h | h <;> rw [h] <;> exact ⟨by decide, by decide, by decide⟩
  rcases hr with rfl | rfl | rfl
  · exact ⟨by decide, fun c hc => plain c (by revert c; decide), (fun t h => by cases h), (fun s c h => by cases h)⟩
  · exact ⟨by decide, fun c hc => plain c (by revert c; decide), (fun t h => by cases h; decide), (fun s c h => by cases h)⟩
  · exact ⟨by decide, fun c hc => plain c (by revert c; decide), (fun t h => by cases h), (fun s c h => by cases h; exact ⟨_, rfl⟩)⟩

/-! ## C31 -/

/-- **C31, extraction.** `extract --root-dir p` extracts (and does not refuse) exactly when `p` is a relative
UTF-8 path (see `RootName`) naming a directory; then it is an extraction of that directory, for which the
other theorems (`C14_reproduces` in particular) hold with `d0 = comps p`. -/
theorem C31_extract_root {rs : List AddReq} {m : PathMap} {cfg : XCfg} (h : Written rs cfg.a)
    (hm : SpecRun PathMap.empty rs m) (p : Bytes) (depth : Nat) (fs : FS) (last : List (Nat × WriteRes)) :
    (RootName p ∧ (∃ n, m (comps p) = some n ∧ n.isDir = true) ∧
      ∃ rg, Source rs m cfg.a rg (comps p) ∧ cfg.extractRoot depth p fs last = some (cfg.extractRange depth rg fs last)) ∨
    (¬ (RootName p ∧ ∃ n, m (comps p) = some n ∧ n.isDir = true) ∧ cfg.extractRoot depth p fs last = none) := by
  have key : cfg.extractRoot depth p fs last = (mountRoot cfg.a (some p)).map (fun rg => cfg.extractRange depth rg fs last) := by
    simp only [XCfg.extractRoot, mountRoot]
    cases RPath.fromPathRef p with
    | error e => rfl
    | ok q =>
      simp only
      generalize cfg.a.getEntry (⟨fun _ _ => .ok (), fun _ _ => .ok (), fun _ _ => .ok ()⟩ : Builder Unit Unit Unit) q = e
      cases e with
      | error e => rfl
      | ok e => cases e <;> rfl
  have acc := C31_root_dir_accepted h hm p
  cases hr : mountRoot cfg.a (some p) with
  | some rg =>
    left
    obtain ⟨h1, h2⟩ := acc.mp ⟨rg, hr⟩
    refine ⟨h1, h2, rg, ⟨h, hm, Or.inr ⟨p, rfl, ?_⟩⟩, by rw [key, hr]; rfl⟩
    exact (mountRoot_some hr).2
  | none =>
    right
    refine ⟨fun hc => ?_, by rw [key, hr]; rfl⟩
    obtain ⟨rg, hrg⟩ := acc.mpr hc
    rw [hr] at hrg; cases hrg

example : ((exX [] .error).extractRoot 5 (ascii "b") fs0 finish).map (fun r => (r.2, r.1.fs.nodes [ascii "t", ascii "x"])) =
    some (.ok, some (.file 0)) ∧ ((exX [] .error).extractRoot 5 (ascii "b/x") fs0 finish).isNone = true := by decide

/-! ## C50 -/

/-- **C50 is false for extraction in mode `newer`**: an archived time of 2^63 seconds or more (in particular
any time before 1970, which is stored as a 64-bit number close to 2^64) makes the comparison with an existing
file panic. -/
theorem C50_newer_counterexample : Written oldReqs oldArchive ∧
    (XCfg.extractRange ⟨oldArchive, exBytes, [], true, [ascii "t"], .newer, quiet⟩ 3 oldArchive.root
      (mkFs [([ascii "t"], .dir 0), ([ascii "t", ascii "f"], .file 0)] (fun _ => ⟨ascii "old", 0⟩) 1) []).2 =
        .walk (.op .panic) := ⟨oldWritten, by decide⟩

/-- **C50 (extraction, partial).** With archived times below 2^63 seconds, mode `newer` extracts over existing
files (and links, where links are archived) without failure. -/
theorem C50_newer_partial {rs : List AddReq} {m : PathMap} {cfg : XCfg} {rg : Range} {d0 : List Bytes} {before after : FS}
    {res : XResult} (h : Source rs m cfg.a rg d0) (T : PlainTarget before cfg.base (m.sub d0))
    (hE : Extractable (m.sub d0) cfg.bytes) (hx : CleanExtraction cfg rg before after res) (hmode : cfg.mode = .newer)
    (htime : ∀ p n, m.sub d0 p = some n → n.info.mtime < 2 ^ 63)
    (hbase : ∀ q i, q <+: cfg.base → before.nodes q ≠ some (.file i))
    (hkind : ∀ p n x, m.sub d0 p = some n → before.nodes (cfg.base ++ p) = some x →
      ((n.isDir = true ↔ ∃ t, x = .dir t) ∧ (∀ s c, n.kind = .file s c → ∃ i, x = .file i))) :
    res = .ok := by
  refine hx.ok h T (NoObstacle.of hx.1 hbase ?_ ?_ hE.utf8 (fun p n t h1 h2 => (hE.targets p n t h1 h2).1)
    (fun p n t h1 _ h2 => (hE.targets p n t h1 h2).2))
  · intro p n x hp _ hxx
    obtain ⟨k1, k2⟩ := hkind p n x hp hxx
    have ht := htime p n hp
    simp only [NoConflict]
    cases hk : n.kind with
    | dir => simp only; exact k1.mp (isDir_kind hk)
    | file s c => simp only; exact ⟨by rw [hmode]; simp, fun _ => ht, fun _ => k2 s c hk⟩
    | link t =>
      simp only
      refine ⟨by rw [hmode]; simp, fun _ => ht, fun _ u hu => ?_⟩
      have := k1.mpr ⟨u, hu⟩
      rw [Node.isDir, hk] at this; cases this
  · intro p n s c hp _ hk e
    obtain ⟨b, hb⟩ := hE.content p n s c hp hk
    rw [hb] at e; cases e

end Arx
