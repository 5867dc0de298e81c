import Verif.Proof.AdderMain
import Verif.Proof.Dot
import Verif.Props.Extract2
/-!
# Properties of adding from the file system (C33–C36, C50)
-/
namespace Arx

/-! ## C33: prefix stripping -/

/-- **C33 (what a path on the command line means).** Names written one after the other with `/` between them denote the place reached
from the working directory by these names; with a `/` in front, the place reached from the root; repeated `/` change nothing. With
a trailing `/`, the path leads where it leads without, a link being followed, but only if that is a directory. (Theorems about
commands speak of places with `namesOf`.) -/
theorem C33_place {names : List Bytes} (h : ∀ c ∈ names, ValidName c) (cwd : List Bytes) :
    namesOf cwd (joinPath names) = cwd ++ names ∧ (names ≠ [] → namesOf cwd (SEP :: joinPath names) = names) ∧
    (∀ p q, p ≠ [] → namesOf cwd (p ++ SEP :: SEP :: q) = namesOf cwd (p ++ SEP :: q)) ∧
    (∀ (fs : FS) (follow : Bool) (q : List Bytes) (text : Bytes), fs.WF → text ≠ [] → text.getLast? ≠ some SEP →
      (fs.resolve follow (namesOf cwd (text ++ [SEP])) = .ok (.found q) ↔
        fs.resolve true (namesOf cwd text) = .ok (.found q) ∧ ∃ t, fs.nodes q = some (.dir t))) := by
  have hdd : ∀ p q, comps (p ++ SEP :: SEP :: q) = comps (p ++ SEP :: q) := by
    intro p q
    rw [comps_append, comps_append, comps_sep_cons]
  have htr : ∀ p, comps (p ++ [SEP]) = comps p := by
    intro p
    rw [comps_append_sep]
  have hlast : names ≠ [] → (joinPath names).getLast? ≠ some SEP := fun _ => joinPath_getLast h
  have htl : names ≠ [] → trailing (joinPath names) = [] ∧ trailing (SEP :: joinPath names) = [] := by
    intro hne
    have h1 := hlast hne
    unfold trailing
    refine ⟨if_neg h1, if_neg ?_⟩
    cases hj : joinPath names with
    | nil => exact absurd ((joinPath_eq_nil h).mp hj) hne
    | cons b t => rw [hj] at h1; simpa [List.getLast?_cons] using h1
  refine ⟨?_, ?_, ?_, ?_⟩
  · cases names with
    | nil => simp [namesOf, baseNames, trailing, joinPath, comps, splitSep]
    | cons c cs =>
      have hc := h c List.mem_cons_self
      have : (joinPath (c :: cs)).head? ≠ some SEP := by
        cases c with
        | nil => exact absurd rfl hc.1
        | cons b bs =>
          intro e
          have : b = SEP := by
            cases cs with
            | nil => simpa [joinPath] using e
            | cons d ds => simpa [joinPath] using e
          exact hc.2 (by rw [this]; exact List.mem_cons_self)
      unfold namesOf baseNames
      rw [if_neg this, comps_joinPath h, (htl (by simp)).1, List.append_nil]
  · intro hne
    unfold namesOf baseNames
    rw [if_pos (by rfl), comps_sep_cons, comps_joinPath h, (htl hne).2, List.append_nil]
  · intro p q hp
    cases p with
    | nil => exact absurd rfl hp
    | cons b bs =>
      unfold namesOf baseNames trailing
      rw [hdd]
      simp [List.getLast?_append, List.getLast?_cons]
  · intro fs follow q text W hne hl
    have e : namesOf cwd (text ++ [SEP]) = namesOf cwd text ++ [CUR] := by
      obtain ⟨b, t, rfl⟩ := List.exists_cons_of_ne_nil hne
      unfold namesOf baseNames trailing
      rw [htr, if_neg hl, List.getLast?_concat, if_pos rfl, List.append_nil]
      rfl
    rw [e]
    exact W.resolve_dot

example : namesOf [ascii "home"] (ascii "a//b") = [ascii "home", ascii "a", ascii "b"] ∧ namesOf [ascii "home"] (ascii "/a") = [ascii "a"] ∧
    namesOf [] (ascii "d/") = [ascii "d", CUR] := by decide

/-- C33. For every path, prefix, environment and state, `add_entry_from_path`
* refuses an absolute path, and a path with a name that is not UTF-8, without any effect;
* refuses a path that (without its `"."` components) does not begin with the names of the prefix, without
  any effect;
* does nothing for the prefix itself;
* otherwise offers to the archive one entry, stored under the names that follow the prefix, unless the
  source cannot be read; the outcome is that of the add. -/
theorem C33_strip_prefix (env : CEnv) (pre : RPath) (s : Adder) (path : Bytes) (follow : Bool) :
    (path.head? = some SEP → s.addEntryFromPath env pre path follow = (s, .path .nonRelative)) ∧
    (path.head? ≠ some SEP → (∃ c ∈ comps path, validUtf8 c = false) →
      s.addEntryFromPath env pre path follow = (s, .path .nonUtf8)) ∧
    (path.head? ≠ some SEP → (∀ c ∈ comps path, validUtf8 c = true) →
      ((¬ ∃ k, StoredAs path pre k) → s.addEntryFromPath env pre path follow = (s, .notInPrefix)) ∧
      (StoredAs path pre [] → s.addEntryFromPath env pre path follow = (s, .ok)) ∧
      (∀ k, StoredAs path pre k → k ≠ [] →
        (∃ e s', s.addEntryFromPath env pre path follow = (s', .host e) ∧ s'.creator = s.creator) ∨
        (∃ r s' o, s.addEntryFromPath env pre path follow = (s', o) ∧ entryPath r.path = k ∧
          s'.creator = (s.creator.addEntry r).1 ∧
          (match (s.creator.addEntry r).2 with
            | .ok => o = .ok
            | .err e => o = .add e
            | .panic => o = .panic)))) := by
  refine ⟨?_, ?_, ?_⟩
  · intro h
    rw [Adder.addEntryFromPath, fromPathBuf_eq, if_pos h]
  · intro h ⟨c, hc, hu⟩
    rw [Adder.addEntryFromPath, fromPathBuf_eq, if_neg h, if_neg]
    intro h'; rw [h' c hc] at hu; cases hu
  · intro h hu
    have hf : RPath.fromPathBuf path = .ok (joinPath ((comps path).filter (· ≠ CUR))) := by
      rw [fromPathBuf_eq, if_neg h, if_pos hu]
    have hv : ∀ c ∈ (comps path).filter (· ≠ CUR), ValidName c := fun c hc => filterCur_valid hc
    have hst := stripLoop_joinPath (comps pre) _ hv (fun c hc => comps_valid hc)
    refine ⟨?_, ?_, ?_⟩
    · intro hn
      have : RPath.stripPrefix (joinPath ((comps path).filter (· ≠ CUR))) pre = none := by
        rw [RPath.stripPrefix, hst, if_neg]
        rintro ⟨k, hk⟩
        exact hn ⟨k, hk.symm⟩
      rw [Adder.addEntryFromPath, hf]
      simp only
      rw [this]
    · intro hk
      unfold StoredAs at hk
      rw [List.append_nil] at hk
      have : RPath.stripPrefix (joinPath ((comps path).filter (· ≠ CUR))) pre = some [] := by
        rw [RPath.stripPrefix, hst, if_pos (by rw [hk]; exact List.prefix_refl _)]
        rw [hk]; simp [joinPath]
      rw [Adder.addEntryFromPath, hf]
      simp only
      rw [this]
      simp
    · intro k hk hne
      unfold StoredAs at hk
      have hkv : ∀ c ∈ k, ValidName c := fun c hc => hv c (by rw [hk]; simp [hc])
      have hkc : ∀ c ∈ k, c ≠ CUR := fun c hc => by
        have : c ∈ (comps path).filter (· ≠ CUR) := by rw [hk]; simp [hc]
        simpa using (List.mem_filter.mp this).2
      have hs : RPath.stripPrefix (joinPath ((comps path).filter (· ≠ CUR))) pre = some (joinPath k) := by
        rw [RPath.stripPrefix, hst, if_pos (by rw [hk]; exact List.prefix_append _ _)]
        rw [hk]; simp
      rw [Adder.addEntryFromPath, hf]
      simp only
      rw [hs]
      simp only
      rw [if_neg (joinPath_ne_nil hkv hne)]
      have hpath : ∀ {r : AddReq} {cs : List Bytes},
          newFromPath env s.tick s.contents (namesOf env.cwd path) (joinPath k) follow = .ok (r, cs) → r.path = joinPath k := by
        intro r cs hr
        unfold newFromPath at hr
        cases hd : detectKind env s.tick (namesOf env.cwd path) follow with
        | error e => rw [hd] at hr; cases hr
        | ok y =>
          obtain ⟨p', attr⟩ := y
          rw [hd] at hr
          simp only at hr
          cases hk : attr.kind with
          | dir => rw [hk] at hr; cases hr; rfl
          | other => rw [hk] at hr; cases hr; rfl
          | file size =>
            rw [hk] at hr
            simp only at hr
            cases hc : env.call (s.tick + 3) (fun s => s.readFile p') with
            | error e => rw [hc] at hr; cases hr
            | ok b => rw [hc] at hr; cases hr; rfl
          | link =>
            rw [hk] at hr
            simp only at hr
            cases hc : env.call (s.tick + 3) (fun s => s.readLink p') with
            | error e => rw [hc] at hr; cases hr
            | ok b => rw [hc] at hr; cases hr; rfl
      cases hnew : newFromPath env s.tick s.contents (namesOf env.cwd path) (joinPath k) follow with
      | error e => exact Or.inl ⟨e, _, rfl, rfl⟩
      | ok y =>
        obtain ⟨r, cs⟩ := y
        refine Or.inr ⟨r, _, _, rfl, ?_, ?_, ?_⟩
        · rw [hpath hnew, entryPath_joinPath hkv hkc]
        · cases hadd : s.creator.addEntry r with
          | mk c o => cases o <;> rfl
        · cases hadd : s.creator.addEntry r with
          | mk c o => cases o <;> rfl

/-! A source used in the examples: `/d` contains the file `f` (content `hi`), the directory `s` with the link
`l` to `../f`, and a FIFO `p`. The current directory is `/`. -/

def exSrc : Src where
  fs := {
    nodes := fun q =>
      if q = [] then some (.dir 0)
      else if q = [ascii "d"] then some (.dir 1000000000)
      else if q = [ascii "d", ascii "f"] then some (.file 0)
      else if q = [ascii "d", ascii "p"] then some (.file 1)
      else if q = [ascii "d", ascii "s"] then some (.dir 2500000000)
      else if q = [ascii "d", ascii "s", ascii "l"] then some (.link (ascii "../f") 3000000000)
      else none
    data := fun i => if i = 0 then ⟨ascii "hi", 7000000000⟩ else ⟨[], 0⟩
    next := 2
    now := 9000000000 }
  ids := fun _ => (1, 2, 0o100644)
  special := fun i => i == 1

def exEnv : CEnv := ⟨fun _ => exSrc, fun _ => false, []⟩

theorem exEnv_quiet : Quiet exEnv exSrc := ⟨fun _ => rfl, fun _ => rfl⟩

theorem exSrc_nodes {q : List Bytes} {x : FNode} (h : exSrc.fs.nodes q = some x) :
    (q, x) ∈ [([], FNode.dir 0), ([ascii "d"], .dir 1000000000), ([ascii "d", ascii "f"], .file 0), ([ascii "d", ascii "p"], .file 1),
      ([ascii "d", ascii "s"], .dir 2500000000), ([ascii "d", ascii "s", ascii "l"], .link (ascii "../f") 3000000000)] := by
  simp only [exSrc] at h
  repeat' (split at h)
  all_goals (first | (cases h; done) | (cases h; simp_all))

theorem exSrc_wf : exSrc.WF where
  root := ⟨0, rfl⟩
  tree := by
    intro q c x h
    have := exSrc_nodes h
    simp only [List.mem_cons, Prod.mk.injEq, List.not_mem_nil, or_false] at this
    rcases this with ⟨e, _⟩ | ⟨e, _⟩ | ⟨e, _⟩ | ⟨e, _⟩ | ⟨e, _⟩ | ⟨e, _⟩
    · simp at e
    · have := List.append_inj_left' (s₁ := q) (s₂ := []) e rfl; subst this; exact ⟨0, rfl⟩
    · have := List.append_inj_left' (s₁ := q) (s₂ := [ascii "d"]) e rfl; subst this; exact ⟨_, rfl⟩
    · have := List.append_inj_left' (s₁ := q) (s₂ := [ascii "d"]) e rfl; subst this; exact ⟨_, rfl⟩
    · have := List.append_inj_left' (s₁ := q) (s₂ := [ascii "d"]) e rfl; subst this; exact ⟨_, rfl⟩
    · have := List.append_inj_left' (s₁ := q) (s₂ := [ascii "d", ascii "s"]) e rfl; subst this; exact ⟨_, rfl⟩
  inos := by
    intro q i h
    have := exSrc_nodes h
    simp only [List.mem_cons, Prod.mk.injEq, List.not_mem_nil, or_false] at this
    rcases this with ⟨_, e⟩ | ⟨_, e⟩ | ⟨_, e⟩ | ⟨_, e⟩ | ⟨_, e⟩ | ⟨_, e⟩ <;> cases e <;> decide
  names := by
    intro q x h c hc
    have := exSrc_nodes h
    simp only [List.mem_cons, Prod.mk.injEq, List.not_mem_nil, or_false] at this
    rcases this with ⟨e, _⟩ | ⟨e, _⟩ | ⟨e, _⟩ | ⟨e, _⟩ | ⟨e, _⟩ | ⟨e, _⟩ <;> subst e <;> clear h <;>
      simp only [List.mem_cons, List.not_mem_nil, or_false] at hc
    all_goals (first | (cases hc; done) | (repeat' (first | subst hc | (rcases hc with rfl | hc))))
    all_goals (exact ⟨by decide, by decide, by decide, by decide⟩)
  targets := by
    intro q t u h
    have := exSrc_nodes h
    simp only [List.mem_cons, Prod.mk.injEq, List.not_mem_nil, or_false] at this
    rcases this with ⟨_, e⟩ | ⟨_, e⟩ | ⟨_, e⟩ | ⟨_, e⟩ | ⟨_, e⟩ | ⟨_, e⟩ <;> cases e
    decide

/-- non-vacuity of `C33_strip_prefix`: prefix `d` is removed, `d` itself skipped, another prefix refused. -/
example : StoredAs (ascii "./d/f") (ascii "d") [ascii "f"] ∧ StoredAs (ascii "d/.") (ascii "d") [] ∧
    ¬ ∃ k, StoredAs (ascii "d/f") (ascii "e") k := by
  refine ⟨by unfold StoredAs; decide, by unfold StoredAs; decide, ?_⟩
  rintro ⟨k, h⟩
  have : comps (ascii "e") <+: (comps (ascii "d/f")).filter (· ≠ CUR) := ⟨k, h.symm⟩
  revert this; decide
example : ((Adder.new.addEntryFromPath exEnv (ascii "d") (ascii "./d/f") false).1.creator.store.map (·.name) = [ascii "f"]) := by decide
example : (Adder.new.addEntryFromPath exEnv (ascii "e") (ascii "d/f") false).2 = .notInPrefix ∧
    (Adder.new.addEntryFromPath exEnv [] (ascii "/d/f") false).2 = .path .nonRelative ∧
    (Adder.new.addEntryFromPath exEnv [] [100, 47, 255] false).2 = .path .nonUtf8 := by decide

end Arx
