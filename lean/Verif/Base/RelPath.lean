import Verif.Base.Bytes
/-!
# The `relative_path` crate (1.9.3), as far as arx uses it

`crate::Path = relative_path::RelativePath`, `crate::PathBuf = relative_path::RelativePathBuf`
(/repo/libarx/src/common/mod.rs:16-17).  A relative path is its text (`Bytes`); a `Component` is
represented by its text (`Component::as_str`), `"."` being `CurDir` and `".."` `ParentDir`.
The crate is external: these definitions follow its documented behaviour.
-/
namespace Arx

abbrev RPath := Bytes

/-- `relative_path`'s separator `'/'`. -/
def SEP : UInt8 := 47
/-- `Component::CurDir` (`"."`). -/
def CUR : Bytes := [46]
/-- `Component::ParentDir` (`".."`). -/
def PARENT : Bytes := [46, 46]

/-- Split a text at every separator (always at least one piece). -/
def splitSep : Bytes → List Bytes
  | [] => [[]]
  | b :: bs =>
    if b = SEP then [] :: splitSep bs
    else match splitSep bs with
      | s :: ss => (b :: s) :: ss
      | [] => [[b]]

/-- `RelativePath::components()` / `iter()`: the non-empty pieces between separators. -/
def comps (p : RPath) : List Bytes := (splitSep p).filter (fun c => !c.isEmpty)

/-- `Components::next_back`: returns (remaining text, last component or empty). -/
def nextBack (s : Bytes) : Bytes × Bytes :=
  let r := s.reverse.dropWhile (· == SEP)
  (((r.dropWhile (· != SEP)).dropWhile (· == SEP)).reverse, (r.takeWhile (· != SEP)).reverse)

/-- The loop of `RelativePath::parent`: drop trailing `"."` components, then one component.
The first argument bounds the number of iterations (the text length suffices). -/
def parentLoop : Nat → Bytes → Bytes
  | 0, s => s
  | n + 1, s =>
    let (rest, slice) := nextBack s
    if slice = CUR then parentLoop n rest else rest

/-- `RelativePath::parent`: `None` only for the empty text. -/
def RPath.parent (p : RPath) : Option RPath :=
  if p = [] then none else some (parentLoop (p.length + 1) p)

/-- `RelativePath::file_name`: last component that is not `"."`, unless it is `".."`. -/
def fileNameLoop : Nat → Bytes → Option Bytes
  | 0, _ => none
  | n + 1, s =>
    let (rest, slice) := nextBack s
    if slice = [] then none
    else if slice = CUR then fileNameLoop n rest
    else if slice = PARENT then none
    else some slice

/-- `RelativePath::file_name`. -/
def RPath.fileName (p : RPath) : Option Bytes := fileNameLoop (p.length + 1) p

/-- The leading-separator strip of `RelativePathBuf::push`. -/
def dropLeadSep : Bytes → Bytes
  | b :: bs => if b = SEP then bs else b :: bs
  | [] => []

/-- `RelativePathBuf::push`: one leading separator of the argument is dropped and a separator is
inserted unless the buffer is empty or already ends with one. -/
def RPath.push (p : RPath) (other : Bytes) : RPath :=
  let other := dropLeadSep other
  if p ≠ [] ∧ p.getLast? ≠ some SEP then p ++ SEP :: other else p ++ other

/-- `RelativePathBuf::pop`: truncate to the parent (no-op on the empty path). -/
def RPath.pop (p : RPath) : RPath := (RPath.parent p).getD p

/-- Equality of relative paths is equality of their components (`PartialEq`/`Hash` of the crate),
used by `HashSet<PathBuf>::contains` at /repo/libarx/src/tools.rs:148,156,168. -/
def RPath.eqv (a b : RPath) : Bool := comps a == comps b

/-- `Components::next`: (component or empty, remaining text). -/
def nextFront (s : Bytes) : Bytes × Bytes :=
  let r := s.dropWhile (· == SEP)
  (r.takeWhile (· != SEP), (r.dropWhile (· != SEP)).dropWhile (· == SEP))

/-- The component-wise loop of `RelativePath::strip_prefix`. -/
def stripLoop : Bytes → List Bytes → Option RPath
  | s, [] => some s
  | s, c :: cs =>
    let (slice, rest) := nextFront s
    if slice = c then stripLoop rest cs else none

/-- `RelativePath::strip_prefix`. -/
def RPath.stripPrefix (p base : RPath) : Option RPath := stripLoop p (comps base)

inductive FromPathError | nonRelative | nonUtf8 | badSeparator
  deriving DecidableEq, Repr

/-- `RelativePathBuf::from_path` on a Unix path: refuse absolute paths, skip `"."` components,
keep `".."`, refuse non UTF-8 components, join with `'/'`. -/
def RPath.fromPathBuf (p : Bytes) : Except FromPathError RPath :=
  if p.head? = some SEP then .error .nonRelative
  else
    let cs := (comps p).filter (· ≠ CUR)
    if cs.all validUtf8 then .ok (cs.foldl RPath.push []) else .error .nonUtf8

/-- Components of a Unix `std::path::Path` that is not absolute: a `"."` is kept only in leading
position. -/
def stdComps (p : Bytes) : List Bytes :=
  match comps p with
  | [] => []
  | c :: cs => c :: cs.filter (· ≠ CUR)

/-- `RelativePath::from_path` (borrowing): the text is reused when the std components and the
relative components agree pairwise. -/
def RPath.fromPathRef (p : Bytes) : Except FromPathError RPath :=
  if !validUtf8 p then .error .nonUtf8
  else if p.head? = some SEP then .error .nonRelative
  else if ((stdComps p).zip (comps p)).all (fun x => x.1 = x.2) then .ok p
  else .error .badSeparator

/-! ## Specification-level vocabulary -/

/-- A possible component text: non-empty, no separator. -/
def ValidName (c : Bytes) : Prop := c ≠ [] ∧ SEP ∉ c

instance (c : Bytes) : Decidable (ValidName c) := by unfold ValidName; infer_instance

/-- Text of a path given by its components. -/
def joinPath : List Bytes → Bytes
  | [] => []
  | [c] => c
  | c :: cs => c ++ SEP :: joinPath cs

/-- Drop trailing `"."` components. -/
def dropTrailingCur (l : List Bytes) : List Bytes := (l.reverse.dropWhile (· == CUR)).reverse

/-! ## Lemmas -/

theorem splitSep_ne_nil (s : Bytes) : splitSep s ≠ [] := by
  cases s with
  | nil => simp [splitSep]
  | cons b bs => simp only [splitSep]; split <;> (try split) <;> simp

theorem splitSep_append (a b : Bytes) : splitSep (a ++ SEP :: b) = splitSep a ++ splitSep b := by
  induction a with
  | nil => simp [splitSep]
  | cons x xs ih =>
    simp only [List.cons_append, splitSep]
    split
    · simp [ih]
    · rw [ih]
      have := splitSep_ne_nil xs
      cases h : splitSep xs with
      | nil => exact absurd h this
      | cons s ss => simp

theorem splitSep_noSep (a : Bytes) (h : SEP ∉ a) : splitSep a = [a] := by
  induction a with
  | nil => rfl
  | cons x xs ih =>
    simp only [List.mem_cons, not_or] at h
    have hx : ¬ x = SEP := fun e => h.1 e.symm
    simp [splitSep, hx, ih h.2]

theorem splitSep_mem (s c : Bytes) (h : c ∈ splitSep s) : SEP ∉ c := by
  induction s generalizing c with
  | nil => simp [splitSep] at h; simp [h]
  | cons b bs ih =>
    simp only [splitSep] at h
    split at h
    · simp at h; rcases h with h | h
      · simp [h]
      · exact ih _ h
    · rename_i hb
      have := splitSep_ne_nil bs
      cases hs : splitSep bs with
      | nil => exact absurd hs this
      | cons s ss =>
        rw [hs] at h ih; simp at h
        rcases h with h | h
        · subst h; simp only [List.mem_cons, not_or]
          exact ⟨fun e => hb e.symm, ih s (by simp)⟩
        · exact ih c (by simp [h])

theorem comps_append (a b : Bytes) : comps (a ++ SEP :: b) = comps a ++ comps b := by
  simp [comps, splitSep_append]

theorem comps_valid {p c : Bytes} (h : c ∈ comps p) : ValidName c := by
  simp only [comps, List.mem_filter] at h
  exact ⟨by intro e; subst e; simp at h, splitSep_mem _ _ h.1⟩

@[simp] theorem comps_nil : comps [] = [] := rfl

theorem comps_noSep {a : Bytes} (h : SEP ∉ a) : comps a = if a = [] then [] else [a] := by
  simp only [comps, splitSep_noSep a h]
  cases a <;> simp

theorem comps_valid_singleton {a : Bytes} (h : ValidName a) : comps a = [a] := by
  rw [comps_noSep h.2, if_neg h.1]

theorem comps_sep_cons (b : Bytes) : comps (SEP :: b) = comps b := by
  have := comps_append [] b; simpa using this

theorem comps_append_sep (a : Bytes) : comps (a ++ [SEP]) = comps a := by
  have := comps_append a []; simpa using this

/-- removing trailing separators does not change the components -/
theorem comps_trimEnd (s : Bytes) : comps ((s.reverse.dropWhile (· == SEP)).reverse) = comps s := by
  suffices h : ∀ r : Bytes, comps ((r.dropWhile (· == SEP)).reverse) = comps r.reverse by
    simpa using h s.reverse
  intro r
  induction r with
  | nil => rfl
  | cons x xs ih =>
    by_cases hx : x = SEP
    · subst hx; simp [ih, comps_append_sep]
    · simp [hx]

theorem comps_trimStart (s : Bytes) : comps (s.dropWhile (· == SEP)) = comps s := by
  induction s with
  | nil => rfl
  | cons x xs ih =>
    by_cases hx : x = SEP
    · subst hx; simp [ih, comps_sep_cons]
    · simp [hx]

theorem takeWhile_noSep (r : Bytes) : SEP ∉ r.takeWhile (· != SEP) := by
  induction r with
  | nil => simp
  | cons x xs ih =>
    by_cases hx : x = SEP
    · simp [hx]
    · have hx' : ¬ SEP = x := fun e => hx e.symm
      simpa [hx, hx'] using ih

theorem dropWhile_ne_sep (r : Bytes) :
    r.dropWhile (· != SEP) = [] ∨ ∃ t, r.dropWhile (· != SEP) = SEP :: t := by
  induction r with
  | nil => simp
  | cons x xs ih =>
    by_cases hx : x = SEP
    · subst hx; right; exact ⟨xs, by simp⟩
    · simpa [hx] using ih

theorem nextBack_last_noSep (s : Bytes) : SEP ∉ (nextBack s).2 := by
  simpa [nextBack] using takeWhile_noSep (s.reverse.dropWhile (· == SEP))

theorem nextFront_noSep (s : Bytes) : SEP ∉ (nextFront s).1 := by
  simpa [nextFront] using takeWhile_noSep (s.dropWhile (· == SEP))

theorem comps_nextBack (s : Bytes) :
    comps s = comps (nextBack s).1 ++ (if (nextBack s).2 = [] then [] else [(nextBack s).2]) := by
  rw [← comps_noSep (nextBack_last_noSep s)]
  simp only [nextBack]
  rw [← comps_trimEnd s]
  obtain ⟨r, hr⟩ : ∃ r : Bytes, r = s.reverse.dropWhile (· == SEP) := ⟨_, rfl⟩
  rw [← hr]; clear hr
  have hr : r.reverse = (r.dropWhile (· != SEP)).reverse ++ (r.takeWhile (· != SEP)).reverse := by
    rw [← List.reverse_append, List.takeWhile_append_dropWhile]
  have htrim : comps (((r.dropWhile (· != SEP)).dropWhile (· == SEP)).reverse)
      = comps (r.dropWhile (· != SEP)).reverse := by
    have := comps_trimEnd (r.dropWhile (· != SEP)).reverse
    simpa using this
  rw [htrim]
  rcases dropWhile_ne_sep r with h | ⟨t, h⟩
  · rw [hr, h]; simp
  · rw [hr, h]; simp [comps_append, comps_append_sep]

theorem comps_nextFront (s : Bytes) :
    comps s = (if (nextFront s).1 = [] then [] else [(nextFront s).1]) ++ comps (nextFront s).2 := by
  rw [← comps_noSep (nextFront_noSep s)]
  simp only [nextFront]
  rw [← comps_trimStart s]
  obtain ⟨r, hr⟩ : ∃ r : Bytes, r = s.dropWhile (· == SEP) := ⟨_, rfl⟩
  rw [← hr]; clear hr
  have hsl : SEP ∉ r.takeWhile (· != SEP) := takeWhile_noSep r
  rw [comps_trimStart]
  conv => lhs; rw [← List.takeWhile_append_dropWhile (p := (· != SEP)) (l := r)]
  rcases dropWhile_ne_sep r with h | ⟨t, h⟩
  · rw [h]; simp
  · rw [h]; simp [comps_append, comps_sep_cons]

/-- if the last slice is empty there are no components at all -/
theorem nextBack_empty {s : Bytes} (h : (nextBack s).2 = []) : comps s = [] := by
  simp only [nextBack] at h
  rw [← comps_trimEnd s]
  generalize hr : s.reverse.dropWhile (· == SEP) = r at h
  cases r with
  | nil => rfl
  | cons x xs =>
    have hx : (x == SEP) = false := by
      have := List.head?_dropWhile_not (p := (· == SEP)) (l := s.reverse)
      rw [hr] at this; simpa using this
    simp at hx
    simp [hx] at h

theorem nextFront_empty {s : Bytes} (h : (nextFront s).1 = []) : comps s = [] := by
  simp only [nextFront] at h
  rw [← comps_trimStart s]
  generalize hr : s.dropWhile (· == SEP) = r at h
  cases r with
  | nil => rfl
  | cons x xs =>
    have hx : (x == SEP) = false := by
      have := List.head?_dropWhile_not (p := (· == SEP)) (l := s)
      rw [hr] at this; simpa using this
    simp at hx
    simp [hx] at h

theorem nextBack_comps_length {s : Bytes} (h : (nextBack s).2 ≠ []) :
    (comps s).length = (comps (nextBack s).1).length + 1 := by
  rw [comps_nextBack s, if_neg h]; simp

theorem length_comps_le (s : Bytes) : (comps s).length ≤ s.length := by
  have : ∀ s : Bytes, (comps s).length ≤ s.length ∧ (splitSep s).length ≤ s.length + 1 ∧
      (∀ h t, splitSep s = h :: t → h ≠ [] → (t.filter (fun c => !c.isEmpty)).length + 1 ≤ s.length) ∧
      (∀ h t, splitSep s = h :: t → (t.filter (fun c => !c.isEmpty)).length ≤ s.length) := by
    intro s
    induction s with
    | nil => simp [comps, splitSep]
    | cons b bs ih =>
      obtain ⟨i1, i2, i3, i4⟩ := ih
      simp only [comps, splitSep] at *
      split
      · refine ⟨by simp; omega, by simp; omega, ?_, ?_⟩
        · intro h t e hne; simp at e; exact absurd e.1 hne
        · intro h t e; simp at e; rw [← e.2]; simp; omega
      · cases hs : splitSep bs with
        | nil => exact absurd hs (splitSep_ne_nil bs)
        | cons h t =>
          rw [hs] at i1 i2
          have := i4 h t hs
          refine ⟨by simp; omega, by simp at *; omega, ?_, ?_⟩
          · intro h' t' e _; simp at e; rw [← e.2]; simp; omega
          · intro h' t' e; simp at e; rw [← e.2]; simp; omega
  exact (this s).1

@[simp] theorem dropTrailingCur_nil : dropTrailingCur [] = [] := rfl

theorem dropTrailingCur_concat_cur (l : List Bytes) :
    dropTrailingCur (l ++ [CUR]) = dropTrailingCur l := by
  simp [dropTrailingCur]

theorem dropTrailingCur_concat (l : List Bytes) {c : Bytes} (h : c ≠ CUR) :
    dropTrailingCur (l ++ [c]) = l ++ [c] := by
  simp [dropTrailingCur, h]

theorem comps_parentLoop (n : Nat) (s : Bytes) (h : (comps s).length < n) :
    comps (parentLoop n s) = (dropTrailingCur (comps s)).dropLast := by
  induction n generalizing s with
  | zero => omega
  | succ n ih =>
    simp only [parentLoop]
    by_cases he : (nextBack s).2 = []
    · have hc := nextBack_empty he
      have hc' : comps (nextBack s).1 = [] := by
        have := comps_nextBack s; rw [hc] at this; simp at this; exact this.1
      rw [if_neg (by rw [he]; decide), hc, hc']; rfl
    · have hl := nextBack_comps_length he
      split
      · rename_i hcur
        rw [ih _ (by omega), comps_nextBack s, if_neg he, hcur, dropTrailingCur_concat_cur]
      · rename_i hcur
        rw [comps_nextBack s, if_neg he, dropTrailingCur_concat _ hcur]; simp

/-- Components of the parent: drop trailing `"."`, then the last component. -/
theorem comps_parent {p q : RPath} (h : RPath.parent p = some q) :
    comps q = (dropTrailingCur (comps p)).dropLast := by
  simp only [RPath.parent] at h
  split at h
  · cases h
  · simp at h; rw [← h, comps_parentLoop]
    have := length_comps_le p; omega

theorem parent_eq_none {p : RPath} : RPath.parent p = none ↔ p = [] := by
  simp [RPath.parent]

theorem fileNameLoop_eq (n : Nat) (s : Bytes) (h : (comps s).length < n) :
    fileNameLoop n s = match (dropTrailingCur (comps s)).getLast? with
      | some c => if c = PARENT then none else some c
      | none => none := by
  induction n generalizing s with
  | zero => omega
  | succ n ih =>
    simp only [fileNameLoop]
    by_cases he : (nextBack s).2 = []
    · rw [if_pos he, nextBack_empty he]; rfl
    · rw [if_neg he]
      have hl := nextBack_comps_length he
      have hcs := comps_nextBack s
      rw [if_neg he] at hcs
      split
      · rename_i hcur
        rw [ih _ (by omega), hcs, hcur, dropTrailingCur_concat_cur]
      · rename_i hcur
        rw [hcs, dropTrailingCur_concat _ hcur]; simp

/-- `file_name` in terms of components. -/
theorem fileName_eq (p : RPath) :
    RPath.fileName p = match (dropTrailingCur (comps p)).getLast? with
      | some c => if c = PARENT then none else some c
      | none => none := by
  apply fileNameLoop_eq
  have := length_comps_le p; omega

/-! ### Paths built by pushing names -/

theorem joinPath_cons {c : Bytes} {cs : List Bytes} (h : cs ≠ []) :
    joinPath (c :: cs) = c ++ SEP :: joinPath cs := by
  cases cs with
  | nil => exact absurd rfl h
  | cons d ds => rfl

theorem comps_joinPath {cs : List Bytes} (h : ∀ c ∈ cs, ValidName c) : comps (joinPath cs) = cs := by
  induction cs with
  | nil => rfl
  | cons c cs ih =>
    have hc := h c (by simp)
    have ih := ih (fun d hd => h d (by simp [hd]))
    by_cases hcs : cs = []
    · subst hcs; simpa [joinPath] using comps_valid_singleton hc
    · rw [joinPath_cons hcs, comps_append, ih, comps_valid_singleton hc]; rfl

theorem joinPath_append {cs ds : List Bytes} (hc : cs ≠ []) (hd : ds ≠ []) :
    joinPath (cs ++ ds) = joinPath cs ++ SEP :: joinPath ds := by
  induction cs with
  | nil => exact absurd rfl hc
  | cons c cs ih =>
    by_cases h : cs = []
    · subst h; simp [joinPath_cons hd, joinPath]
    · rw [List.cons_append, joinPath_cons (by simp [h]), ih h, joinPath_cons h]; simp

theorem joinPath_ne_nil {cs : List Bytes} (h : ∀ c ∈ cs, ValidName c) (hne : cs ≠ []) :
    joinPath cs ≠ [] := by
  intro e
  have := comps_joinPath h
  rw [e] at this; simp at this; exact hne this

theorem joinPath_getLast {cs : List Bytes} (h : ∀ c ∈ cs, ValidName c) :
    (joinPath cs).getLast? ≠ some SEP := by
  induction cs with
  | nil => simp [joinPath]
  | cons c cs ih =>
    by_cases hcs : cs = []
    · subst hcs
      simp only [joinPath]
      intro e
      exact (h c (by simp)).2 (List.mem_of_getLast? e)
    · rw [joinPath_cons hcs]
      have hne := joinPath_ne_nil (fun d hd => h d (by simp [hd])) hcs
      cases hj : joinPath cs with
      | nil => exact absurd hj hne
      | cons x xs =>
        rw [hj] at ih
        simp only [List.getLast?_append, List.getLast?_cons_cons]
        have := ih (fun d hd => h d (by simp [hd]))
        cases hg : (x :: xs).getLast? with
        | none => simp at hg
        | some y => rw [hg] at this; simpa using this

theorem dropLeadSep_valid {n : Bytes} (hn : ValidName n) : dropLeadSep n = n := by
  cases n with
  | nil => rfl
  | cons b bs =>
    have : ¬ b = SEP := fun e => hn.2 (by rw [e]; simp)
    simp [dropLeadSep, this]

theorem push_joinPath {cs : List Bytes} (h : ∀ c ∈ cs, ValidName c) {n : Bytes} (hn : ValidName n) :
    RPath.push (joinPath cs) n = joinPath (cs ++ [n]) := by
  have hmatch := dropLeadSep_valid hn
  simp only [RPath.push, hmatch]
  by_cases hcs : cs = []
  · subst hcs; simp [joinPath]
  · rw [if_pos ⟨joinPath_ne_nil h hcs, joinPath_getLast h⟩, joinPath_append hcs (by simp)]
    simp [joinPath]

theorem push_comps (p : RPath) {n : Bytes} (hn : ValidName n) : comps (RPath.push p n) = comps p ++ [n] := by
  have hmatch := dropLeadSep_valid hn
  simp only [RPath.push, hmatch]
  split
  · rw [comps_append, comps_valid_singleton hn]
  · rename_i h
    simp only [not_and, Decidable.not_not] at h
    by_cases hp : p = []
    · subst hp; simp [comps_valid_singleton hn]
    · have hl := h hp
      obtain ⟨q, hq⟩ := List.getLast?_eq_some_iff.mp hl
      rw [hq, List.append_assoc]
      simp [comps_append, comps_append_sep, comps_valid_singleton hn]

theorem dropWhile_eq_self_of_head {p : UInt8 → Bool} {l : List UInt8} (h : ∀ x, l.head? = some x → p x = false) :
    l.dropWhile p = l := by
  cases l with
  | nil => rfl
  | cons x xs => simp [h x rfl]

theorem dropWhile_all {p : UInt8 → Bool} {l : List UInt8} (h : ∀ x ∈ l, p x = true) : l.dropWhile p = [] := by
  induction l with
  | nil => rfl
  | cons x xs ih => simp [h x (by simp), ih (fun y hy => h y (by simp [hy]))]

theorem takeWhile_all {p : UInt8 → Bool} {l : List UInt8} (h : ∀ x ∈ l, p x = true) : l.takeWhile p = l := by
  induction l with
  | nil => rfl
  | cons x xs ih => simp [h x (by simp), ih (fun y hy => h y (by simp [hy]))]

theorem nextBack_joinPath {cs : List Bytes} (h : ∀ c ∈ cs, ValidName c) {n : Bytes} (hn : ValidName n) :
    nextBack (joinPath (cs ++ [n])) = (joinPath cs, n) := by
  have hrev : ∀ x, n.reverse.head? = some x → (x == SEP) = false := by
    intro x hx
    have : x ∈ n := by simpa using List.mem_of_head? hx
    simp; intro e; exact hn.2 (e ▸ this)
  have hall : ∀ x ∈ n.reverse, (x != SEP) = true := by
    intro x hx; simp at hx; simp; intro e; exact hn.2 (e ▸ hx)
  by_cases hcs : cs = []
  · subst hcs
    simp only [List.nil_append, joinPath, nextBack]
    rw [dropWhile_eq_self_of_head hrev, dropWhile_all hall,
      takeWhile_all hall]
    simp
  · rw [joinPath_append hcs (by simp)]
    simp only [joinPath, nextBack, List.reverse_append, List.reverse_cons, List.append_assoc]
    have hne : n.reverse ≠ [] := by simpa using hn.1
    have e1 : (n.reverse ++ ([SEP] ++ (joinPath cs).reverse)).dropWhile (· == SEP)
        = n.reverse ++ ([SEP] ++ (joinPath cs).reverse) := by
      apply dropWhile_eq_self_of_head
      intro x hx
      apply hrev x
      cases hr : n.reverse with
      | nil => exact absurd hr hne
      | cons y ys => rw [hr] at hx; simpa using hx
    rw [e1, List.dropWhile_append_of_pos hall, List.takeWhile_append_of_pos hall]
    have e2 : ((joinPath cs).reverse).dropWhile (· == SEP) = (joinPath cs).reverse := by
      apply dropWhile_eq_self_of_head
      intro x hx
      simp only [List.head?_reverse] at hx
      simp; intro e; subst e; exact joinPath_getLast h hx
    simp [e2]

theorem pop_joinPath {cs : List Bytes} (h : ∀ c ∈ cs, ValidName c) {n : Bytes} (hn : ValidName n)
    (hcur : n ≠ CUR) : RPath.pop (joinPath (cs ++ [n])) = joinPath cs := by
  have hne : joinPath (cs ++ [n]) ≠ [] :=
    joinPath_ne_nil (by intro c hc; simp at hc; rcases hc with hc | hc; exact h c hc; exact hc ▸ hn) (by simp)
  simp only [RPath.pop, RPath.parent, if_neg hne, Option.getD_some, parentLoop]
  rw [nextBack_joinPath h hn]; simp [hcur]

theorem foldl_push_joinPath {cs : List Bytes} (h : ∀ c ∈ cs, ValidName c) :
    ∀ (ds : List Bytes), (∀ c ∈ ds, ValidName c) →
      cs.foldl RPath.push (joinPath ds) = joinPath (ds ++ cs) := by
  induction cs with
  | nil => intro ds _; simp
  | cons c cs ih =>
    intro ds hds
    simp only [List.foldl_cons]
    rw [push_joinPath hds (h c (by simp)), ih (fun d hd => h d (by simp [hd]))]
    · simp
    · intro d hd; simp at hd; rcases hd with hd | hd
      · exact hds d hd
      · exact hd ▸ h c (by simp)

theorem comps_stripLoop (s : Bytes) (base : List Bytes) (hb : ∀ c ∈ base, ValidName c) :
    (stripLoop s base).map comps = if base <+: comps s then some ((comps s).drop base.length) else none := by
  induction base generalizing s with
  | nil => simp [stripLoop]
  | cons c cs ih =>
    simp only [stripLoop]
    have hcs := comps_nextFront s
    have hc := hb c (by simp)
    by_cases he : (nextFront s).1 = []
    · have h0 := nextFront_empty he
      rw [if_neg (by rw [he]; exact fun e => hc.1 e.symm), h0]
      simp
    · rw [if_neg he] at hcs
      split
      · rename_i h
        rw [ih _ (fun d hd => hb d (by simp [hd])), hcs, h]
        simp [List.cons_prefix_cons]
      · rename_i h
        rw [hcs]
        rw [if_neg]
        · simp
        · simp [List.cons_prefix_cons]; intro e; exact absurd e.symm h

example : comps (ascii "/a//b/./c/") = [ascii "a", ascii "b", ascii ".", ascii "c"] := by decide
example : RPath.parent (ascii "a/b//c/.") = some (ascii "a/b") := by decide
example : RPath.fileName (ascii "a/b/") = some (ascii "b") ∧ RPath.fileName (ascii "a/..") = none := by
  decide
example : RPath.pop (RPath.push (ascii "a") (ascii "b")) = ascii "a" := by decide
example : RPath.stripPrefix (ascii "a/b/c") (ascii "a/") = some (ascii "b/c") := by decide

end Arx
