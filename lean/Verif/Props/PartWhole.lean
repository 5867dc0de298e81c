import Verif.Props.Steps
/-!
# C84: extracting a part gives a part of the whole
-/
namespace Arx

/-- Two file systems have the same thing at two places: directories, files of the same bytes, or links with the same target. -/
def EqualThing (fs : FS) (q : List Bytes) (fs' : FS) (q' : List Bytes) : Prop :=
  match fs.nodes q, fs'.nodes q' with
  | some (.dir _), some (.dir _) => True
  | some (.file i), some (.file j) => (fs.data i).bytes = (fs'.data j).bytes
  | some (.link t _), some (.link t' _) => t = t'
  | _, _ => False

/-- There is a directory. -/
def FS.HasDir (fs : FS) (q : List Bytes) : Prop := ∃ t, fs.nodes q = some (.dir t)

theorem IsEntry.equal {bytes : ContentAddr → GetBytes} {fs fs' : FS} {q q' : List Bytes} {n : Node} (h : IsEntry bytes fs q n)
    (h' : IsEntry bytes fs' q' n) : EqualThing fs q fs' q' := by
  unfold IsEntry at h h'
  unfold EqualThing
  cases hk : n.kind with
  | dir =>
    rw [hk] at h h'
    obtain ⟨t, ht⟩ := h; obtain ⟨t', ht'⟩ := h'
    rw [ht, ht']; trivial
  | file sz c =>
    rw [hk] at h h'
    obtain ⟨i, hi, hb⟩ := h; obtain ⟨j, hj, hb'⟩ := h'
    rw [hi, hj]
    rw [hb] at hb'
    simpa using hb'
  | link t =>
    rw [hk] at h h'
    obtain ⟨u, hu⟩ := h; obtain ⟨u', hu'⟩ := h'
    rw [hu, hu']

theorem IsEntry.there {bytes : ContentAddr → GetBytes} {fs : FS} {q : List Bytes} {n : Node} (h : IsEntry bytes fs q n) :
    fs.nodes q ≠ none ∧ (fs.HasDir q ↔ n.isDir = true) := by
  unfold IsEntry at h
  unfold FS.HasDir Node.isDir
  cases hk : n.kind with
  | dir => rw [hk] at h; obtain ⟨t, ht⟩ := h; rw [ht]; simp [Kind.isDir]
  | file sz c => rw [hk] at h; obtain ⟨i, hi, _⟩ := h; rw [hi]; simp [Kind.isDir]
  | link t => rw [hk] at h; obtain ⟨u, hu⟩ := h; rw [hu]; simp [Kind.isDir]

theorem TreeAt.isEntry {fs : FS} {base : List Bytes} {m : PathMap} {bytes : ContentAddr → GetBytes} (h : TreeAt fs base m bytes) {p : List Bytes} {n : Node}
    (hp : m p = some n) : IsEntry bytes fs (base ++ p) n := by
  unfold IsEntry
  cases hk : n.kind with
  | dir => exact h.dirs p n hp hk
  | file sz c => exact h.files p n sz c hp hk
  | link t => exact h.links p n t hp hk

/-- **C84.** A whole archive is extracted to one empty or missing directory; a part of it (with `--root-dir`, or a selection, or both) to another, possibly
on another file system and in several runs. No call fails. Then the second directory contains at `p` what the first contains at `d0/p` if
the selection asks for it, and nothing else. -/
theorem C84_part_of_whole {rs : List AddReq} {m : PathMap} {whole : XCfg} {wholeRg rg : Range} {d0 base : List Bytes} {before after before' after' : FS}
    {res : XResult} {sels : List Selection} (hw : Source rs m whole.a wholeRg []) (hs : Source rs m whole.a rg d0) (hall : whole.files = [])
    (hE : Extractable (m.sub []) whole.bytes) (hT : EmptyTarget before whole.base) (hx : CleanExtraction whole wholeRg before after res)
    (hT' : EmptyTarget before' base) (hr : Runs whole.a whole.bytes base rg before' sels after') :
    (∀ p, p ≠ [] → (after'.nodes (base ++ p) ≠ none ↔
      (∃ o, after.nodes (whole.base ++ (d0 ++ p)) = some o ∧ ∃ isDir, SelectedIn sels p isDir ∧
        (isDir = true ↔ after.HasDir (whole.base ++ (d0 ++ p)))))) ∧
    ∀ p, p ≠ [] → after'.nodes (base ++ p) ≠ none → EqualThing after' (base ++ p) after (whole.base ++ (d0 ++ p)) := by
  have hsub : ∀ {p : List Bytes}, p ≠ [] → m.sub [] (d0 ++ p) = m.sub d0 p := by
    intro p hp
    have : d0 ++ p ≠ [] := by simp [hp]
    simp only [PathMap.sub, hp, this, if_false, List.nil_append]
  have hE' : Extractable (m.sub d0) whole.bytes := by
    have key : ∀ p n, m.sub d0 p = some n → m.sub [] (d0 ++ p) = some n := fun p n h => by rw [hsub (PathMap.sub_some h).1]; exact h
    exact ⟨fun p n h c hc => hE.names _ _ (key p n h) c (by simp [hc]), fun p n h c hc => hE.utf8 _ _ (key p n h) c (by simp [hc]),
      fun p n t h hk => hE.targets _ _ t (key p n h) hk, fun p n s c h hk => hE.content _ _ s c (key p n h) hk⟩
  obtain ⟨_, T, _⟩ := C14_reproduces hw hall hE hT hx
  obtain ⟨P, _⟩ := C72_steps hs hE' hT' hr
  have hcase : ∀ p, p ≠ [] → ∀ n, m.sub d0 p = some n → IsEntry whole.bytes after (whole.base ++ (d0 ++ p)) n :=
    fun p hp n hn => T.isEntry (by rw [hsub hp]; exact hn)
  refine ⟨fun p hp => ?_, fun p hp hne => ?_⟩
  · cases hn : m.sub d0 p with
    | none =>
      rw [P.nothing p hp hn, T.nothing (d0 ++ p) (by simp [hp]) (by rw [hsub hp]; exact hn)]
      simp
    | some n =>
      have hI := hcase p hp n hn
      obtain ⟨h1, h2⟩ := hI.there
      constructor
      · intro hne
        have hsel : SelectedIn sels p n.isDir := Classical.byContradiction fun h => hne (P.unselected p n hn h)
        obtain ⟨o, ho⟩ := Option.ne_none_iff_exists'.mp h1
        exact ⟨o, ho, n.isDir, hsel, h2.symm⟩
      · rintro ⟨o, _, b, hb, hbd⟩
        have : b = n.isDir := by
          rw [h2] at hbd
          exact Bool.eq_iff_iff.mpr hbd
        rw [this] at hb
        exact (P.there p n hn hb).there.1
  · cases hn : m.sub d0 p with
    | none => exact absurd (P.nothing p hp hn) hne
    | some n =>
      have hsel : SelectedIn sels p n.isDir := Classical.byContradiction fun h => hne (P.unselected p n hn h)
      exact (P.there p n hn hsel).equal (hcase p hp n hn)

/-! ## Example -/

/-- `arx extract --root-dir b`, after `arx extract` -/
theorem exPartSource : Source exReqs exMap exArchive ⟨3, 1⟩ [ascii "b"] :=
  ⟨exWritten, exMap_spec, Or.inr ⟨ascii "b", by decide, by decide⟩⟩

def partRun : World × XResult := (exX [] .skip).extractRange 5 ⟨3, 1⟩ fs0 finish

theorem partClean : CleanExtraction (exX [] .skip) ⟨3, 1⟩ fs0 partRun.1.fs .ok := by
  refine ⟨fun _ => rfl, fun _ x hx => by simp [exX, quiet] at hx, 5, finish, partRun.1, ?_, ?_, ?_, rfl, ?_⟩
  · show exArchive.entries.length < 5
    decide
  · have h2 : partRun.2 = .ok := by decide
    exact Prod.ext rfl h2
  · unfold World.finished; decide
  · intro x hx; simp only [finish, List.mem_cons, List.not_mem_nil, or_false] at hx; rcases hx with rfl | rfl | rfl <;> simp

/-- the hypotheses of `C84_part_of_whole` are met -/
example : EqualThing partRun.1.fs [ascii "t", ascii "x"] ((exX [] .error).extractRange 5 exArchive.root fs0 finish).1.fs [ascii "t", ascii "b", ascii "x"] :=
  (C84_part_of_whole (whole := exX [] .error) exSource exPartSource rfl exExtractable exT (exClean .error) exT
    (.run (exX [] .skip) .none rfl rfl rfl partClean)).2 [ascii "x"] (by simp) (by decide)

end Arx
