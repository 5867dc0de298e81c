import Verif.Props.Resume
import Verif.Props.Exact3
import Verif.Spec.Steps
/-!
# C72: extraction in several steps
-/
namespace Arx

theorem EmptyTarget.partAt {base : List Bytes} {m : PathMap} {bytes : ContentAddr → GetBytes} {d0 : List Bytes} {before : FS}
    (h : EmptyTarget before base) : PartAt before base (m.sub d0) bytes [] where
  there p n _ hs := by obtain ⟨s, hs, _⟩ := hs; cases hs
  unselected p n hp _ := h.below _ (List.prefix_append _ _) (by simpa using (PathMap.sub_some hp).1)
  nothing p hp _ := h.below _ (List.prefix_append _ _) (by simpa using hp)

/-- one run -/
theorem PartAt.step {cfg : XCfg} {rs : List AddReq} {M : PathMap} {d0 : List Bytes} {start fs after : FS} {rg : Range} {sels : List Selection}
    (h : Source rs M cfg.a rg d0) (hE : Extractable (M.sub d0) cfg.bytes)
    (L : Leftover cfg.base (M.sub d0) start fs) (I : PartAt fs cfg.base (M.sub d0) cfg.bytes sels)
    (hx : Extraction cfg rg fs after .ok) :
    PartAt after cfg.base (M.sub d0) cfg.bytes ((cfg.files, cfg.recurse) :: sels) := by
  obtain ⟨k1, _, k3⟩ := hx.main h L.plain
  obtain ⟨_, k4⟩ := k3 rfl
  have same : ∀ p n, M.sub d0 p = some n → ¬ Selected cfg.files cfg.recurse p n.isDir →
      after.nodes (cfg.base ++ p) = fs.nodes (cfg.base ++ p) := by
    intro p n hp hs
    refine k1.nodes _ (not_prefix_base (PathMap.sub_some hp).1) ?_
    rintro ⟨p', n', e, hp', hs'⟩
    rw [List.append_cancel_left_eq] at e; subst e
    rw [hp] at hp'; cases hp'
    exact hs hs'
  refine ⟨?_, ?_, ?_⟩
  · intro p n hp hsel
    have hold : ∀ x, fs.nodes (cfg.base ++ p) = some x → IsEntry cfg.bytes fs (cfg.base ++ p) n := by
      intro x hx
      by_cases hs : SelectedIn sels p n.isDir
      · exact I.there p n hp hs
      · rw [I.unselected p n hp hs] at hx; cases hx
    by_cases hs : Selected cfg.files cfg.recurse p n.isDir
    · have hE1 := k4 p n hp hs
      unfold IsEntry
      cases hk : n.kind with
      | dir => simp only [Extracted, hk] at hE1; exact hE1.1
      | file s c =>
        obtain ⟨b, hb⟩ := hE.content p n s c hp hk
        simp only [Extracted, hk, hb] at hE1
        simp only
        rw [hb]
        cases hbef : fs.nodes (cfg.base ++ p) with
        | none =>
          rw [hbef] at hE1
          obtain ⟨i, h1, _, h2⟩ := hE1
          exact ⟨i, h1, by rw [h2]⟩
        | some x =>
          rw [hbef] at hE1
          obtain ⟨_, h1, h2, h3⟩ := hE1
          have := hold x hbef
          simp only [IsEntry, hk] at this
          obtain ⟨i, hi, hbi⟩ := this
          rw [hbef] at hi; cases hi
          refine ⟨i, h1, ?_⟩
          by_cases hr : Replaces cfg.mode n.info.mtime (fs.timeOf (.file i))
          · obtain ⟨j, e, hj⟩ := h2 hr
            cases e; rw [hj]
          · rw [h3 hr i rfl, ← hbi, hb]
      | link t =>
        simp only [Extracted, hk] at hE1
        simp only
        obtain ⟨_, hE1⟩ := hE1
        cases hbef : fs.nodes (cfg.base ++ p) with
        | none => rw [hbef] at hE1; exact hE1
        | some x =>
          rw [hbef] at hE1
          obtain ⟨_, h2, h3⟩ := hE1
          by_cases hr : Replaces cfg.mode n.info.mtime (fs.timeOf x)
          · exact (h2 hr).2
          · have := hold x hbef
            simp only [IsEntry, hk] at this
            obtain ⟨u, hu⟩ := this
            rw [hbef] at hu; cases hu
            exact ⟨u, (h3 hr).1⟩
    · have hs' : SelectedIn sels p n.isDir := by
        obtain ⟨s, hs1, hs2⟩ := hsel
        rcases List.mem_cons.mp hs1 with rfl | hs1
        · exact absurd hs2 hs
        · exact ⟨s, hs1, hs2⟩
      have hI := I.there p n hp hs'
      have hsame := same p n hp hs
      unfold IsEntry at hI ⊢
      rw [hsame]
      cases hk : n.kind with
      | dir => rw [hk] at hI; exact hI
      | link t => rw [hk] at hI; exact hI
      | file s c =>
        rw [hk] at hI
        obtain ⟨i, hi, hb⟩ := hI
        refine ⟨i, hi, ?_⟩
        rw [k1.data i (L.plain.inos _ _ hi) ?_]
        · exact hb
        · rintro q hq ⟨p', n', e, hp', hs'⟩
          subst e
          have := L.plain.alias p n i _ hp hi hq
          rw [List.append_cancel_left_eq] at this; subst this
          rw [hp] at hp'; cases hp'
          exact hs hs'
  · intro p n hp hsel
    have hs : ¬ Selected cfg.files cfg.recurse p n.isDir := fun h => hsel ⟨_, List.mem_cons_self, h⟩
    rw [same p n hp hs]
    exact I.unselected p n hp (fun ⟨s, h1, h2⟩ => hsel ⟨s, List.mem_cons_of_mem _ h1, h2⟩)
  · intro p hp hm
    rw [k1.nodes _ (not_prefix_base hp) ?_]
    · exact I.nothing p hp hm
    · rintro ⟨p', n', e, hp', _⟩
      rw [List.append_cancel_left_eq] at e; subst e
      rw [hm] at hp'; cases hp'

theorem Runs.inv {rs : List AddReq} {M : PathMap} {a : Archive} {bytes : ContentAddr → GetBytes} {base : List Bytes} {rg : Range}
    {d0 : List Bytes} {before after : FS} {sels : List Selection} (h : Source rs M a rg d0) (hE : Extractable (M.sub d0) bytes)
    (hT : EmptyTarget before base) (hr : Runs a bytes base rg before sels after) :
    Leftover base (M.sub d0) before after ∧ PartAt after base (M.sub d0) bytes sels := by
  induction hr with
  | none => exact ⟨hT.leftover hE.names, hT.partAt⟩
  | wait t _ ih =>
    obtain ⟨i1, i2⟩ := ih
    exact ⟨i1.wait t, ⟨i2.there, i2.unselected, i2.nothing⟩⟩
  | run cfg _ h1 h2 h3 hx ih =>
    obtain ⟨i1, i2⟩ := ih
    subst h1; subst h2; subst h3
    obtain ⟨P, G, hrg⟩ := h.good
    obtain ⟨_, _, depth, last, w, hd, hrun, hfin, haft, _⟩ := hx
    exact ⟨i1.step G hrg ⟨depth, last, hd, by rw [hrun]; exact haft⟩, i2.step h hE i1 ⟨depth, last, w, hd, hrun, hfin, haft⟩⟩

/-- **C72.** Extract parts of an archive to an empty (or missing) directory, in any number of runs with any selections and overwrite
modes. When all of them have ended with success, below the directory is exactly what at least one of them was asked
for, complete, and nothing outside has changed. So the order of the runs, the overwrite modes, and asking twice for the same
do not matter. -/
theorem C72_steps {rs : List AddReq} {m : PathMap} {a : Archive} {bytes : ContentAddr → GetBytes} {base : List Bytes} {rg : Range}
    {d0 : List Bytes} {before after : FS} {sels : List Selection} (h : Source rs m a rg d0) (hE : Extractable (m.sub d0) bytes)
    (hT : EmptyTarget before base) (hr : Runs a bytes base rg before sels after) :
    PartAt after base (m.sub d0) bytes sels ∧
    (∀ q, ¬ base <+: q → ¬ q <+: base → after.nodes q = before.nodes q) ∧
    (∀ q x, q <+: base → before.nodes q = some x → after.nodes q = some x) ∧
    (∀ i, i < before.next → after.data i = before.data i) := by
  obtain ⟨i1, i2⟩ := hr.inv h hE hT
  exact ⟨i2, i1.outside, i1.above, i1.data⟩

/-- **C72 (the next run).** After such runs, one more run without failing calls: in the modes `skip`, `warn`, `overwrite`, and
`newer` (archived times below 2^63), it succeeds; in mode `error` it succeeds exactly if none of the files and links it is
asked for is there already. -/
theorem C72_next {rs : List AddReq} {m : PathMap} {cfg : XCfg} {rg : Range} {d0 : List Bytes} {before mid after : FS} {res : XResult}
    {sels : List Selection} (h : Source rs m cfg.a rg d0) (hE : Extractable (m.sub d0) cfg.bytes)
    (hT : EmptyTarget before cfg.base) (hr : Runs cfg.a cfg.bytes cfg.base rg before sels mid)
    (hx : CleanExtraction cfg rg mid after res) :
    (cfg.mode ≠ .error → (cfg.mode = .newer → ∀ p n, m.sub d0 p = some n → n.info.mtime < 2 ^ 63) → res = .ok) ∧
    (cfg.mode = .error → (res = .ok ↔ ∀ p n, m.sub d0 p = some n → n.isDir = false → Selected cfg.files cfg.recurse p n.isDir →
      ¬ SelectedIn sels p n.isDir)) := by
  obtain ⟨L, I⟩ := hr.inv h hE hT
  have hno : (∀ p n x, m.sub d0 p = some n → Selected cfg.files cfg.recurse p n.isDir →
    mid.nodes (cfg.base ++ p) = some x → NoConflict cfg.mode mid n x) → res = .ok := by
    intro hc
    refine hx.ok h L.plain (NoObstacle.of hx.1 ?_ hc ?_ hE.utf8 (fun p n t h1 h2 => (hE.targets p n t h1 h2).1)
      (fun p n t h1 _ h2 => (hE.targets p n t h1 h2).2))
    · intro q i hq e
      obtain ⟨u, hu⟩ := L.way q _ hq e
      cases hu
    · intro p n s c hp _ hk e
      obtain ⟨b, hb⟩ := hE.content p n s c hp hk
      rw [hb] at e; cases e
  have fits : ∀ p n x, m.sub d0 p = some n → mid.nodes (cfg.base ++ p) = some x → Fits before.next n x := by
    intro p n x hp e
    obtain ⟨n', h1, h2⟩ := L.below p x (PathMap.sub_some hp).1 e
    rw [hp] at h1; cases h1
    exact h2
  constructor
  · intro hne hnew
    refine hno ?_
    intro p n x hp _ e
    have hf := fits p n x hp e
    unfold NoConflict
    unfold Fits at hf
    cases hk : n.kind with
    | dir => rw [hk] at hf; exact hf
    | file s c =>
      rw [hk] at hf
      obtain ⟨i, _, hf⟩ := hf
      exact ⟨hne, fun hn => hnew hn p n hp, fun _ => ⟨i, hf⟩⟩
    | link t =>
      rw [hk] at hf
      obtain ⟨s, hf⟩ := hf
      exact ⟨hne, fun hn => hnew hn p n hp, fun _ u e => by rw [hf] at e; cases e⟩
  · intro herr
    constructor
    · rintro rfl p n hp hd hs hsel
      obtain ⟨_, _, depth, last, w, hdp, hrun, hfin, haft, _⟩ := hx
      have hE1 := C20_exact h L.plain ⟨depth, last, w, hdp, hrun, hfin, haft⟩ hp hs
      have hI := I.there p n hp hsel
      unfold IsEntry at hI
      cases hk : n.kind with
      | dir => simp [Node.isDir, Kind.isDir, hk] at hd
      | file s c =>
        rw [hk] at hI
        obtain ⟨i, hi, hb⟩ := hI
        simp only [Extracted, hk, hb, hi] at hE1
        exact hE1.1 herr
      | link t =>
        rw [hk] at hI
        obtain ⟨u, hu⟩ := hI
        simp only [Extracted, hk, hu] at hE1
        exact hE1.2.1 herr
    · intro hnot
      refine hno ?_
      intro p n x hp hs e
      have hf := fits p n x hp e
      have : n.isDir = true := by
        cases hd : n.isDir with
        | true => rfl
        | false =>
          rw [I.unselected p n hp (hnot p n hp hd hs)] at e; cases e
      unfold NoConflict
      unfold Fits at hf
      cases hk : n.kind with
      | dir => rw [hk] at hf; exact hf
      | file s c => simp [Node.isDir, Kind.isDir, hk] at this
      | link t => simp [Node.isDir, Kind.isDir, hk] at this

/-! ### Example: `a`, then `b` in mode error, then everything in mode overwrite -/

def stepFs (files : List RPath) (mode : Overwrite) (fs : FS) : World × XResult := (exX files mode).extractRange 5 exArchive.root fs finish

theorem stepClean {files : List RPath} {mode : Overwrite} {fs : FS} (h1 : (stepFs files mode fs).2 = .ok) (h2 : (stepFs files mode fs).1.finished) :
    CleanExtraction (exX files mode) exArchive.root fs (stepFs files mode fs).1.fs .ok := by
  refine ⟨fun _ => rfl, fun _ x hx => by simp [exX, quiet] at hx, 5, finish, _, ?_, ?_, h2, rfl, ?_⟩
  · show exArchive.entries.length < 5
    decide
  · rw [← h1]; rfl
  · intro x hx; simp only [finish, List.mem_cons, List.not_mem_nil, or_false] at hx; rcases hx with rfl | rfl | rfl <;> simp

def step1 : FS := (stepFs [ascii "a"] .error fs0).1.fs
def step2 : FS := (stepFs [ascii "b"] .error { step1 with now := 9000000000 }).1.fs
def step3 : FS := (stepFs [] .overwrite step2).1.fs

/-- the hypotheses of `C72_steps` are met, … -/
theorem exRuns : Runs exArchive exBytes [ascii "t"] exArchive.root fs0 [([], true), ([ascii "b"], true), ([ascii "a"], true)] step3 :=
  .run (exX [] .overwrite) (.run (exX [ascii "b"] .error) (.wait 9000000000 (.run (exX [ascii "a"] .error) .none rfl rfl rfl
    (stepClean (by decide) (by decide)))) rfl rfl rfl (stepClean (by decide) (by decide))) rfl rfl rfl (stepClean (by decide) (by decide))

example : PartAt step3 [ascii "t"] (exMap.sub []) exBytes [([], true), ([ascii "b"], true), ([ascii "a"], true)] :=
  (C72_steps exSource exExtractable exT exRuns).1

/-- … and the steps are not trivial: `b/x` appears in the second one, asking for it again in mode `error` fails -/
example : step1.nodes [ascii "t", ascii "a", ascii "l"] = some (.link (ascii "../b") 5000000000) ∧
    step1.nodes [ascii "t", ascii "b", ascii "x"] = none ∧ step2.nodes [ascii "t", ascii "b", ascii "x"] = some (.file 0) ∧
    (stepFs [ascii "b"] .error step2).2 ≠ .ok ∧ (stepFs [ascii "b"] .warn step2).2 = .ok := by decide

end Arx
