import Verif.Proof.Parts
import Verif.Props.Extract
import Verif.Spec.Attempt
/-!
# An interrupted extraction can be completed (C59)
-/
namespace Arx

/-- what is at the place of entry `n` is of the kind of `n` -/
def Fits (lo : Nat) (n : Node) (x : FNode) : Prop :=
  match n.kind with
  | .dir => ∃ t, x = .dir t
  | .file _ _ => ∃ i, lo ≤ i ∧ x = .file i
  | .link t => ∃ s, x = .link t s

/-- what attempts to extract `m` to an empty target leave -/
structure Leftover (base : List Bytes) (m : PathMap) (before fs : FS) : Prop where
  plain : PlainTarget fs base m
  next : before.next ≤ fs.next
  way : ∀ q x, q <+: base → fs.nodes q = some x → ∃ t, x = .dir t
  below : ∀ p x, p ≠ [] → fs.nodes (base ++ p) = some x → ∃ n, m p = some n ∧ Fits before.next n x
  outside : ∀ q, ¬ base <+: q → ¬ q <+: base → fs.nodes q = before.nodes q
  above : ∀ q x, q <+: base → before.nodes q = some x → fs.nodes q = some x
  data : ∀ i, i < before.next → fs.data i = before.data i

theorem EmptyTarget.leftover {base : List Bytes} {M : PathMap} {d0 : List Bytes} {before : FS} (h : EmptyTarget before base)
    (hn : ∀ p n, M.sub d0 p = some n → ∀ c ∈ p, PlainName c) : Leftover base (M.sub d0) before before where
  plain := h.plain (bytes := fun _ => .missing) hn
  next := Nat.le_refl _
  way := h.way
  below p x hp hx := by rw [h.below (base ++ p) (List.prefix_append _ _) (by simpa using hp)] at hx; cases hx
  outside _ _ _ := rfl
  above _ _ _ h := h
  data _ _ := rfl

theorem Leftover.step {cfg : XCfg} {M : PathMap} {P : List (List Bytes)} {d0 : List Bytes} {before fs fs' : FS} {rg : Range}
    (G : Good cfg.a M P) (hrg : RangeIs P d0 rg.offset rg.count) (h : Leftover cfg.base (M.sub d0) before fs)
    (ha : Attempt cfg rg fs fs') : Leftover cfg.base (M.sub d0) before fs' := by
  obtain ⟨depth, last, hd, rfl⟩ := ha
  have S := xsetup G.wf d0 h.plain
  have hs := G.shape h.plain hrg hd last
  have hw := (G.extractRange h.plain hrg hd last).1.untouched
  refine ⟨hs.plain S, Nat.le_trans h.next hs.next, ?_, ?_, ?_, ?_, ?_⟩
  · intro q x hq hx
    rcases hs.way q hq with e | ⟨_, t, e⟩
    · rw [e] at hx; exact h.way q x hq hx
    · rw [e] at hx; cases hx; exact ⟨t, rfl⟩
  · intro p x hp hx
    cases hm : M.sub d0 p with
    | none =>
      rw [hs.out (cfg.base ++ p) (not_prefix_base hp) (fun p' n' h1 h2 => by
        rw [List.append_cancel_left_eq] at h2; subst h2; rw [hm] at h1; cases h1)] at hx
      obtain ⟨n, h1, _⟩ := h.below p x hp hx
      rw [hm] at h1; cases h1
    | some n =>
      refine ⟨n, rfl, ?_⟩
      rcases hs.kind p n hm with e | e
      · rw [e] at hx
        obtain ⟨n', h1, h2⟩ := h.below p x hp hx
        rw [hm] at h1; cases h1
        exact h2
      · rw [hx] at e
        have hnx := h.next
        unfold OfKind at e
        unfold Fits
        cases hk : n.kind with
        | dir => rw [hk] at e; obtain ⟨t, e⟩ := e; cases e; exact ⟨t, rfl⟩
        | file s c => rw [hk] at e; obtain ⟨i, hi, e⟩ := e; cases e; exact ⟨i, by omega, rfl⟩
        | link t =>
          rw [hk] at e
          rcases e with e | ⟨s, e⟩
          · cases e
          · cases e; exact ⟨s, rfl⟩
  · intro q h1 h2
    rw [hs.out q h2 (fun p n _ e => h1 (by rw [e]; exact List.prefix_append _ _))]
    exact h.outside q h1 h2
  · intro q x hq hx
    exact hw.above q x hq (h.above q x hq hx)
  · intro i hi
    have hnx := h.next
    rw [← h.data i hi]
    refine hw.data i (by omega) ?_
    rintro q hq ⟨p, n, rfl, h1, _⟩
    obtain ⟨n', h2, h3⟩ := h.below p _ (S.ne_nil h1) hq
    unfold Fits at h3
    split at h3
    · obtain ⟨_, h3⟩ := h3; cases h3
    · obtain ⟨j, hj, h3⟩ := h3; cases h3; omega
    · obtain ⟨_, h3⟩ := h3; cases h3

theorem Leftover.wait {base : List Bytes} {m : PathMap} {before fs : FS} (h : Leftover base m before fs) (t : Int) :
    Leftover base m before { fs with now := t } where
  plain := ⟨⟨h.plain.root, h.plain.tree, h.plain.inos⟩, h.plain.baseNames, h.plain.baseLinks, h.plain.links, h.plain.alias, h.plain.names⟩
  next := h.next
  way := h.way
  below := h.below
  outside := h.outside
  above := h.above
  data := h.data

theorem Attempts.leftover {a : Archive} {base : List Bytes} {rg : Range} {M : PathMap} {P : List (List Bytes)} {d0 : List Bytes}
    {start before after : FS} (G : Good a M P) (hrg : RangeIs P d0 rg.offset rg.count) (ha : Attempts a base rg before after)
    (h : Leftover base (M.sub d0) start before) : Leftover base (M.sub d0) start after := by
  induction ha with
  | none fs => exact h
  | wait t _ e ih => subst e; exact ih (h.wait t)
  | attempt cfg h1 h2 h3 _ ih =>
    subst h1; subst h2
    exact ih (h.step G hrg h3)

/-- **C59.** After any number of extractions that were stopped at any moment, for any reason, the extraction in
mode `overwrite` gives the complete tree; and nothing outside of the target was ever changed. -/
theorem C59_resume {rs : List AddReq} {m : PathMap} {cfg : XCfg} {rg : Range} {d0 : List Bytes} {before mid after : FS}
    {res : XResult} (h : Source rs m cfg.a rg d0) (hall : cfg.files = []) (hmode : cfg.mode = .overwrite)
    (hE : Extractable (m.sub d0) cfg.bytes) (hT : EmptyTarget before cfg.base)
    (ha : Attempts cfg.a cfg.base rg before mid) (hx : CleanExtraction cfg rg mid after res) :
    res = .ok ∧ TreeAt after cfg.base (m.sub d0) cfg.bytes ∧
    (∀ q, ¬ cfg.base <+: q → ¬ q <+: cfg.base → after.nodes q = before.nodes q) ∧
    (∀ q x, before.nodes q = some x → after.nodes q = some x) ∧
    (∀ i, i < before.next → after.data i = before.data i) := by
  obtain ⟨P, G, hrg⟩ := h.good
  have L0 : Leftover cfg.base (m.sub d0) before mid := ha.leftover G hrg (hT.leftover hE.names)
  obtain ⟨hfault, hns, depth, last, w, hd, hrun, hfin, haft, hnl⟩ := id hx
  have hX : Extraction cfg rg mid after res := ⟨depth, last, w, hd, hrun, hfin, haft⟩
  obtain ⟨k1, k2, k3⟩ := hX.main h L0.plain
  have hsel : ∀ p b, Selected cfg.files cfg.recurse p b := fun _ _ => Or.inl hall
  have L1 : Leftover cfg.base (m.sub d0) before after := L0.step G hrg ⟨depth, last, hd, by rw [hrun]; exact haft⟩
  have hno : NoObstacle cfg mid (m.sub d0) := by
    refine NoObstacle.of hfault ?_ ?_ ?_ hE.utf8 (fun p n t h1 h2 => (hE.targets p n t h1 h2).1)
      (fun p n t h1 _ h2 => (hE.targets p n t h1 h2).2)
    · intro q i hq e
      obtain ⟨u, hu⟩ := L0.way q _ hq e
      cases hu
    · intro p n x hp _ e
      obtain ⟨n', h1, h2⟩ := L0.below p x (PathMap.sub_some hp).1 e
      rw [hp] at h1; cases h1
      unfold NoConflict
      unfold Fits at h2
      cases hk : n.kind with
      | dir => rw [hk] at h2; exact h2
      | file s c =>
        rw [hk] at h2
        obtain ⟨i, _, h2⟩ := h2
        exact ⟨by rw [hmode]; simp, by rw [hmode]; simp, fun _ => ⟨i, h2⟩⟩
      | link t =>
        rw [hk] at h2
        obtain ⟨s, h2⟩ := h2
        exact ⟨by rw [hmode]; simp, by rw [hmode]; simp, fun _ u e => by rw [h2] at e; cases e⟩
    · intro p n s c hp _ hk e
      obtain ⟨b, hb⟩ := hE.content p n s c hp hk
      rw [hb] at e; cases e
  have hok : res = .ok := hx.ok h L0.plain hno
  obtain ⟨k3, k4⟩ := k3 hok
  have hrep : ∀ n x, Replaces cfg.mode n x := fun _ _ => Or.inl hmode
  refine ⟨hok, ⟨k3, ?_, ?_, ?_, ?_⟩, L1.outside, ?_, L1.data⟩
  · intro p hp hm
    cases hx : after.nodes (cfg.base ++ p) with
    | none => rfl
    | some x =>
      obtain ⟨n, h1, _⟩ := L1.below p x hp hx
      rw [hm] at h1; cases h1
  · intro p n hp hk
    have := k4 p n hp (hsel _ _)
    simp only [Extracted, hk] at this
    exact this.1
  · intro p n s c hp hk
    have := k4 p n hp (hsel _ _)
    obtain ⟨b, hb⟩ := hE.content p n s c hp hk
    simp only [Extracted, hk, hb] at this
    cases hbef : mid.nodes (cfg.base ++ p) with
    | none =>
      rw [hbef] at this
      obtain ⟨i, h1, _, h3⟩ := this
      exact ⟨i, h1, by rw [h3]; exact hb⟩
    | some x =>
      rw [hbef] at this
      obtain ⟨_, h1, h2, _⟩ := this
      obtain ⟨i, rfl, h3⟩ := h2 (hrep _ _)
      exact ⟨i, h1, by rw [h3]; exact hb⟩
  · intro p n t hp hk
    have := k4 p n hp (hsel _ _)
    simp only [Extracted, hk] at this
    obtain ⟨_, this⟩ := this
    cases hbef : mid.nodes (cfg.base ++ p) with
    | none => rw [hbef] at this; exact this
    | some x =>
      rw [hbef] at this
      exact (this.2.1 (hrep _ _)).2
  · intro q x hq
    by_cases hb : q <+: cfg.base
    · exact L1.above q x hb hq
    · have : ¬ cfg.base <+: q := by
        intro hc
        rw [hT.below q hc (by rintro rfl; exact hb (List.prefix_refl _))] at hq; cases hq
      rw [L1.outside q this hb]; exact hq

/-! A killed run, and what the modes do with its remains. -/

/-- the process is killed at its `k`-th call -/
def killed (k : Nat) : Env := ⟨fun n => decide (k ≤ n), fun _ => []⟩

/-- the example is extracted in mode `error`, at second 200, and killed before any content is written -/
def cutFs : FS := (({ exX [] .error with env := killed 5 } : XCfg).extractRange 5 exArchive.root { fs0 with now := 200000000000 } []).1.fs

theorem cut_attempts : Attempts exArchive [ascii "t"] exArchive.root fs0 cutFs :=
  .wait 200000000000 (.attempt { exX [] .error with env := killed 5 } rfl rfl ⟨5, [], by decide, rfl⟩ (.none _)) rfl

theorem cutRes : ∀ mode, mode ≠ .error → ((exX [] mode).extractRange 5 exArchive.root cutFs finish).2 = .ok := by
  intro mode h; cases mode <;> first | decide | exact absurd rfl h

theorem cutClean (mode : Overwrite) (h : mode ≠ .error) : CleanExtraction (exX [] mode) exArchive.root cutFs
    ((exX [] mode).extractRange 5 exArchive.root cutFs finish).1.fs .ok := by
  refine ⟨fun _ => rfl, fun _ x hx => by simp [exX, quiet] at hx, 5, finish, _, ?_, ?_, ?_, rfl, ?_⟩
  · show exArchive.entries.length < 5
    decide
  · rw [← cutRes mode h]
  · cases mode <;> decide
  · intro x hx; simp only [finish, List.mem_cons, List.not_mem_nil, or_false] at hx; rcases hx with rfl | rfl | rfl <;> simp

/-- the hypotheses of `C59_resume` are met: the first run left a link, an empty file and two directories -/
example : Source exReqs exMap (exX [] .overwrite).a exArchive.root [] ∧ Extractable (exMap.sub []) (exX [] .overwrite).bytes ∧
    EmptyTarget fs0 (exX [] .overwrite).base ∧ Attempts (exX [] .overwrite).a (exX [] .overwrite).base exArchive.root fs0 cutFs ∧
    CleanExtraction (exX [] .overwrite) exArchive.root cutFs ((exX [] .overwrite).extractRange 5 exArchive.root cutFs finish).1.fs .ok :=
  ⟨exSource, exExtractable, exT, cut_attempts, cutClean _ (by simp)⟩

example : cutFs.nodes [ascii "t", ascii "b", ascii "x"] = some (.file 0) ∧ (cutFs.data 0).bytes = [] ∧
    (((exX [] .overwrite).extractRange 5 exArchive.root cutFs finish).1.fs.data 0).bytes = ascii "xyz" := by decide

/-- In the modes `skip`, `warn` and `newer` the file that the killed run left empty is kept as it is, and the
extraction reports success: what the first run left is taken for the entry. -/
theorem C59_counterexample (mode : Overwrite) (h : mode = .skip ∨ mode = .warn ∨ mode = .newer) : ∃ after,
    Attempts (exX [] mode).a (exX [] mode).base exArchive.root fs0 cutFs ∧
    CleanExtraction (exX [] mode) exArchive.root cutFs after .ok ∧
    ¬ TreeAt after (exX [] mode).base (exMap.sub []) (exX [] mode).bytes := by
  refine ⟨_, cut_attempts, cutClean mode (by rcases h with rfl | rfl | rfl <;> simp), fun ht => ?_⟩
  obtain ⟨_, _, _, n, hn, hk, _⟩ := exMap_kinds
  obtain ⟨i, h1, h2⟩ := ht.files [ascii "b", ascii "x"] n 3 ⟨1, 0⟩ (by rw [PathMap.sub_ne (by simp)]; exact hn) hk
  have h3 : ((exX [] mode).extractRange 5 exArchive.root cutFs finish).1.fs.nodes [ascii "t", ascii "b", ascii "x"] = some (.file 0) := by
    rcases h with rfl | rfl | rfl <;> decide
  have h4 : (((exX [] mode).extractRange 5 exArchive.root cutFs finish).1.fs.data 0).bytes = [] := by
    rcases h with rfl | rfl | rfl <;> decide
  have e : (exX [] mode).base ++ [ascii "b", ascii "x"] = [ascii "t", ascii "b", ascii "x"] := rfl
  rw [e, h3] at h1
  cases h1
  rw [h4] at h2
  have e2 : (exX [] mode).bytes = exBytes := rfl
  rw [e2] at h2
  exact absurd h2 (by decide)

end Arx
