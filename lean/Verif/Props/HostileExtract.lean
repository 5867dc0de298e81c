import Verif.Proof.HostileExtract
import Verif.Props.Hostile
/-!
# C57: extracting archives that were not made by the creator
-/
namespace Arx

/-- **C57, extraction.** Extract any table — unsorted, with wrong ranges, with names that hold `/`, are empty or
`"."`, with cyclic or shared directories — that has no symbolic links and no `".."` in its names, to a place for
untrusted archives: whatever is selected, whatever the overwrite mode, whichever calls and writes fail, however
writers are scheduled and however far it gets (`depth`, `last`), nothing outside of that place changes. -/
theorem C57_extract_inside {cfg : XCfg} (htame : cfg.a.Tame) {before : FS} (htarget : SafeTarget before cfg.base)
    (depth : Nat) (range : Range) (last : List (Nat × WriteRes)) :
    OnlyBelow cfg.base before (cfg.extractRange depth range before last).1.fs := by
  have hkeep := extractor_confined (cfg := cfg) (fs0 := before) htarget.inos htarget.names htame
  have h0 : Confined cfg.base before (World.init before) := by
    refine ⟨Nat.le_refl _, htarget.links, fun _ _ => .inl rfl, ?_, fun _ _ => rfl, ?_⟩
    · rintro q i hq hn ⟨q', h1, h2⟩
      exact htarget.alias q q' i hq h1 hn h2
    · intro i hi; cases hi
  have huse : Usable cfg.base cfg.base := by
    refine ⟨fun h => (htarget.names _ h).2 rfl, .inl ?_⟩
    rw [noCur_id (fun c h => (htarget.names c h).1)]
    exact List.prefix_rfl
  have key := Archive.walkFrom_invFor hkeep (c := ⟨[], World.init before⟩) ?_ (fun c h => h) depth range ⟨by show PARENT ∉ comps []; decide, h0⟩
  · have hfin := key.2.steps last
    have hfs : OnlyBelow cfg.base before ((cfg.a.walkFrom extractBuilder (extractor cfg) depth range ⟨[], World.init before⟩).1.w.steps last).fs :=
      ⟨hfin.nodes, fun q i h1 h2 => hfin.data i ⟨q, h1, h2⟩⟩
    unfold XCfg.extractRange
    simp only
    split <;> exact hfs
  · intro c hc
    simp only [extractor]
    have := hc.2.mkdirs huse
    revert this
    cases cfg.mkdirs c.w cfg.base with
    | mk w r => intro h; cases r <;> exact ⟨hc.1, h⟩

/-- a directory that contains itself, and a file with a `/`, an empty name and `"."` in its name -/
def wildTable : Archive :=
  ⟨[{ row "/.//f" 0 1 0 0 with content := ⟨1, 0⟩, size := 3 }, row "w" 1 0 0 2], ⟨0, 2⟩⟩

/-- the file system the examples extract to: a directory `d` with a file `f` -/
def wildFs : FS := mkFs [([ascii "d"], .dir 0), ([ascii "d", ascii "f"], .file 0)] (fun _ => ⟨[7], 0⟩) 1

theorem wildFs_nodes (q : List Bytes) (x : FNode) (h : wildFs.nodes q = some x) :
    (q = [] ∧ x = .dir 0) ∨ (q = [ascii "d"] ∧ x = .dir 0) ∨ (q = [ascii "d", ascii "f"] ∧ x = .file 0) := by
  simp only [wildFs, mkFs, List.lookup] at h
  split at h
  · simp_all
  · cases h1 : q == [ascii "d"] with
    | true => simp_all
    | false =>
      rw [h1] at h
      cases h2 : q == [ascii "d", ascii "f"] <;> simp_all

example : wildTable.Tame ∧ SafeTarget wildFs [ascii "t"] ∧
    (XCfg.extractRange ⟨wildTable, exBytes, [], true, [ascii "t"], .error, quiet⟩ 3 wildTable.root wildFs finish).1.fs.nodes
      [ascii "t", ascii "w", ascii "w", ascii "f"] = some (.file 3) := by
  refine ⟨?_, ?_, ?_⟩
  · intro i r h
    match i with
    | 0 => cases h; decide
    | 1 => cases h; decide
    | n + 2 => simp [wildTable] at h
  · refine ⟨by decide, ?_, ?_, ?_⟩
    · intro q _ t s h
      rcases wildFs_nodes q _ h with h | h | h <;> cases h.2
    · intro q q' i hq _ h _
      rcases wildFs_nodes q _ h with h | h | h
      · cases h.2
      · cases h.2
      · rw [h.1] at hq; revert hq; decide
    · intro q i h
      rcases wildFs_nodes q _ h with h | h | h <;> cases h.2
      decide
  · decide +kernel

end Arx
