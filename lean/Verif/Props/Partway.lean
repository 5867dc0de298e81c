import Verif.Props.Resume
/-!
# What others see during an extraction, and what a killed one leaves (C60)
-/
namespace Arx

/-- **C60.** At every moment of an extraction to a plain target, and after one that was killed or failed at any
point: nothing but the places of selected entries has changed (and missing directories leading to the target
may have appeared); and at the place of every entry there is what was there before, unchanged, or the entry as
far as it has got — in particular a file never holds anything but a first part of its own content. -/
theorem C60_any_moment {rs : List AddReq} {m : PathMap} {cfg : XCfg} {rg : Range} {d0 : List Bytes} {before after : FS}
    (h : Source rs m cfg.a rg d0) (T : PlainTarget before cfg.base (m.sub d0)) (ha : Attempt cfg rg before after) :
    Untouched cfg.files cfg.recurse cfg.base (m.sub d0) before after ∧
    ∀ p n, m.sub d0 p = some n → Partway cfg.bytes before after (cfg.base ++ p) n := by
  obtain ⟨P, G, hrg⟩ := h.good
  obtain ⟨depth, last, hd, rfl⟩ := ha
  refine ⟨(G.extractRange T hrg hd last).1.untouched, ?_⟩
  obtain ⟨V, hP⟩ := G.parts T hrg hd last
  have S := xsetup G.wf d0 T
  intro p n hm
  have hW := (G.extractRange T hrg hd last).1
  have plain := hP.shape.plain S
  -- a file at the place of an entry that a writer owns: the entry is a file with the content of the writer
  have owned : ∀ {i}, (cfg.extractRange depth rg before last).1.fs.nodes (cfg.base ++ p) = some (.file i) →
      i ∈ (cfg.extractRange depth rg before last).1.tasks.map Task.ino →
      ∃ s c b, n.kind = .file s c ∧ cfg.bytes c = .found b ∧ ((cfg.extractRange depth rg before last).1.fs.data i).bytes <+: b := by
    intro i hx hi
    obtain ⟨b, hb⟩ := World.jobs_ino.mp hi
    obtain ⟨p', n', s, c, _, h2, h3, h4, h5⟩ := hP.jobs i b hb
    have e := plain.alias p n i _ hm hx h5
    rw [List.append_cancel_left_eq] at e
    subst e
    rw [hm] at h2; cases h2
    refine ⟨s, c, b, h3, h4, ?_⟩
    obtain ⟨t, ht, e⟩ := List.mem_map.mp hb
    cases e
    rw [(hP.prog.ok t ht).bytes]
    exact List.take_prefix _ _
  -- nothing but files changes in place
  have same : (∀ s c, n.kind ≠ .file s c) →
      (cfg.extractRange depth rg before last).1.fs.nodes (cfg.base ++ p) = before.nodes (cfg.base ++ p) →
      ∀ i, before.nodes (cfg.base ++ p) = some (.file i) →
      (cfg.extractRange depth rg before last).1.fs.data i = before.data i := by
    intro hk e i hi
    refine hW.data i (T.inos _ _ hi) (fun hc => ?_)
    rw [← e] at hi
    obtain ⟨s, c, b, h1, _⟩ := owned hi hc
    exact hk s c h1
  have h1 := hP.shape.kind p n hm
  have h2 := hP.shape.was p n hm
  unfold OfKind at h1
  unfold Was at h2
  unfold Partway
  cases hk : n.kind with
  | dir =>
    simp only [hk] at h1 h2 ⊢
    rcases h2 with e | e
    · exact Or.inl ⟨e, same (by rw [hk]; simp) e⟩
    · rcases h1 with h1 | h1
      · exact Or.inl ⟨h1, fun i hi => by rw [e] at hi; cases hi⟩
      · exact Or.inr ⟨e, h1⟩
  | link t =>
    simp only [hk] at h1 h2 ⊢
    rcases h2 with e | e
    · exact Or.inl ⟨e, same (by rw [hk]; simp) e⟩
    · rcases h1 with h1 | h1
      · exact Or.inl ⟨h1, same (by rw [hk]; simp) h1⟩
      · exact Or.inr ⟨e, h1⟩
  | file s c =>
    simp only [hk] at h1 h2 ⊢
    by_cases e : (cfg.extractRange depth rg before last).1.fs.nodes (cfg.base ++ p) = before.nodes (cfg.base ++ p)
    · by_cases ho : ∃ i, before.nodes (cfg.base ++ p) = some (.file i) ∧ i ∈ (cfg.extractRange depth rg before last).1.tasks.map Task.ino
      · obtain ⟨i, hi, hc⟩ := ho
        obtain ⟨s', c', b, h3, h4, h5⟩ := owned (by rw [e]; exact hi) hc
        rw [hk] at h3; cases h3
        exact Or.inr ⟨i, b, by rw [e]; exact hi, h4, h5, Or.inl hi⟩
      · exact Or.inl ⟨e, fun i hi => hW.data i (T.inos _ _ hi) (fun hc => ho ⟨i, hi, hc⟩)⟩
    · right
      have hnone := h2.resolve_left e
      obtain ⟨i, hi, hx⟩ := h1.resolve_left e
      have hc : i ∈ (cfg.extractRange depth rg before last).1.tasks.map Task.ino := by
        refine Classical.byContradiction (fun hc => ?_)
        have := (hP.rest p n s c i hm hk hx hc).1
        rw [hnone] at this; cases this
      obtain ⟨s', c', b, h3, h4, h5⟩ := owned hx hc
      rw [hk] at h3; cases h3
      exact ⟨i, b, hx, h4, h5, Or.inr ⟨hnone, hi⟩⟩

/-- the hypotheses are met by a run that is killed after three calls of its writers: the file `b/x` holds `xy` -/
example : Source exReqs exMap (exX [] .error).a exArchive.root [] ∧ PlainTarget fs0 (exX [] .error).base (exMap.sub []) ∧
    Attempt (exX [] .error) exArchive.root fs0 ((exX [] .error).extractRange 5 exArchive.root fs0 [(0, .wrote 2)]).1.fs :=
  ⟨exSource, exT.plain (bytes := exBytes) exExtractable.names, 5, _, by decide, rfl⟩

example : ((exX [] .error).extractRange 5 exArchive.root fs0 [(0, .wrote 2)]).1.fs.nodes [ascii "t", ascii "b", ascii "x"] = some (.file 0) ∧
    (((exX [] .error).extractRange 5 exArchive.root fs0 [(0, .wrote 2)]).1.fs.data 0).bytes = ascii "xy" := by decide

end Arx
