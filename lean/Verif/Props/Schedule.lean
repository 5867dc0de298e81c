import Verif.Proof.ExtractAny
import Verif.Props.Extract3
/-!
# C19: what a schedule can change, for every archive
-/
namespace Arx

/-- Among the writers of an extraction, at most one was given the file `i`. -/
def OpenedOnce (w : World) (i : Nat) : Prop := (w.tasks.filter (fun t => t.ino = i)).length ≤ 1

theorem filter_once {p : Task → Bool} : ∀ {l : List Task} {j k : Nat} {t u : Task}, (l.filter p).length ≤ 1 →
    l[j]? = some t → l[k]? = some u → p t = true → p u = true → j = k
  | [], _, _, _, _, _, h, _, _, _ => by simp at h
  | x :: l, j, k, t, u, h, hj, hk, ht, hu => by
    have hone : ∀ (n : Nat) (v : Task), l[n]? = some v → p v = true → 1 ≤ (l.filter p).length := by
      intro n v hv hp
      exact List.length_pos_of_mem (List.mem_filter.mpr ⟨List.mem_of_getElem? hv, hp⟩)
    cases j with
    | zero =>
      cases k with
      | zero => rfl
      | succ k =>
        simp only [List.getElem?_cons_zero, Option.some.injEq] at hj
        subst hj
        rw [List.filter_cons_of_pos ht] at h
        have := hone k u (by simpa using hk) hu
        simp only [List.length_cons] at h
        omega
    | succ j =>
      cases k with
      | zero =>
        simp only [List.getElem?_cons_zero, Option.some.injEq] at hk
        subst hk
        rw [List.filter_cons_of_pos hu] at h
        have := hone j t (by simpa using hj) ht
        simp only [List.length_cons] at h
        omega
      | succ k =>
        have h' : (l.filter p).length ≤ 1 := by
          rw [List.filter_cons] at h
          split at h
          · simp only [List.length_cons] at h; omega
          · exact h
        have := filter_once h' (by simpa using hj) (by simpa using hk) ht hu
        omega

/-- **C19, every archive and mode.** Two extractions of anything to anywhere, in any mode and with any failing calls, that differ only in how the writers are
scheduled: they end with the same result; every path leads to the same directory, link or file; all times are the same; the files
that were opened are the same; and so is the content of every file that was not opened more than once. A file
that was opened more than once contains nothing but bytes of the contents written to it, in their places, and zeros. -/
theorem C19_schedule {cfg : XCfg} {depth : Nat} {rg : Range} {before : FS} (hw : before.WF) {sched sched' : Nat → List (Nat × WriteRes)}
    {last last' : List (Nat × WriteRes)} {w w' : World} {res res' : XResult}
    (h : TwoRuns cfg depth rg before sched sched' last last' w w' res res') :
    res = res' ∧ w.fs.nodes = w'.fs.nodes ∧ (∀ i : Nat, (w.fs.data i).mtime = (w'.fs.data i).mtime) ∧
    w.tasks.map (fun t => (t.ino, t.bytes)) = w'.tasks.map (fun t => (t.ino, t.bytes)) ∧
    (∀ i : Nat, OpenedOnce w i → w.fs.data i = w'.fs.data i) ∧
    (∀ (i k : Nat) (x : UInt8), ¬ OpenedOnce w i → (w.fs.data i).bytes[k]? = some x → x = 0 ∨ ∃ t ∈ w.tasks, t.ino = i ∧ t.bytes[k]? = some x) := by
  have hr := h.run
  have hr' := h.run'
  obtain ⟨c1, e1⟩ : ∃ c : XCfg, c = { cfg with env := ⟨cfg.env.fault, sched⟩ } := ⟨_, rfl⟩
  obtain ⟨c2, e2⟩ : ∃ c : XCfg, c = { cfg with env := ⟨cfg.env.fault, sched'⟩ } := ⟨_, rfl⟩
  rw [← e1] at hr
  rw [← e2] at hr'
  have hc : CfgSim c1 c2 := by subst e1; subst e2; exact ⟨⟨rfl, h.noErr.1, h.noErr'.1⟩, rfl⟩
  have a1 : c1.a = cfg.a := by rw [e1]
  have a2 : c2.a = cfg.a := by rw [e2]
  have hstart : ∀ c c', AXSim c c' → SimRes AXSim ANever ((extractor c1).onStart c) ((extractor c2).onStart c') := by
    rintro ⟨cur, u⟩ ⟨cur', u'⟩ ⟨g1, g2⟩
    simp only at g1 g2; subst g1
    simp only [extractor, hc.base]
    obtain ⟨k1, k2⟩ := XCfg.mkdirs_any hc g2 c1.base
    exact Or.inl ⟨⟨rfl, k1⟩, k2⟩
  have key := Archive.walkFrom_sim cfg.a extractBuilder (extractor_any hc) hstart
    (fun c c' h => Or.inl ⟨h, rfl⟩) (fun c h => h) depth rg ⟨[], World.init before⟩ ⟨[], World.init before⟩ ⟨rfl, ASim.init hw.inos⟩
  simp only [XCfg.extractRange, a1] at hr
  simp only [XCfg.extractRange, a2] at hr'
  revert key hr hr'
  generalize cfg.a.walkFrom extractBuilder (extractor c1) depth rg ⟨[], World.init before⟩ = x
  generalize cfg.a.walkFrom extractBuilder (extractor c2) depth rg ⟨[], World.init before⟩ = y
  obtain ⟨c, r⟩ := x
  obtain ⟨c', r'⟩ := y
  intro key hr hr'
  have ew : w = c.w.steps last := by
    cases r <;> simp only [Prod.mk.injEq] at hr <;> exact hr.1.symm
  have ew' : w' = c'.w.steps last' := by
    cases r' <;> simp only [Prod.mk.injEq] at hr' <;> exact hr'.1.symm
  rcases key with ⟨⟨_, hs⟩, hres⟩ | hbad
  · replace hs := hs.steps h.noErr.2 h.noErr'.2
    rw [← ew, ← ew'] at hs
    refine ⟨?_, hs.nodes, hs.mtime, hs.tasks, ?_, ?_⟩
    · simp only at hres
      subst hres
      cases r with
      | error e => simp only [Prod.mk.injEq] at hr hr'; rw [← hr.2, ← hr'.2]
      | ok u =>
        simp only [Prod.mk.injEq] at hr hr'
        rw [← hr.2, ← hr'.2, ← ew, ← ew', hs.flag.1, hs.flag.2]
    · intro i hi
      by_cases hm : i ∈ w.tasks.map Task.ino
      · obtain ⟨t, ht, he⟩ := List.mem_map.mp hm
        obtain ⟨j, hj⟩ := List.mem_iff_getElem?.mp ht
        have hlen : w.tasks.length = w'.tasks.length := by
          have := congrArg List.length hs.tasks
          simpa using this
        have hjw : j < w.tasks.length := (List.getElem?_eq_some_iff.mp hj).1
        obtain ⟨u, hu⟩ : ∃ u, w'.tasks[j]? = some u := ⟨_, List.getElem?_eq_getElem (by omega)⟩
        have htu : (t.ino, t.bytes) = (u.ino, u.bytes) := by
          have := congrArg (fun l => l[j]?) hs.tasks
          simpa [hj, hu] using this
        have hal : Alone (w.tasks.map Task.ino) j := by
          intro k hk
          have hjm : (w.tasks.map Task.ino)[j]? = some i := by simp [hj, he]
          rw [hjm, List.getElem?_map] at hk
          cases hkt : w.tasks[k]? with
          | none => rw [hkt] at hk; cases hk
          | some v =>
            rw [hkt] at hk
            simp only [Option.map_some, Option.some.injEq] at hk
            exact filter_once hi hkt hj (by simpa using hk) (by simpa using he)
        have hal' : Alone (w'.tasks.map Task.ino) j := by rw [← map_ino_of hs.tasks]; exact hal
        have td : t.st = .done := by
          have a := h.finished t ht; have b := hs.fine.1 t ht
          cases hst : t.st <;> simp_all
        have ud : u.st = .done := by
          have a := h.finished' u (List.mem_of_getElem? hu); have b := hs.fine.2 u (List.mem_of_getElem? hu)
          cases hst : u.st <;> simp_all
        have tb : (w.fs.data i).bytes = t.bytes := by
          rw [← he, hs.prog.solo j t hj hal, (hs.prog.ok t ht).done td, List.take_length]
        simp only [Prod.mk.injEq] at htu
        have ub : (w'.fs.data i).bytes = t.bytes := by
          rw [← he, htu.1, hs.prog'.solo j u hu hal', (hs.prog'.ok u (List.mem_of_getElem? hu)).done ud, List.take_length, htu.2]
        have hmt := hs.mtime i
        cases hx : w.fs.data i
        cases hy : w'.fs.data i
        simp only [hx, hy] at tb ub hmt
        rw [tb, ub, hmt]
      · exact hs.data i hm
    · intro i k x hn hx
      have hm : i ∈ w.tasks.map Task.ino := by
        refine Classical.byContradiction fun hm => hn ?_
        have : w.tasks.filter (fun t => t.ino = i) = [] := by
          rw [List.filter_eq_nil_iff]
          intro t ht e
          exact hm (List.mem_map.mpr ⟨t, ht, by simpa using e⟩)
        simp [OpenedOnce, this]
      rcases hs.prog.mixed i hm k x hx with h | ⟨y, hy, h1, h2⟩
      · exact Or.inl h
      · obtain ⟨t, ht, rfl⟩ := List.mem_map.mp hy
        exact Or.inr ⟨t, ht, h1, h2⟩
  · exact hbad.elim

/-- the hypotheses are met by the two schedules of `C19_counterexample`, whose file is opened twice and whose
content differs: the last two parts of the theorem cannot be joined -/
example : let r := twiceX.extractRange 5 twiceArchive.root fs0 [(0, .wrote 9), (1, .wrote 9)]
    let r' := twiceX.extractRange 5 twiceArchive.root fs0 [(1, .wrote 9), (0, .wrote 9)]
    fs0.WF ∧ TwoRuns twiceX 5 twiceArchive.root fs0 (fun _ => []) (fun _ => []) [(0, .wrote 9), (1, .wrote 9)]
      [(1, .wrote 9), (0, .wrote 9)] r.1 r'.1 r.2 r'.2 ∧ ¬ OpenedOnce r.1 0 ∧ OpenedOnce r.1 1 ∧ r.1.fs.data 0 ≠ r'.1.fs.data 0 := by
  refine ⟨exT.toWF, ⟨rfl, rfl, by decide, by decide, ⟨fun _ x hx => by simp [twiceX, quiet] at hx, ?_⟩, ⟨fun _ x hx => by simp [twiceX, quiet] at hx, ?_⟩⟩,
    by unfold OpenedOnce; decide, by unfold OpenedOnce; decide, by decide⟩
  · intro x hx; simp only [List.mem_cons, List.not_mem_nil, or_false] at hx; rcases hx with rfl | rfl <;> simp
  · intro x hx; simp only [List.mem_cons, List.not_mem_nil, or_false] at hx; rcases hx with rfl | rfl <;> simp

end Arx
