import Verif.Props.Extract2
/-!
# The writers: C18, C19
-/
namespace Arx

/-! ## C18 -/

/-- One writer, for content `b`, on the empty file `ino` it has just opened. -/
def oneWriter (fs : FS) (ino : Nat) (b : Bytes) : World :=
  { fs := fs, tasks := [⟨ino, b, 0, .running⟩], okFlag := true, tick := 0 }

/-- the state of a writer that has written `n` bytes -/
def writerAt (fs : FS) (ino : Nat) (b : Bytes) (n : Nat) (st : TState) (w : World) : Prop :=
  w.tasks = [⟨ino, b, n, st⟩] ∧ n ≤ b.length ∧ (w.fs.data ino).bytes = b.take n ∧
  (∀ j, j ≠ ino → w.fs.data j = fs.data j) ∧ w.fs.nodes = fs.nodes

theorem writerAt.step {fs : FS} {ino : Nat} {b : Bytes} {n k : Nat} {w : World} (h : writerAt fs ino b n .running w) :
    let n' := n + (((b.drop n).take (min (b.length - n) 4096)).take k).length
    writerAt fs ino b n' (if n' = b.length then .done else .running) (w.step (0, .wrote k)) ∧
    (w.step (0, .wrote k)).okFlag = w.okFlag := by
  obtain ⟨h1, h2, h3, h4, h5⟩ := h
  have T : Task.slice_eq ⟨ino, b, n, .running⟩ k = Task.slice_eq ⟨ino, b, n, .running⟩ k := rfl
  have hs := Task.slice_eq ⟨ino, b, n, .running⟩ k
  have hle := Task.slice_le ⟨ino, b, n, .running⟩ h2 k
  simp only [World.step, h1, List.getElem?_cons_zero]
  simp only [ne_eq, not_true_eq_false, if_false]
  refine ⟨⟨?_, ?_, ?_, ?_, ?_⟩, trivial⟩
  · simp [Task.slice, Task.subSize]
  · exact hle
  · simp only [FS.setData, if_true]
    rw [h3, writeAt_take b n h2 _ hs]
    rfl
  · intro j hj
    simp only [FS.setData, if_neg hj]
    exact h4 j hj
  · simp only [FS.setData]; exact h5

theorem writerAt.stay {fs : FS} {ino : Nat} {b : Bytes} {n : Nat} {st : TState} {w : World} (h : writerAt fs ino b n st w)
    (hst : st ≠ .running) (x : WriteRes) : w.step (0, x) = w := by
  obtain ⟨h1, _⟩ := h
  simp only [World.step, h1, List.getElem?_cons_zero]
  simp [hst]

/-- **C18, safety.** After any sequence of short writes (`ks` are the numbers of bytes the system accepts),
the file holds a prefix of the content, its length is the writer's offset, the offset never passes the end,
and the next slice asked for lies inside the content and continues the prefix. Nothing else is touched. -/
theorem C18_prefix (fs : FS) (ino : Nat) (b : Bytes) (h0 : (fs.data ino).bytes = []) (ks : List Nat) :
    let w := (oneWriter fs ino b).steps (ks.map (fun k => (0, .wrote k)))
    ∃ n st, w.tasks = [⟨ino, b, n, st⟩] ∧ n ≤ b.length ∧ (w.fs.data ino).bytes = b.take n ∧
      n + (Task.subSize ⟨ino, b, n, st⟩) ≤ b.length ∧
      Task.slice ⟨ino, b, n, st⟩ = (b.drop n).take (Task.subSize ⟨ino, b, n, st⟩) ∧
      (Task.slice ⟨ino, b, n, st⟩).length = Task.subSize ⟨ino, b, n, st⟩ ∧
      w.okFlag = true ∧ (∀ j, j ≠ ino → w.fs.data j = fs.data j) ∧ w.fs.nodes = fs.nodes := by
  have key : ∀ (ks : List Nat) (w : World) n st, writerAt fs ino b n st w → w.okFlag = true →
      ∃ n st, writerAt fs ino b n st (w.steps (ks.map (fun k => (0, .wrote k)))) ∧
        (w.steps (ks.map (fun k => (0, .wrote k)))).okFlag = true := by
    intro ks
    induction ks with
    | nil => intro w n st h hf; exact ⟨n, st, h, hf⟩
    | cons k ks ih =>
      intro w n st h hf
      simp only [List.map_cons, World.steps, List.foldl_cons]
      by_cases hst : st = .running
      · subst hst
        obtain ⟨g, gf⟩ := h.step (k := k)
        exact ih _ _ _ g (gf.trans hf)
      · rw [h.stay hst]
        exact ih _ _ _ h hf
  obtain ⟨n, st, ⟨h1, h2, h3, h4, h5⟩, hf⟩ := key ks (oneWriter fs ino b) 0 .running
    ⟨rfl, Nat.zero_le _, by simpa [oneWriter] using h0, fun _ _ => rfl, rfl⟩ rfl
  refine ⟨n, st, h1, h2, h3, ?_, rfl, ?_, hf, h4, h5⟩
  · simp only [Task.subSize]; omega
  · simp only [Task.slice, Task.subSize, List.length_take, List.length_drop]; omega

/-- **C18, completeness.** Once as many writes have happened as the content has bytes (one for an empty
content), each accepting at least one byte, the writer has ended without error and the file holds exactly
the content. -/
theorem C18_whole_content (fs : FS) (ino : Nat) (b : Bytes) (h0 : (fs.data ino).bytes = []) (ks : List Nat)
    (hk : ∀ k ∈ ks, 1 ≤ k) (hl : max 1 b.length ≤ ks.length) :
    let w := (oneWriter fs ino b).steps (ks.map (fun k => (0, .wrote k)))
    w.tasks = [⟨ino, b, b.length, .done⟩] ∧ (w.fs.data ino).bytes = b ∧ w.okFlag = true ∧ w.finished := by
  have stay : ∀ (ks : List Nat) (w : World), writerAt fs ino b b.length .done w →
      w.steps (ks.map (fun k => (0, .wrote k))) = w := by
    intro ks
    induction ks with
    | nil => intro w h; rfl
    | cons k ks ih =>
      intro w h
      simp only [List.map_cons, World.steps, List.foldl_cons]
      rw [h.stay (by simp)]
      exact ih w h
  have key : ∀ (ks : List Nat) (w : World) n, writerAt fs ino b n .running w → w.okFlag = true → (∀ k ∈ ks, 1 ≤ k) →
      max 1 (b.length - n) ≤ ks.length →
      writerAt fs ino b b.length .done (w.steps (ks.map (fun k => (0, .wrote k)))) ∧
        (w.steps (ks.map (fun k => (0, .wrote k)))).okFlag = true := by
    intro ks
    induction ks with
    | nil => intro w n h hf _ hl; simp at hl
    | cons k ks ih =>
      intro w n h hf hk hl
      simp only [List.map_cons, World.steps, List.foldl_cons]
      obtain ⟨g, gf⟩ := h.step (k := k)
      have hk1 := hk k (by simp)
      have hn := h.2.1
      have hlen : (((b.drop n).take (min (b.length - n) 4096)).take k).length = min k (min (b.length - n) 4096) := by
        simp only [List.length_take, List.length_drop]; omega
      simp only [hlen] at g
      simp only [List.length_cons] at hl
      by_cases he : n + min k (min (b.length - n) 4096) = b.length
      · rw [if_pos he, he] at g
        have := stay ks _ g
        simp only [World.steps] at this
        rw [this]
        exact ⟨g, gf.trans hf⟩
      · rw [if_neg he] at g
        refine ih _ _ g (gf.trans hf) (fun k' h' => hk k' (by simp [h'])) ?_
        omega
  obtain ⟨⟨h1, h2, h3, _⟩, hf⟩ := key ks (oneWriter fs ino b) 0
    ⟨rfl, Nat.zero_le _, by simpa [oneWriter] using h0, fun _ _ => rfl, rfl⟩ rfl hk (by simpa using hl)
  refine ⟨h1, by rw [h3, List.take_length], hf, ?_⟩
  intro t ht
  rw [h1] at ht
  simp only [List.mem_cons, List.not_mem_nil, or_false] at ht
  subst ht; simp

/-- **C18, failure.** A failing write or a failing `get_slice` ends the writer and clears the success flag;
the file holds the prefix written so far. -/
theorem C18_error (fs : FS) (ino : Nat) (b : Bytes) (h0 : (fs.data ino).bytes = []) (ks : List Nat) :
    let w := (oneWriter fs ino b).steps (ks.map (fun k => (0, .wrote k)))
    let w' := w.step (0, .err)
    (w.tasks.all (fun t => t.st = .running) → w'.okFlag = false ∧ w'.finished) ∧ w'.fs = w.fs := by
  obtain ⟨n, st, h1, _⟩ := C18_prefix fs ino b h0 ks
  simp only at h1 ⊢
  simp only [World.step, h1, List.getElem?_cons_zero]
  by_cases hst : st = .running
  · subst hst
    simp only [ne_eq, not_true_eq_false, if_false]
    refine ⟨fun _ => ⟨trivial, ?_⟩, trivial⟩
    intro t ht
    simp at ht
    subst ht; simp
  · simp [hst]

/-- a content of 10 bytes written in pieces of 3; a content of 5000 bytes needs two calls even when all is accepted -/
example : ((oneWriter fs0 0 (ascii "0123456789")).steps ([3, 3, 3, 3, 3, 3, 3, 3, 3, 3].map (fun k => (0, .wrote k)))).fs.data 0 =
    ⟨ascii "0123456789", 5000000000⟩ := by decide
example : Task.subSize ⟨0, List.replicate 5000 0, 0, .running⟩ = 4096 ∧
    Task.subSize ⟨0, List.replicate 5000 0, 4096, .running⟩ = 904 := by
  simp only [Task.subSize, List.length_replicate]
  decide

/-- number of steps of `l` in which writer `i` fails or the system accepts at least one byte from it -/
def productive (i : Nat) (l : List (Nat × WriteRes)) : Nat :=
  (l.filter (fun x => x.1 = i ∧ x.2 ≠ .wrote 0)).length

theorem Task.len_slice (t : Task) (h : t.off ≤ t.bytes.length) (k : Nat) :
    (t.slice.take k).length = min k (min (t.bytes.length - t.off) 4096) := by
  simp only [Task.slice, Task.subSize, List.length_take, List.length_drop]; omega

/-- **C18, termination.** Any number of writers, interleaved in any way: a writer that makes as many
productive steps as its content has bytes (at least one) has ended. -/
theorem C18_terminates : ∀ (l : List (Nat × WriteRes)) (w : World) (i : Nat) (t : Task), w.tasks[i]? = some t →
    t.off ≤ t.bytes.length → (t.st = .running → max 1 (t.bytes.length - t.off) ≤ productive i l) →
    ∃ u, (w.steps l).tasks[i]? = some u ∧ u.st ≠ .running := by
  intro l
  induction l with
  | nil =>
    intro w i t ht _ hp
    refine ⟨t, ht, fun h => ?_⟩
    have := hp h
    simp [productive] at this
  | cons x xs ih =>
    intro w i t ht hoff hp
    simp only [World.steps, List.foldl_cons]
    simp only [World.steps] at ih
    by_cases hr : t.st = .running
    · have hp := hp hr
      by_cases hx : x.1 = i
      · cases hx2 : x.2 with
        | err =>
          have e : (w.step x).tasks[i]? = some { t with st := .failed } := by
            simp only [World.step, hx, ht, hr, ne_eq, not_true_eq_false, if_false, hx2]
            rw [List.getElem?_set_self (List.getElem?_eq_some_iff.mp ht).1]
          exact ih _ i _ e hoff (by simp)
        | wrote k =>
          have e : (w.step x).tasks[i]? = some { t with off := t.off + (t.slice.take k).length, st := if t.off + (t.slice.take k).length = t.bytes.length then .done else .running } := by
            simp only [World.step, hx, ht, hr, ne_eq, not_true_eq_false, if_false, hx2]
            rw [List.getElem?_set_self (List.getElem?_eq_some_iff.mp ht).1]
          refine ih _ i _ e (t.slice_le hoff k) ?_
          have hlen := t.len_slice hoff k
          intro hst
          simp only at hst ⊢
          split at hst
          · cases hst
          · rename_i hne
            have hpc : productive i (x :: xs) ≤ productive i xs + (if k = 0 then 0 else 1) := by
              simp only [productive, List.filter_cons]
              split
              · rename_i hc
                have hk : k ≠ 0 := by
                  rintro rfl
                  simp [hx, hx2] at hc
                simp [hk]
              · split <;> omega
            rw [hlen] at hne ⊢
            split at hpc <;> omega
      · have e : (w.step x).tasks[i]? = some t := by
          simp only [World.step]
          split
          · exact ht
          · split
            · exact ht
            · split
              · simp only; rw [List.getElem?_set_ne (by exact hx)]; exact ht
              · simp only; rw [List.getElem?_set_ne (by exact hx)]; exact ht
        refine ih _ i t e hoff (fun _ => ?_)
        have : productive i (x :: xs) = productive i xs := by
          simp [productive, List.filter_cons, hx]
        rw [← this]; exact hp
    · have e : (w.step x).tasks[i]? = some t := by
        by_cases hx : x.1 = i
        · simp only [World.step, hx, ht, ne_eq, hr, not_false_eq_true, if_true]
        · simp only [World.step]
          split
          · exact ht
          · split
            · exact ht
            · split
              · simp only; rw [List.getElem?_set_ne (by exact hx)]; exact ht
              · simp only; rw [List.getElem?_set_ne (by exact hx)]; exact ht
      exact ih _ i t e hoff (fun h => absurd h hr)

/-! ## C19 -/

/-- Two runs of the same extraction that differ only in the schedule of the writers. -/
structure TwoRuns (cfg : XCfg) (depth : Nat) (rg : Range) (before : FS) (sched sched' : Nat → List (Nat × WriteRes))
    (last last' : List (Nat × WriteRes)) (w w' : World) (res res' : XResult) : Prop where
  run : { cfg with env := ⟨cfg.env.fault, sched⟩ }.extractRange depth rg before last = (w, res)
  run' : { cfg with env := ⟨cfg.env.fault, sched'⟩ }.extractRange depth rg before last' = (w', res')
  finished : w.finished
  finished' : w'.finished
  noErr : (∀ n, NoErr (sched n)) ∧ NoErr last
  noErr' : (∀ n, NoErr (sched' n)) ∧ NoErr last'

/-- the core: two runs agree unless some file is opened twice -/
theorem TwoRuns.same {cfg : XCfg} {depth : Nat} {rg : Range} {before : FS} {sched sched' : Nat → List (Nat × WriteRes)}
    {last last' : List (Nat × WriteRes)} {w w' : World} {res res' : XResult}
    (h : TwoRuns cfg depth rg before sched sched' last last' w w' res res') (hi : ∀ p i, before.nodes p = some (.file i) → i < before.next)
    (hnd : (w.tasks.map Task.ino).Nodup) : w.fs = w'.fs ∧ res = res' := by
  have hr := h.run
  have hr' := h.run'
  obtain ⟨c1, e1⟩ : ∃ c : XCfg, c = { cfg with env := ⟨cfg.env.fault, sched⟩ } := ⟨_, rfl⟩
  obtain ⟨c2, e2⟩ : ∃ c : XCfg, c = { cfg with env := ⟨cfg.env.fault, sched'⟩ } := ⟨_, rfl⟩
  rw [← e1] at hr
  rw [← e2] at hr'
  have hc : CfgSim c1 c2 := by subst e1; subst e2; exact ⟨⟨rfl, h.noErr.1, h.noErr'.1⟩, rfl⟩
  have a1 : c1.a = cfg.a := by rw [e1]
  have a2 : c2.a = cfg.a := by rw [e2]
  have hstart : ∀ c c', XSim c c' → SimRes XSim XBad ((extractor c1).onStart c) ((extractor c2).onStart c') := by
    rintro ⟨cur, u⟩ ⟨cur', u'⟩ ⟨g1, g2⟩
    simp only at g1 g2; subst g1
    simp only [extractor, hc.base]
    obtain ⟨k1, k2⟩ := XCfg.mkdirs_sim hc g2 c1.base
    exact Or.inl ⟨⟨rfl, k1⟩, k2⟩
  have key := Archive.walkFrom_sim cfg.a extractBuilder (extractor_sim hc) hstart
    (fun c c' h => Or.inl ⟨h, rfl⟩) (fun c h => h) depth rg ⟨[], World.init before⟩ ⟨[], World.init before⟩ ⟨rfl, WSim.init hi⟩
  simp only [XCfg.extractRange, a1] at hr
  simp only [XCfg.extractRange, a2] at hr'
  revert key hr hr'
  generalize cfg.a.walkFrom extractBuilder (extractor c1) depth rg ⟨[], World.init before⟩ = x
  generalize cfg.a.walkFrom extractBuilder (extractor c2) depth rg ⟨[], World.init before⟩ = y
  obtain ⟨c, r⟩ := x
  obtain ⟨c', r'⟩ := y
  intro key hr hr'
  have hw : w = c.w.steps last := by
    cases r <;> simp only [Prod.mk.injEq] at hr <;> exact hr.1.symm
  have hw' : w' = c'.w.steps last' := by
    cases r' <;> simp only [Prod.mk.injEq] at hr' <;> exact hr'.1.symm
  rcases key with ⟨⟨_, hs⟩, hres⟩ | hbad
  · replace hs := hs.steps h.noErr.2 h.noErr'.2
    rw [← hw, ← hw'] at hs
    refine ⟨hs.eq h.finished h.finished', ?_⟩
    simp only at hres
    subst hres
    cases r with
    | error e => simp only [Prod.mk.injEq] at hr hr'; rw [← hr.2, ← hr'.2]
    | ok u =>
      simp only [Prod.mk.injEq] at hr hr'
      rw [← hr.2, ← hr'.2, ← hw, ← hw', hs.flag.1, hs.flag.2]
  · exfalso
    apply hbad
    rw [hw] at hnd
    rwa [map_ino_of (c.w.steps_fs last).2.2.2.2.1] at hnd

/-- **C19, modes skip, warn, error.** Whatever the archive (well formed or not), the file system, and the
calls that fail: two extractions that differ only in how the writers are scheduled leave the same file
system and report the same result. -/
theorem C19_schedule_keep {cfg : XCfg} (hm : cfg.mode = .skip ∨ cfg.mode = .warn ∨ cfg.mode = .error) {depth : Nat} {rg : Range}
    {before : FS} (hw : before.WF) {sched sched' : Nat → List (Nat × WriteRes)}
    {last last' : List (Nat × WriteRes)} {w w' : World} {res res' : XResult}
    (h : TwoRuns cfg depth rg before sched sched' last last' w w' res res') : w.fs = w'.fs ∧ res = res' := by
  refine h.same hw.inos ?_
  have hk : cfg.mode.keeps = true := by rcases hm with h | h | h <;> rw [h] <;> rfl
  have := XCfg.extractRange_inv (kept_worldInv before) { cfg with env := ⟨cfg.env.fault, sched⟩ } hk depth rg before last (Kept.init before)
  rw [h.run] at this
  exact this.nodup

/-- **C19, all modes (partial).** The same for every mode when a created archive is extracted to a plain target.
Missing: archives that name the same file twice by way of a directory named `"."`, see
`C19_counterexample`. -/
theorem C19_schedule_partial {rs : List AddReq} {m : PathMap} {cfg : XCfg} {rg : Range} {d0 : List Bytes} {before : FS}
    {depth : Nat} {sched sched' : Nat → List (Nat × WriteRes)} {last last' : List (Nat × WriteRes)} {w w' : World}
    {res res' : XResult} (hs : Source rs m cfg.a rg d0) (T : PlainTarget before cfg.base (m.sub d0))
    (hd : cfg.a.entries.length < depth)
    (h : TwoRuns cfg depth rg before sched sched' last last' w w' res res') : w.fs = w'.fs ∧ res = res' := by
  refine h.same T.inos ?_
  obtain ⟨P, G, hrg⟩ := hs.good
  have := (Good.extractRange (cfg := { cfg with env := ⟨cfg.env.fault, sched⟩ }) G T hrg hd last).1
  rw [h.run] at this
  exact this.nodup

/-- a file `x` and a file `x` in a directory `.`: both are written to the same place -/
def twiceReqs : List AddReq :=
  [⟨ascii "x", .ok (some (.file 3 ⟨1, 0⟩)), exMeta⟩, ⟨ascii "./x", .ok (some (.file 2 ⟨1, 1⟩)), exMeta⟩]
def twiceSt : Creator := (Creator.new.run twiceReqs).getD Creator.new
def twiceArchive : Archive := writeArchive twiceSt [1, 0, 2]
theorem twiceWritten : Written twiceReqs twiceArchive := by
  obtain ⟨m, paths, hs, R⟩ := run_rel (st := twiceSt) (rs := twiceReqs) (by rfl)
  exact ⟨twiceSt, [1, 0, 2], rfl, R.layoutLoop_sound 4 _ _ (by rw [R.len]) (by decide), rfl, by decide⟩
def twiceX : XCfg := ⟨twiceArchive, fun c => if c = ⟨1, 0⟩ then .found (ascii "abc") else .found (ascii "XY"), [], true,
  [ascii "t"], .overwrite, quiet⟩

/-- **C19 is false in full**: with such an archive and mode `overwrite`, two writers write the same file, and its
content depends on which one is first. -/
theorem C19_counterexample : Written twiceReqs twiceArchive ∧
    (let r := twiceX.extractRange 5 twiceArchive.root fs0 [(0, .wrote 9), (1, .wrote 9)]
     let r' := twiceX.extractRange 5 twiceArchive.root fs0 [(1, .wrote 9), (0, .wrote 9)]
     r.2 = .ok ∧ r'.2 = .ok ∧ r.1.finished ∧ r'.1.finished ∧
     (r.1.fs.data 0).bytes = ascii "abc" ∧ (r'.1.fs.data 0).bytes = ascii "XYc") := ⟨twiceWritten, by decide⟩

/-- the hypotheses are met by two different schedules of the example -/
example : TwoRuns (exX [] .overwrite) 5 exArchive.root fsOld (fun _ => []) (fun _ => [(0, .wrote 1)]) finish finish
    ((exX [] .overwrite).extractRange 5 exArchive.root fsOld finish).1
    ({ exX [] .overwrite with env := ⟨fun _ => false, fun _ => [(0, .wrote 1)]⟩ }.extractRange 5 exArchive.root fsOld finish).1
    ((exX [] .overwrite).extractRange 5 exArchive.root fsOld finish).2
    ({ exX [] .overwrite with env := ⟨fun _ => false, fun _ => [(0, .wrote 1)]⟩ }.extractRange 5 exArchive.root fsOld finish).2 := by
  have hf : NoErr finish := by
    intro x hx; simp only [finish, List.mem_cons, List.not_mem_nil, or_false] at hx; rcases hx with rfl | rfl | rfl <;> simp
  exact ⟨rfl, rfl, by decide, by decide, ⟨fun _ x hx => by simp at hx, hf⟩, ⟨fun _ x hx => by simp at hx; subst hx; simp, hf⟩⟩

end Arx
