import Verif.Proof.ExtractGen
/-!
# The writer tasks, and independence of the schedule
-/
namespace Arx

/-! ## One task -/

theorem writeAt_take (b : Bytes) (off : Nat) (h : off ≤ b.length) (s : Bytes)
    (hs : s = (b.drop off).take s.length) : writeAt (b.take off) off s = b.take (off + s.length) := by
  have h1 : (b.take off).length = off := by simp; omega
  simp only [writeAt, h1, Nat.sub_self, List.replicate_zero, List.append_nil]
  rw [List.take_take, Nat.min_self, List.drop_eq_nil_of_le (by simp; omega), List.append_nil, List.take_add, ← hs]

theorem Task.slice_eq (t : Task) (k : Nat) :
    t.slice.take k = (t.bytes.drop t.off).take (t.slice.take k).length := by
  simp only [Task.slice, List.take_take]
  rw [List.take_eq_take_iff]
  simp only [List.length_take, List.length_drop]; omega

/-- A task never asks for bytes outside its content. -/
theorem Task.slice_le (t : Task) (h : t.off ≤ t.bytes.length) (k : Nat) :
    t.off + (t.slice.take k).length ≤ t.bytes.length := by
  simp only [Task.slice, List.take_take, List.length_take, List.length_drop]; omega

/-- State of one writer: what is in its file is the part of the content before its offset. -/
structure TaskOK (fs : FS) (t : Task) : Prop where
  bytes : (fs.data t.ino).bytes = t.bytes.take t.off
  off : t.off ≤ t.bytes.length
  done : t.st = .done → t.off = t.bytes.length
  mtime : (fs.data t.ino).mtime = fs.now
  lt : t.ino < fs.next

/-- The writers own distinct files and progress as they should; allocated inodes are below `next`. -/
structure Prog (w : World) : Prop where
  ok : ∀ t ∈ w.tasks, TaskOK w.fs t
  nodup : (w.tasks.map Task.ino).Nodup
  inos : ∀ p i, w.fs.nodes p = some (.file i) → i < w.fs.next

theorem nodup_ino_inj {l : List Task} (h : (l.map Task.ino).Nodup) {i j : Nat} {t u : Task} (hi : l[i]? = some t)
    (hj : l[j]? = some u) (he : t.ino = u.ino) : i = j := by
  have h1 : (l.map Task.ino)[i]? = some t.ino := by simp [hi]
  have h2 : (l.map Task.ino)[j]? = some t.ino := by simp [hj, he]
  have hlt := (List.getElem?_eq_some_iff.mp h1).1
  exact (List.nodup_iff_injective_getElem?' h hlt (h1.trans h2.symm))
where
  List.nodup_iff_injective_getElem?' {l : List Nat} (h : l.Nodup) {i j : Nat} (hi : i < l.length)
      (he : l[i]? = l[j]?) : i = j := by
    have hj : j < l.length := by
      rw [List.getElem?_eq_getElem hi] at he
      exact (List.getElem?_eq_some_iff.mp he.symm).1
    rw [List.getElem?_eq_getElem hi, List.getElem?_eq_getElem hj, Option.some.injEq] at he
    rcases Nat.lt_trichotomy i j with hlt | heq | hgt
    · exact absurd he (List.pairwise_iff_getElem.mp h i j hi hj hlt)
    · exact heq
    · exact absurd he.symm (List.pairwise_iff_getElem.mp h j i hj hi hgt)

theorem Prog.step {w : World} (h : Prog w) (x : Nat × WriteRes) :
    Prog (w.step x) ∧ (∀ i, ((w.step x).fs.data i).mtime = (w.fs.data i).mtime) ∧
    (x.2 ≠ .err → (w.step x).okFlag = w.okFlag ∧ ((∀ t ∈ w.tasks, t.st ≠ .failed) → ∀ t ∈ (w.step x).tasks, t.st ≠ .failed)) ∧
    ((w.okFlag = true → ∀ t ∈ w.tasks, t.st ≠ .failed) → (w.step x).okFlag = true → ∀ t ∈ (w.step x).tasks, t.st ≠ .failed) := by
  obtain ⟨a1, a2, a3, a4, a5, a6⟩ := w.step_fs x
  have hnd : ((w.step x).tasks.map Task.ino).Nodup := by rw [map_ino_of a5]; exact h.nodup
  have hin : ∀ p i, (w.step x).fs.nodes p = some (.file i) → i < (w.step x).fs.next := by rw [a1, a2]; exact h.inos
  revert hnd hin
  clear a1 a2 a3 a4 a5 a6
  simp only [World.step]
  cases ht : w.tasks[x.1]? with
  | none => intro hnd hin; exact ⟨h, fun _ => rfl, fun _ => ⟨rfl, id⟩, fun hf hk => hf hk⟩
  | some t =>
    simp only
    have htm := List.mem_of_getElem? ht
    have T := h.ok t htm
    split
    · intro hnd hin; exact ⟨h, fun _ => rfl, fun _ => ⟨rfl, id⟩, fun hf hk => hf hk⟩
    · rename_i hrun
      simp only [ne_eq, Decidable.not_not] at hrun
      have hmem : ∀ (t' u : Task), u ∈ w.tasks.set x.1 t' → u = t' ∨ (u ∈ w.tasks ∧ u.ino ≠ t.ino) := by
        intro t' u hu
        obtain ⟨j, hj⟩ := List.mem_iff_getElem?.mp hu
        rw [List.getElem?_set] at hj
        split at hj
        · split at hj
          · left; simpa using hj.symm
          · cases hj
        · rename_i hne
          right
          refine ⟨List.mem_of_getElem? hj, fun e => ?_⟩
          exact hne (nodup_ino_inj h.nodup hj ht e).symm
      cases hx : x.2 with
      | err =>
        intro hnd hin
        refine ⟨⟨?_, hnd, hin⟩, fun _ => rfl, fun he => absurd rfl he, fun _ hk => by simp at hk⟩
        intro u hu
        rcases hmem _ _ hu with rfl | ⟨hu, _⟩
        · exact ⟨T.bytes, T.off, fun h => by simp at h, T.mtime, T.lt⟩
        · exact h.ok u hu
      | wrote k =>
        intro hnd hin
        refine ⟨⟨?_, hnd, hin⟩, ?_, ?_, ?_⟩
        · intro u hu
          rcases hmem _ _ hu with rfl | ⟨hu, hne⟩
          · refine ⟨?_, ?_, ?_, ?_, T.lt⟩
            · simp only [FS.setData, if_true]
              rw [T.bytes, writeAt_take _ _ T.off _ (t.slice_eq k)]
            · exact t.slice_le T.off k
            · intro hd
              simp only at hd ⊢
              split at hd
              · assumption
              · cases hd
            · simp [FS.setData]
          · have U := h.ok u hu
            refine ⟨?_, U.off, U.done, ?_, U.lt⟩
            · simp only [FS.setData, if_neg hne]; exact U.bytes
            · simp only [FS.setData, if_neg hne]; exact U.mtime
        · intro i
          simp only [FS.setData]
          split
          · rename_i hi; subst hi; exact T.mtime.symm
          · rfl
        · intro _
          refine ⟨rfl, fun hf u hu => ?_⟩
          rcases hmem _ _ hu with rfl | ⟨hu, hne⟩
          · simp only; split <;> simp
          · exact hf u hu
        · intro hf hk u hu
          rcases hmem _ _ hu with rfl | ⟨hu, hne⟩
          · simp only; split <;> simp
          · exact hf hk u hu

theorem Prog.steps (l : List (Nat × WriteRes)) : ∀ {w : World}, Prog w →
    Prog (w.steps l) ∧ (∀ i, ((w.steps l).fs.data i).mtime = (w.fs.data i).mtime) ∧
    (NoErr l → (w.steps l).okFlag = w.okFlag ∧ ((∀ t ∈ w.tasks, t.st ≠ .failed) → ∀ t ∈ (w.steps l).tasks, t.st ≠ .failed)) ∧
    ((w.okFlag = true → ∀ t ∈ w.tasks, t.st ≠ .failed) → (w.steps l).okFlag = true → ∀ t ∈ (w.steps l).tasks, t.st ≠ .failed) := by
  induction l with
  | nil => intro w h; exact ⟨h, fun _ => rfl, fun _ => ⟨rfl, id⟩, fun hf => hf⟩
  | cons x xs ih =>
    intro w h
    obtain ⟨h1, h2, h3, h4⟩ := h.step x
    obtain ⟨g1, g2, g3, g4⟩ := ih h1
    refine ⟨g1, fun i => (g2 i).trans (h2 i), fun hn => ?_, fun hf => g4 (h4 hf)⟩
    have a := h3 (hn x (by simp))
    have b := g3 (fun y hy => hn y (by simp [hy]))
    exact ⟨b.1.trans a.1, fun hf => b.2 (a.2 hf)⟩

/-! ## Two runs with different schedules -/

/-- The same file system up to file contents. -/
structure FSim (fs fs' : FS) : Prop where
  nodes : fs.nodes = fs'.nodes
  next : fs.next = fs'.next
  now : fs.now = fs'.now
  mtime : ∀ i, (fs.data i).mtime = (fs'.data i).mtime

structure WSim (w w' : World) : Prop extends FSim w.fs w'.fs where
  tick : w.tick = w'.tick
  tasks : w.tasks.map (fun t => (t.ino, t.bytes)) = w'.tasks.map (fun t => (t.ino, t.bytes))
  prog : Prog w
  prog' : Prog w'
  data : ∀ i, i ∉ w.tasks.map Task.ino → w.fs.data i = w'.fs.data i
  flag : w.okFlag = true ∧ w'.okFlag = true
  fine : (∀ t ∈ w.tasks, t.st ≠ .failed) ∧ (∀ t ∈ w'.tasks, t.st ≠ .failed)

theorem WSim.steps {w w' : World} (h : WSim w w') {l l' : List (Nat × WriteRes)} (hl : NoErr l) (hl' : NoErr l') :
    WSim (w.steps l) (w'.steps l') := by
  obtain ⟨a1, a2, a3, a4, a5, a6⟩ := w.steps_fs l
  obtain ⟨b1, b2, b3, b4, b5, b6⟩ := w'.steps_fs l'
  obtain ⟨p1, p2, p3, _⟩ := h.prog.steps l
  obtain ⟨q1, q2, q3, _⟩ := h.prog'.steps l'
  have hi := map_ino_of a5
  have hi' := map_ino_of h.tasks
  refine ⟨⟨a1.trans (h.nodes.trans b1.symm), a2.trans (h.next.trans b2.symm), a3.trans (h.now.trans b3.symm),
    fun i => (p2 i).trans ((h.mtime i).trans (q2 i).symm)⟩, a4.trans (h.tick.trans b4.symm),
    a5.trans (h.tasks.trans b5.symm), p1, q1, ?_, ?_, ?_⟩
  · intro i hni
    rw [hi] at hni
    rw [a6 i hni, b6 i (by rw [← hi']; exact hni)]
    exact h.data i hni
  · exact ⟨(p3 hl).1.trans h.flag.1, (q3 hl').1.trans h.flag.2⟩
  · exact ⟨(p3 hl).2 h.fine.1, (q3 hl').2 h.fine.2⟩

/-- two schedules without write errors, same faults -/
structure EnvSim (e e' : Env) : Prop where
  fault : e.fault = e'.fault
  noErr : ∀ n, NoErr (e.sched n)
  noErr' : ∀ n, NoErr (e'.sched n)

theorem WSim.pre {e e' : Env} (he : EnvSim e e') {w w' : World} (h : WSim w w') : WSim (w.pre e) (w'.pre e') := by
  have h1 := h.steps (he.noErr w.tick) (he.noErr' w'.tick)
  exact ⟨⟨h1.nodes, h1.next, h1.now, h1.mtime⟩, by simp [World.pre, h.tick], h1.tasks,
    ⟨h1.prog.ok, h1.prog.nodup, h1.prog.inos⟩, ⟨h1.prog'.ok, h1.prog'.nodup, h1.prog'.inos⟩, h1.data, h1.flag, h1.fine⟩

/-- A call that does not look at file contents. -/
def OpSim {α : Type} (op : FS → Except HErr (α × FS)) : Prop :=
  ∀ fs fs', FSim fs fs' → (∃ e, op fs = .error e ∧ op fs' = .error e) ∨
    (∃ x g g', op fs = .ok (x, g) ∧ op fs' = .ok (x, g') ∧ g.nodes = g'.nodes ∧ g.next = fs.next ∧ g'.next = fs'.next ∧
      g.now = fs.now ∧ g'.now = fs'.now ∧ g.data = fs.data ∧ g'.data = fs'.data ∧
      (∀ p i, g.nodes p = some (.file i) → ∃ p', fs.nodes p' = some (.file i)))

theorem OpSim.mkdir (p : List Bytes) : OpSim (fun fs => fs.mkdir p) := by
  intro fs fs' h
  simp only [FS.mkdir, FS.resolve_congr h.nodes]
  cases hr : fs'.resolve false p with
  | error e => left; exact ⟨e, rfl, rfl⟩
  | ok l =>
    cases l with
    | found q => left; exact ⟨_, rfl, rfl⟩
    | missing d n =>
      right
      refine ⟨_, _, _, rfl, rfl, ?_, rfl, rfl, rfl, rfl, rfl, rfl, ?_⟩
      · simp [FS.set, h.nodes, h.now]
      · intro q i hq
        simp only [FS.set_nodes] at hq
        split at hq
        · cases hq
        · exact ⟨q, hq⟩

theorem OpSim.symlink (t : Bytes) (p : List Bytes) : OpSim (fun fs => fs.symlink t p) := by
  intro fs fs' h
  simp only [FS.symlink, FS.resolve_congr h.nodes]
  split
  · left; exact ⟨_, rfl, rfl⟩
  · split
    · left; exact ⟨_, rfl, rfl⟩
    · cases hr : fs'.resolve false p with
      | error e => left; exact ⟨e, rfl, rfl⟩
      | ok l =>
        cases l with
        | found q => left; exact ⟨_, rfl, rfl⟩
        | missing d n =>
          right
          refine ⟨_, _, _, rfl, rfl, ?_, rfl, rfl, rfl, rfl, rfl, rfl, ?_⟩
          · simp [FS.set, h.nodes, h.now]
          · intro q i hq
            simp only [FS.set_nodes] at hq
            split at hq
            · cases hq
            · exact ⟨q, hq⟩

theorem OpSim.removeFile (p : List Bytes) : OpSim (fun fs => fs.removeFile p) := by
  intro fs fs' h
  simp only [FS.removeFile, FS.resolve_congr h.nodes]
  cases hr : fs'.resolve false p with
  | error e => left; exact ⟨e, rfl, rfl⟩
  | ok l =>
    cases l with
    | missing d n => left; exact ⟨_, rfl, rfl⟩
    | found q =>
      simp only [h.nodes]
      have key : (∃ x g g', (Except.ok ((), fs.set q none) : Except HErr (Unit × FS)) = .ok (x, g) ∧
          (Except.ok ((), fs'.set q none) : Except HErr (Unit × FS)) = .ok (x, g') ∧ g.nodes = g'.nodes ∧
          g.next = fs.next ∧ g'.next = fs'.next ∧ g.now = fs.now ∧ g'.now = fs'.now ∧ g.data = fs.data ∧ g'.data = fs'.data ∧
          (∀ p i, g.nodes p = some (.file i) → ∃ p', fs.nodes p' = some (.file i))) := by
        refine ⟨_, _, _, rfl, rfl, ?_, rfl, rfl, rfl, rfl, rfl, rfl, ?_⟩
        · simp [FS.set, h.nodes]
        · intro q' i hq
          simp only [FS.set_nodes] at hq
          split at hq
          · cases hq
          · exact ⟨q', hq⟩
      simp only [h.nodes] at key
      cases hn : fs'.nodes q with
      | none => right; exact key
      | some n =>
        cases n with
        | dir t => left; exact ⟨_, rfl, rfl⟩
        | file i => right; exact key
        | link t m => right; exact key

theorem OpSim.isDir (p : List Bytes) : OpSim (fun fs => .ok (fs.isDir p, fs)) := by
  intro fs fs' h
  right
  have : fs.isDir p = fs'.isDir p := by
    simp only [FS.isDir, FS.resolve_congr h.nodes, h.nodes]
  exact ⟨_, _, _, rfl, by rw [this], h.nodes, rfl, rfl, rfl, rfl, rfl, rfl, fun p i hp => ⟨p, hp⟩⟩

theorem OpSim.mtime (follow : Bool) (p : List Bytes) : OpSim (fun fs => fs.mtime follow p) := by
  intro fs fs' h
  simp only [FS.mtime, FS.resolve_congr h.nodes]
  cases hr : fs'.resolve follow p with
  | error e => left; exact ⟨e, rfl, rfl⟩
  | ok l =>
    cases l with
    | missing d n => left; exact ⟨_, rfl, rfl⟩
    | found q =>
      simp only [FS.mtimeAt, h.nodes]
      cases hn : fs'.nodes q with
      | none => left; exact ⟨_, rfl, rfl⟩
      | some n =>
        right
        cases n with
        | dir t => exact ⟨_, _, _, rfl, rfl, h.nodes, rfl, rfl, rfl, rfl, rfl, rfl, fun p i hp => ⟨p, h.nodes ▸ hp⟩⟩
        | file i => exact ⟨_, _, _, rfl, by rw [h.mtime], h.nodes, rfl, rfl, rfl, rfl, rfl, rfl, fun p i hp => ⟨p, h.nodes ▸ hp⟩⟩
        | link t m => exact ⟨_, _, _, rfl, rfl, h.nodes, rfl, rfl, rfl, rfl, rfl, rfl, fun p i hp => ⟨p, h.nodes ▸ hp⟩⟩

/-- results of two calls: related worlds, equal answers -/
def PSim {α : Type} (x y : World × α) : Prop := WSim x.1 y.1 ∧ x.2 = y.2

theorem WSim.sys {e e' : Env} (he : EnvSim e e') {w w' : World} (h : WSim w w') {α : Type}
    {op : FS → Except HErr (α × FS)} (ho : OpSim op) : PSim (w.sys e op) (w'.sys e' op) := by
  have hp := h.pre he
  simp only [World.sys, ← he.fault, h.tick]
  cases hf : e.fault w'.tick with
  | true => exact ⟨by simpa using hp, rfl⟩
  | false =>
    simp only [Bool.false_eq_true, if_false]
    rcases ho _ _ hp.toFSim with ⟨x, h1, h2⟩ | ⟨x, g, g', h1, h2, hn, hx, hx', ht, ht', hd, hd', hfi⟩
    · rw [h1, h2]; exact ⟨hp, rfl⟩
    · rw [h1, h2]
      refine ⟨⟨⟨hn, by simp only [hx, hx', hp.next], by simp only [ht, ht', hp.now], by simp only [hd, hd']; exact hp.mtime⟩,
        hp.tick, hp.tasks, ⟨?_, hp.prog.nodup, ?_⟩, ⟨?_, hp.prog'.nodup, ?_⟩, ?_, hp.flag, hp.fine⟩, rfl⟩
      · intro t htm
        have T := hp.prog.ok t htm
        exact ⟨by simp only [hd]; exact T.bytes, T.off, T.done, by simp only [hd, ht]; exact T.mtime, by simp only [hx]; exact T.lt⟩
      · intro p i hpi
        obtain ⟨p', hp'⟩ := hfi p i hpi
        simp only [hx]; exact hp.prog.inos p' i hp'
      · intro t htm
        have T := hp.prog'.ok t htm
        exact ⟨by simp only [hd']; exact T.bytes, T.off, T.done, by simp only [hd', ht']; exact T.mtime, by simp only [hx']; exact T.lt⟩
      · intro p i hpi
        rw [← hn] at hpi
        obtain ⟨p', hp'⟩ := hfi p i hpi
        simp only [hx']; rw [← hp.next]; exact hp.prog.inos p' i hp'
      · intro i hi; simp only [hd, hd']; exact hp.data i hi

theorem WSim.isDir {e e' : Env} (he : EnvSim e e') {w w' : World} (h : WSim w w') (p : List Bytes) :
    PSim (w.isDir e p) (w'.isDir e' p) := by
  have := h.sys he (OpSim.isDir p)
  simp only [World.isDir]
  revert this
  cases w.sys e (fun fs => .ok (fs.isDir p, fs)) with
  | mk w1 r1 =>
    cases w'.sys e' (fun fs => .ok (fs.isDir p, fs)) with
    | mk w2 r2 =>
      rintro ⟨h1, h2⟩
      simp only at h2; subst h2
      cases r1 <;> exact ⟨h1, rfl⟩

theorem WSim.createDirAll {e e' : Env} (he : EnvSim e e') : ∀ (f : Nat) {w w' : World} (p : List Bytes), WSim w w' →
    PSim (World.createDirAll e f w p) (World.createDirAll e' f w' p) := by
  intro f
  induction f with
  | zero => intro w w' p h; exact ⟨h, rfl⟩
  | succ f ih =>
    intro w w' p h
    have htail : ∀ {w w' : World} (x : HErr), WSim w w' →
        PSim (match w.isDir e p with | (w, true) => (w, (Except.ok () : Except HErr Unit)) | (w, false) => (w, .error x))
          (match w'.isDir e' p with | (w, true) => (w, (Except.ok () : Except HErr Unit)) | (w, false) => (w, .error x)) := by
      intro w w' x h
      have := h.isDir he p
      revert this
      cases w.isDir e p with
      | mk w1 b1 =>
        cases w'.isDir e' p with
        | mk w2 b2 =>
          rintro ⟨h1, h2⟩
          simp only at h2; subst h2
          cases b1 <;> exact ⟨h1, rfl⟩
    have h1 := h.sys he (OpSim.mkdir p)
    simp only [World.createDirAll]
    revert h1
    cases w.sys e (fun fs => fs.mkdir p) with
    | mk w1 r1 =>
      cases w'.sys e' (fun fs => fs.mkdir p) with
      | mk w1' r1' =>
        rintro ⟨h1, h2⟩
        simp only at h1 h2; subst h2
        cases r1 with
        | ok u => exact ⟨h1, rfl⟩
        | error x =>
          cases x with
          | notFound =>
            simp only
            split
            · exact ⟨h1, rfl⟩
            · have h2 := ih (parentOf p) h1
              revert h2
              cases World.createDirAll e f w1 (parentOf p) with
              | mk w2 r2 =>
                cases World.createDirAll e' f w1' (parentOf p) with
                | mk w2' r2' =>
                  rintro ⟨h2, h3⟩
                  simp only at h2 h3; subst h3
                  cases r2 with
                  | error x => exact ⟨h2, rfl⟩
                  | ok u =>
                    have h3 := h2.sys he (OpSim.mkdir p)
                    simp only
                    revert h3
                    cases w2.sys e (fun fs => fs.mkdir p) with
                    | mk w3 r3 =>
                      cases w2'.sys e' (fun fs => fs.mkdir p) with
                      | mk w3' r3' =>
                        rintro ⟨h3, h4⟩
                        simp only at h3 h4; subst h4
                        cases r3 with
                        | ok u => exact ⟨h3, rfl⟩
                        | error x => exact htail x h3
          | _ => exact htail _ h1

/-- the extractions differ in their schedule only -/
structure CfgSim (cfg cfg' : XCfg) : Prop where
  env : EnvSim cfg.env cfg'.env
  rest : { cfg with env := cfg'.env } = cfg'

theorem XCfg.mkdirs_sim {cfg cfg' : XCfg} (hc : CfgSim cfg cfg') {w w' : World} (h : WSim w w') (p : List Bytes) :
    PSim (cfg.mkdirs w p) (cfg'.mkdirs w' p) := by
  have := h.createDirAll hc.env (p.length + 1) p
  simp only [XCfg.mkdirs]
  revert this
  cases World.createDirAll cfg.env (p.length + 1) w p with
  | mk w1 r1 =>
    cases World.createDirAll cfg'.env (p.length + 1) w' p with
    | mk w2 r2 =>
      rintro ⟨h1, h2⟩
      simp only at h2; subst h2
      cases r1 <;> exact ⟨h1, rfl⟩

/-- two files were opened for the same inode -/
def BadW (w : World) : Prop := ¬ (w.tasks.map Task.ino).Nodup

def PSimB {α : Type} (x y : World × α) : Prop := PSim x y ∨ BadW x.1

/-- the tasks only grow -/
def Grows (w w' : World) : Prop := ∃ l, w'.tasks.map Task.ino = w.tasks.map Task.ino ++ l

theorem Grows.refl (w : World) : Grows w w := ⟨[], by simp⟩

theorem Grows.trans {a b c : World} (h : Grows a b) (h' : Grows b c) : Grows a c := by
  obtain ⟨l, hl⟩ := h; obtain ⟨k, hk⟩ := h'
  exact ⟨l ++ k, by rw [hk, hl, List.append_assoc]⟩

theorem Grows.bad {a b : World} (h : Grows a b) (hb : BadW a) : BadW b := by
  obtain ⟨l, hl⟩ := h
  intro hn
  rw [hl] at hn
  exact hb (List.nodup_append.mp hn).1

theorem Grows.pre (env : Env) (w : World) : Grows w (w.pre env) := by
  obtain ⟨_, _, _, _, a5, _⟩ := w.steps_fs (env.sched w.tick)
  exact ⟨[], by simp only [World.pre, map_ino_of a5, List.append_nil]⟩

theorem Grows.sys {α : Type} (env : Env) (w : World) (op : FS → Except HErr (α × FS)) : Grows w (w.sys env op).1 := by
  rcases w.sys_cases env op with ⟨e, h, _⟩ | ⟨x, fs, _, _, h⟩
  · rw [h]; exact .pre env w
  · rw [h]; exact .pre env w

theorem Grows.spawn (w : World) (i : Nat) (b : Bytes) : Grows w (w.spawn i b) := ⟨[i], by simp [World.spawn]⟩

theorem Grows.isDir (env : Env) (w : World) (p : List Bytes) : Grows w (w.isDir env p).1 := by
  have := Grows.sys env w (fun fs => .ok (fs.isDir p, fs))
  simp only [World.isDir]
  revert this
  cases w.sys env (fun fs => .ok (fs.isDir p, fs)) with
  | mk w' r => intro h; cases r <;> exact h

theorem Grows.createDirAll (env : Env) : ∀ (f : Nat) (w : World) (p : List Bytes), Grows w (World.createDirAll env f w p).1 := by
  intro f
  induction f with
  | zero => intro w p; exact .refl w
  | succ f ih =>
    intro w p
    have htail : ∀ (w : World) (x : HErr),
        Grows w (match w.isDir env p with | (w, true) => (w, (Except.ok () : Except HErr Unit)) | (w, false) => (w, .error x)).1 := by
      intro w x
      have := Grows.isDir env w p
      revert this
      cases w.isDir env p with
      | mk w1 b1 => intro h; cases b1 <;> exact h
    have h1 := Grows.sys env w (fun fs => fs.mkdir p)
    simp only [World.createDirAll]
    revert h1
    cases w.sys env (fun fs => fs.mkdir p) with
    | mk w1 r1 =>
      intro h1
      cases r1 with
      | ok u => exact h1
      | error x =>
        cases x with
        | notFound =>
          simp only
          split
          · exact h1
          · have h2 := ih w1 (parentOf p)
            revert h2
            cases World.createDirAll env f w1 (parentOf p) with
            | mk w2 r2 =>
              intro h2
              cases r2 with
              | error x => exact h1.trans h2
              | ok u =>
                have h3 := Grows.sys env w2 (fun fs => fs.mkdir p)
                simp only
                revert h3
                cases w2.sys env (fun fs => fs.mkdir p) with
                | mk w3 r3 =>
                  intro h3
                  cases r3 with
                  | ok u => exact (h1.trans h2).trans h3
                  | error x => exact ((h1.trans h2).trans h3).trans (htail w3 x)
        | _ => exact h1.trans (htail w1 _)

theorem Grows.mkdirs (cfg : XCfg) (w : World) (p : List Bytes) : Grows w (cfg.mkdirs w p).1 := by
  have := Grows.createDirAll cfg.env (p.length + 1) w p
  simp only [XCfg.mkdirs]
  revert this
  cases World.createDirAll cfg.env (p.length + 1) w p with
  | mk w' r => intro h; cases r <;> exact h

/-- `open(O_TRUNC)` then spawn -/
def XCfg.reopen (cfg : XCfg) (abs : List Bytes) (b : Bytes) (w : World) : World × Except EErr Unit :=
  match w.sys cfg.env (fun fs => fs.openTrunc abs) with
  | (w, .error e) => (w, .error (.host e))
  | (w, .ok ino) => (w.spawn ino b, .ok ())

/-- remove then symlink -/
def XCfg.relink (cfg : XCfg) (abs : List Bytes) (target : Bytes) (w : World) : World × Except EErr Unit :=
  match w.sys cfg.env (fun fs => fs.removeFile abs) with
  | (w, .error e) => (w, .error (.host e))
  | (w, .ok ()) =>
    match w.sys cfg.env (fun fs => fs.symlink target abs) with
    | (w, .error e) => (w, .error (.host e))
    | (w, .ok ()) => (w, .ok ())

theorem Grows.reopen (cfg : XCfg) (abs : List Bytes) (b : Bytes) (w : World) : Grows w (cfg.reopen abs b w).1 := by
  have := Grows.sys cfg.env w (fun fs => fs.openTrunc abs)
  simp only [XCfg.reopen]
  revert this
  cases w.sys cfg.env (fun fs => fs.openTrunc abs) with
  | mk w' r =>
    intro h
    cases r with
    | error e => exact h
    | ok i => exact h.trans (.spawn _ _ _)

theorem Grows.relink (cfg : XCfg) (abs : List Bytes) (b : Bytes) (w : World) : Grows w (cfg.relink abs b w).1 := by
  have := Grows.sys cfg.env w (fun fs => fs.removeFile abs)
  simp only [XCfg.relink]
  revert this
  cases w.sys cfg.env (fun fs => fs.removeFile abs) with
  | mk w' r =>
    intro h
    cases r with
    | error e => exact h
    | ok i =>
      have h2 := Grows.sys cfg.env w' (fun fs => fs.symlink b abs)
      simp only
      revert h2
      cases w'.sys cfg.env (fun fs => fs.symlink b abs) with
      | mk w2 r2 => intro h2; cases r2 <;> exact h.trans h2

theorem Grows.writeFile (cfg : XCfg) (w : World) (abs : List Bytes) (mtime : Nat) (b : Bytes) :
    Grows w (cfg.writeFile w abs mtime b).1 := by
  have h1 := Grows.sys cfg.env w (fun fs => fs.createNew abs)
  simp only [XCfg.writeFile]
  revert h1
  cases w.sys cfg.env (fun fs => fs.createNew abs) with
  | mk w1 r1 =>
    intro h1
    cases r1 with
    | ok i => exact h1.trans (.spawn _ _ _)
    | error e =>
      cases e with
      | «exists» =>
        cases cfg.mode with
        | skip => exact h1
        | warn => exact h1
        | error => exact h1
        | overwrite => exact h1.trans (Grows.reopen cfg abs b w1)
        | newer =>
          have h2 := Grows.sys cfg.env w1 (fun fs => fs.mtime true abs)
          simp only
          revert h2
          cases w1.sys cfg.env (fun fs => fs.mtime true abs) with
          | mk w2 r2 =>
            intro h2
            cases r2 with
            | error e => exact h1.trans h2
            | ok t =>
              simp only
              cases newTime mtime with
              | none => exact h1.trans h2
              | some nt =>
                simp only
                split
                · exact (h1.trans h2).trans (Grows.reopen cfg abs b w2)
                · exact h1.trans h2
      | _ => exact h1

theorem Grows.writeLink (cfg : XCfg) (w : World) (abs : List Bytes) (mtime : Nat) (b : Bytes) :
    Grows w (cfg.writeLink w abs mtime b).1 := by
  have h1 := Grows.sys cfg.env w (fun fs => fs.symlink b abs)
  simp only [XCfg.writeLink]
  revert h1
  cases w.sys cfg.env (fun fs => fs.symlink b abs) with
  | mk w1 r1 =>
    intro h1
    cases r1 with
    | ok i => exact h1
    | error e =>
      cases e with
      | «exists» =>
        cases cfg.mode with
        | skip => exact h1
        | warn => exact h1
        | error => exact h1
        | overwrite => exact h1.trans (Grows.relink cfg abs b w1)
        | newer =>
          have h2 := Grows.sys cfg.env w1 (fun fs => fs.mtime false abs)
          simp only
          revert h2
          cases w1.sys cfg.env (fun fs => fs.mtime false abs) with
          | mk w2 r2 =>
            intro h2
            cases r2 with
            | error e => exact h1.trans h2
            | ok t =>
              simp only
              cases newTime mtime with
              | none => exact h1.trans h2
              | some nt =>
                simp only
                split
                · exact (h1.trans h2).trans (Grows.relink cfg abs b w2)
                · exact h1.trans h2
      | _ => exact h1

/-- the file just opened is given to a new task -/
theorem WSim.opened {w w' : World} (h : WSim w w') {i : Nat} (b : Bytes) (hi : i ∉ w.tasks.map Task.ino)
    (N : List Bytes → Option FNode) (X : Nat) (hilt : i < X) (hle : w.fs.next ≤ X)
    (hin : ∀ p j, N p = some (.file j) → j < X) :
    WSim (World.spawn { w with fs := ⟨N, fun j => if j = i then ⟨[], w.fs.now⟩ else w.fs.data j, X, w.fs.now⟩ } i b)
      (World.spawn { w' with fs := ⟨N, fun j => if j = i then ⟨[], w'.fs.now⟩ else w'.fs.data j, X, w'.fs.now⟩ } i b) := by
  have hi' : i ∉ w'.tasks.map Task.ino := by rw [← map_ino_of h.tasks]; exact hi
  have key : ∀ v : World, Prog v → i ∉ v.tasks.map Task.ino → v.fs.next ≤ X →
      Prog (World.spawn { v with fs := ⟨N, fun j => if j = i then ⟨[], v.fs.now⟩ else v.fs.data j, X, v.fs.now⟩ } i b) := by
    intro v hv hvi hvx
    refine ⟨?_, ?_, hin⟩
    · intro t ht
      simp only [World.spawn, List.mem_append, List.mem_singleton] at ht
      rcases ht with ht | ht
      · have T := hv.ok t ht
        have hne : t.ino ≠ i := fun e => hvi (List.mem_map.mpr ⟨t, ht, e⟩)
        refine ⟨?_, T.off, T.done, ?_, Nat.lt_of_lt_of_le T.lt hvx⟩
        · simp only [World.spawn, if_neg hne]; exact T.bytes
        · simp only [World.spawn, if_neg hne]; exact T.mtime
      · subst ht
        exact ⟨by simp [World.spawn], Nat.zero_le _, (fun h => by cases h), by simp [World.spawn], hilt⟩
    · simp only [World.spawn, List.map_append, List.map_cons, List.map_nil]
      rw [List.nodup_append]
      refine ⟨hv.nodup, by simp, ?_⟩
      intro x hx y hy
      simp at hy; subst hy
      intro e; subst e; exact hvi hx
  refine ⟨⟨rfl, rfl, h.now, ?_⟩, h.tick, ?_, key w h.prog hi hle, key w' h.prog' hi' (by rw [← h.next]; exact hle), ?_, h.flag, ?_⟩
  · intro j
    simp only [World.spawn]
    split
    · exact h.now
    · exact h.mtime j
  · simp only [World.spawn, List.map_append, h.tasks]
  · intro j hj
    simp only [World.spawn, List.map_append, List.mem_append, List.map_cons, List.map_nil, List.mem_singleton, not_or] at hj
    simp only [World.spawn, if_neg hj.2]
    exact h.data j hj.1
  · constructor <;> intro t ht <;> simp only [World.spawn, List.mem_append, List.mem_singleton] at ht
    · rcases ht with ht | rfl
      · exact h.fine.1 t ht
      · simp
    · rcases ht with ht | rfl
      · exact h.fine.2 t ht
      · simp

/-- `open(O_CREAT|O_EXCL)` in both runs: the same error, or both open the same new file -/
theorem WSim.createNew {cfg cfg' : XCfg} (hc : CfgSim cfg cfg') {w w' : World} (h : WSim w w') (abs : List Bytes) (b : Bytes) :
    (∃ e v v', w.sys cfg.env (fun fs => fs.createNew abs) = (v, .error e) ∧
      w'.sys cfg'.env (fun fs => fs.createNew abs) = (v', .error e) ∧ WSim v v') ∨
    (∃ i v v', w.sys cfg.env (fun fs => fs.createNew abs) = (v, .ok i) ∧
      w'.sys cfg'.env (fun fs => fs.createNew abs) = (v', .ok i) ∧ WSim (v.spawn i b) (v'.spawn i b)) := by
  have hp := h.pre hc.env
  simp only [World.sys, ← hc.env.fault, h.tick]
  cases hf : cfg.env.fault w'.tick with
  | true => left; exact ⟨_, _, _, rfl, rfl, hp⟩
  | false =>
    simp only [Bool.false_eq_true, if_false, FS.createNew, FS.resolve_congr hp.nodes]
    cases hr : (w'.pre cfg'.env).fs.resolve false abs with
    | error e => left; exact ⟨_, _, _, rfl, rfl, hp⟩
    | ok l =>
      cases l with
      | found q =>
        left
        by_cases hd : abs.getLast? = some CUR ∨ abs.getLast? = some PARENT
        · simp only [if_pos hd]; exact ⟨_, _, _, rfl, rfl, hp⟩
        · simp only [if_neg hd]; exact ⟨_, _, _, rfl, rfl, hp⟩
      | missing d n =>
        right
        have e1 : (w.pre cfg.env).fs.next = (w'.pre cfg'.env).fs.next := hp.next
        have e2 := hp.nodes
        refine ⟨_, _, _, rfl, by rw [← e1], ?_⟩
        have := hp.opened (i := (w.pre cfg.env).fs.next) b
          (fun hm => by
            obtain ⟨t, ht, he⟩ := List.mem_map.mp hm
            have := (hp.prog.ok t ht).lt
            omega)
          (fun q => if q = d ++ [n] then some (.file (w.pre cfg.env).fs.next) else (w.pre cfg.env).fs.nodes q)
          ((w.pre cfg.env).fs.next + 1) (Nat.lt_succ_self _) (Nat.le_succ _)
          (fun p j hj => by
            split at hj
            · simp only [Option.some.injEq, FNode.file.injEq] at hj; omega
            · have := hp.prog.inos p j hj; omega)
        simp only [FS.set, FS.setData]
        simp only [e2, e1] at this ⊢
        exact this

theorem WSim.reopen {cfg cfg' : XCfg} (hc : CfgSim cfg cfg') {w w' : World} (h : WSim w w') (abs : List Bytes) (b : Bytes) :
    PSimB (cfg.reopen abs b w) (cfg'.reopen abs b w') := by
  have hp := h.pre hc.env
  simp only [XCfg.reopen, World.sys, ← hc.env.fault, h.tick]
  cases hf : cfg.env.fault w'.tick with
  | true => left; exact ⟨by simpa using hp, rfl⟩
  | false =>
    simp only [Bool.false_eq_true, if_false, FS.openTrunc, FS.resolve_congr hp.nodes, hp.nodes]
    cases hr : (w'.pre cfg'.env).fs.resolve true abs with
    | error e => left; exact ⟨hp, rfl⟩
    | ok l =>
      cases l with
      | missing d n => left; exact ⟨hp, rfl⟩
      | found q =>
        simp only
        cases hn : (w'.pre cfg'.env).fs.nodes q with
        | none => left; exact ⟨hp, rfl⟩
        | some nd =>
          cases nd with
          | dir t => left; exact ⟨hp, rfl⟩
          | link t m => left; exact ⟨hp, rfl⟩
          | file i =>
            simp only
            by_cases hi : i ∈ (w.pre cfg.env).tasks.map Task.ino
            · right
              intro hnd
              simp only [World.spawn, List.map_append, List.map_cons, List.map_nil] at hnd
              exact (List.nodup_append.mp hnd).2.2 i hi i (by simp) rfl
            · left
              have hlt : i < (w.pre cfg.env).fs.next := hp.prog.inos q i (by rw [hp.nodes]; exact hn)
              have := hp.opened b hi (w.pre cfg.env).fs.nodes (w.pre cfg.env).fs.next hlt (Nat.le_refl _)
                (fun p j hj => hp.prog.inos p j hj)
              refine ⟨?_, rfl⟩
              simp only [FS.setData]
              have e1 : (w.pre cfg.env).fs.next = (w'.pre cfg'.env).fs.next := hp.next
              have e2 := hp.nodes
              simp only [e2, e1] at this ⊢
              exact this

theorem WSim.relink {cfg cfg' : XCfg} (hc : CfgSim cfg cfg') {w w' : World} (h : WSim w w') (abs : List Bytes) (b : Bytes) :
    PSimB (cfg.relink abs b w) (cfg'.relink abs b w') := by
  left
  have h1 := h.sys hc.env (OpSim.removeFile abs)
  simp only [XCfg.relink]
  revert h1
  cases w.sys cfg.env (fun fs => fs.removeFile abs) with
  | mk w1 r1 =>
    cases w'.sys cfg'.env (fun fs => fs.removeFile abs) with
    | mk w1' r1' =>
      rintro ⟨h1, h2⟩
      simp only at h1 h2; subst h2
      cases r1 with
      | error e => exact ⟨h1, rfl⟩
      | ok u =>
        have h3 := h1.sys hc.env (OpSim.symlink b abs)
        simp only
        revert h3
        cases w1.sys cfg.env (fun fs => fs.symlink b abs) with
        | mk w2 r2 =>
          cases w1'.sys cfg'.env (fun fs => fs.symlink b abs) with
          | mk w2' r2' =>
            rintro ⟨h3, h4⟩
            simp only at h3 h4; subst h4
            cases r2 <;> exact ⟨h3, rfl⟩

theorem CfgSim.mode {cfg cfg' : XCfg} (hc : CfgSim cfg cfg') : cfg'.mode = cfg.mode := by rw [← hc.rest]

theorem XCfg.writeFile_sim {cfg cfg' : XCfg} (hc : CfgSim cfg cfg') {w w' : World} (h : WSim w w') (abs : List Bytes)
    (mtime : Nat) (b : Bytes) : PSimB (cfg.writeFile w abs mtime b) (cfg'.writeFile w' abs mtime b) := by
  simp only [XCfg.writeFile, hc.mode]
  rcases h.createNew hc abs b with ⟨e, v, v', e1, e2, hv⟩ | ⟨i, v, v', e1, e2, hv⟩
  · rw [e1, e2]
    cases e with
    | «exists» =>
      cases cfg.mode with
      | skip => exact Or.inl ⟨hv, rfl⟩
      | warn => exact Or.inl ⟨hv, rfl⟩
      | error => exact Or.inl ⟨hv, rfl⟩
      | overwrite => exact hv.reopen hc abs b
      | newer =>
        have h2 := hv.sys hc.env (OpSim.mtime true abs)
        simp only
        revert h2
        cases v.sys cfg.env (fun fs => fs.mtime true abs) with
        | mk w2 r2 =>
          cases v'.sys cfg'.env (fun fs => fs.mtime true abs) with
          | mk w2' r2' =>
            rintro ⟨h2, h3⟩
            simp only at h2 h3; subst h3
            cases r2 with
            | error e => exact Or.inl ⟨h2, rfl⟩
            | ok t =>
              simp only
              cases newTime mtime with
              | none => exact Or.inl ⟨h2, rfl⟩
              | some nt =>
                simp only
                split
                · exact h2.reopen hc abs b
                · exact Or.inl ⟨h2, rfl⟩
    | _ => exact Or.inl ⟨hv, rfl⟩
  · rw [e1, e2]; exact Or.inl ⟨hv, rfl⟩

theorem XCfg.writeLink_sim {cfg cfg' : XCfg} (hc : CfgSim cfg cfg') {w w' : World} (h : WSim w w') (abs : List Bytes)
    (mtime : Nat) (b : Bytes) : PSimB (cfg.writeLink w abs mtime b) (cfg'.writeLink w' abs mtime b) := by
  have h1 := h.sys hc.env (OpSim.symlink b abs)
  simp only [XCfg.writeLink, hc.mode]
  revert h1
  cases w.sys cfg.env (fun fs => fs.symlink b abs) with
  | mk v r =>
    cases w'.sys cfg'.env (fun fs => fs.symlink b abs) with
    | mk v' r' =>
      rintro ⟨hv, h2⟩
      simp only at hv h2; subst h2
      cases r with
      | ok u => exact Or.inl ⟨hv, rfl⟩
      | error e =>
        cases e with
        | «exists» =>
          cases cfg.mode with
          | skip => exact Or.inl ⟨hv, rfl⟩
          | warn => exact Or.inl ⟨hv, rfl⟩
          | error => exact Or.inl ⟨hv, rfl⟩
          | overwrite => exact hv.relink hc abs b
          | newer =>
            have h2 := hv.sys hc.env (OpSim.mtime false abs)
            simp only
            revert h2
            cases v.sys cfg.env (fun fs => fs.mtime false abs) with
            | mk w2 r2 =>
              cases v'.sys cfg'.env (fun fs => fs.mtime false abs) with
              | mk w2' r2' =>
                rintro ⟨h2, h3⟩
                simp only at h2 h3; subst h3
                cases r2 with
                | error e => exact Or.inl ⟨h2, rfl⟩
                | ok t =>
                  simp only
                  cases newTime mtime with
                  | none => exact Or.inl ⟨h2, rfl⟩
                  | some nt =>
                    simp only
                    split
                    · exact h2.relink hc abs b
                    · exact Or.inl ⟨h2, rfl⟩
        | _ => exact Or.inl ⟨hv, rfl⟩

def XSim (c c' : XCtx) : Prop := c.cur = c'.cur ∧ WSim c.w c'.w
def XBad (c : XCtx) : Prop := BadW c.w

theorem CfgSim.should {cfg cfg' : XCfg} (hc : CfgSim cfg cfg') (p : RPath) (d : Bool) :
    cfg'.shouldExtract p d = cfg.shouldExtract p d := by rw [← hc.rest]; rfl
theorem CfgSim.abs {cfg cfg' : XCfg} (hc : CfgSim cfg cfg') (p : RPath) : cfg'.absPath p = cfg.absPath p := by
  rw [← hc.rest]; rfl
theorem CfgSim.bytes {cfg cfg' : XCfg} (hc : CfgSim cfg cfg') : cfg'.bytes = cfg.bytes := by rw [← hc.rest]
theorem CfgSim.base {cfg cfg' : XCfg} (hc : CfgSim cfg cfg') : cfg'.base = cfg.base := by rw [← hc.rest]
theorem CfgSim.arch {cfg cfg' : XCfg} (hc : CfgSim cfg cfg') : cfg'.a = cfg.a := by rw [← hc.rest]

theorem extractor_sim {cfg cfg' : XCfg} (hc : CfgSim cfg cfg') :
    SimOps XSim XBad (extractor cfg) (extractor cfg') where
  keep := {
    enter := by
      intro c d hb
      simp only [extractor, XCfg.onEnter]
      split
      · exact hb
      · have := Grows.mkdirs cfg c.w (cfg.absPath (RPath.push c.cur d))
        revert this
        cases cfg.mkdirs c.w (cfg.absPath (RPath.push c.cur d)) with
        | mk w r => intro h; cases r <;> exact h.bad hb
    exit := fun c d hb => hb
    file := by
      intro c f hb
      simp only [extractor, XCfg.onFile]
      split
      · exact hb
      · split
        · exact hb
        · exact hb
        · exact (Grows.writeFile cfg _ _ _ _).bad hb
    link := by
      intro c f hb
      simp only [extractor, XCfg.onLink]
      split
      · exact hb
      · exact (Grows.writeLink cfg _ _ _ _).bad hb }
  enter := by
    rintro ⟨cur, w⟩ ⟨cur', w'⟩ d ⟨h1, h2⟩
    simp only at h1 h2; subst h1
    simp only [extractor, XCfg.onEnter, hc.should, hc.abs]
    split
    · exact Or.inl ⟨⟨rfl, h2⟩, rfl⟩
    · have := XCfg.mkdirs_sim hc h2 (cfg.absPath (RPath.push cur d))
      revert this
      cases cfg.mkdirs w (cfg.absPath (RPath.push cur d)) with
      | mk v r =>
        cases cfg'.mkdirs w' (cfg.absPath (RPath.push cur d)) with
        | mk v' r' =>
          rintro ⟨g1, g2⟩
          simp only at g1 g2; subst g2
          cases r <;> exact Or.inl ⟨⟨rfl, g1⟩, rfl⟩
  exit := by
    rintro ⟨cur, w⟩ ⟨cur', w'⟩ d ⟨h1, h2⟩
    simp only at h1 h2; subst h1
    exact Or.inl ⟨⟨rfl, h2⟩, rfl⟩
  file := by
    rintro ⟨cur, w⟩ ⟨cur', w'⟩ f ⟨h1, h2⟩
    simp only at h1 h2; subst h1
    simp only [extractor, XCfg.onFile, hc.should, hc.abs, hc.bytes]
    split
    · exact Or.inl ⟨⟨rfl, h2⟩, rfl⟩
    · split
      · exact Or.inl ⟨⟨rfl, h2⟩, rfl⟩
      · exact Or.inl ⟨⟨rfl, h2⟩, rfl⟩
      · rename_i b hb
        rcases XCfg.writeFile_sim hc h2 (cfg.absPath (RPath.push cur f.path)) f.mtime b with ⟨g1, g2⟩ | h
        · exact Or.inl ⟨⟨rfl, g1⟩, g2⟩
        · exact Or.inr h
  link := by
    rintro ⟨cur, w⟩ ⟨cur', w'⟩ f ⟨h1, h2⟩
    simp only at h1 h2; subst h1
    simp only [extractor, XCfg.onLink, hc.should, hc.abs]
    split
    · exact Or.inl ⟨⟨rfl, h2⟩, rfl⟩
    · rcases XCfg.writeLink_sim hc h2 (cfg.absPath (RPath.push cur f.path)) f.mtime f.target with ⟨g1, g2⟩ | h
      · exact Or.inl ⟨⟨rfl, g1⟩, g2⟩
      · exact Or.inr h

/-- allocated inodes are below `next` -/
def FS.InosOK (fs : FS) : Prop := ∀ p i, fs.nodes p = some (.file i) → i < fs.next

theorem Prog.init {fs : FS} (h : fs.InosOK) : Prog (World.init fs) :=
  ⟨by simp [World.init], by simp [World.init], h⟩

theorem WSim.init {fs : FS} (h : fs.InosOK) : WSim (World.init fs) (World.init fs) :=
  ⟨⟨rfl, rfl, rfl, fun _ => rfl⟩, rfl, rfl, Prog.init h, Prog.init h, fun _ _ => rfl, ⟨rfl, rfl⟩,
    by simp [World.init], by simp [World.init]⟩

/-- two finished related worlds have the same file system -/
theorem WSim.eq {w w' : World} (h : WSim w w') (hf : w.finished) (hf' : w'.finished) : w.fs = w'.fs := by
  have hd : w.fs.data = w'.fs.data := by
    funext i
    by_cases hi : i ∈ w.tasks.map Task.ino
    · obtain ⟨t, ht, he⟩ := List.mem_map.mp hi
      have hti : (t.ino, t.bytes) ∈ w'.tasks.map (fun t => (t.ino, t.bytes)) := by
        rw [← h.tasks]; exact List.mem_map.mpr ⟨t, ht, rfl⟩
      obtain ⟨u, hu, hue⟩ := List.mem_map.mp hti
      simp only [Prod.mk.injEq] at hue
      have T := h.prog.ok t ht
      have U := h.prog'.ok u hu
      have td : t.st = .done := by
        have a := hf t ht; have b := h.fine.1 t ht
        cases hs : t.st <;> simp_all
      have ud : u.st = .done := by
        have a := hf' u hu; have b := h.fine.2 u hu
        cases hs : u.st <;> simp_all
      have tb : (w.fs.data i).bytes = t.bytes := by
        rw [← he, T.bytes, T.done td, List.take_length]
      have ub : (w'.fs.data i).bytes = t.bytes := by
        rw [← he, ← hue.1, U.bytes, U.done ud, List.take_length, hue.2]
      have hm := h.mtime i
      cases hx : w.fs.data i
      cases hy : w'.fs.data i
      simp only [hx, hy] at tb ub hm
      rw [tb, ub, hm]
    · exact h.data i hi
  have h1 := h.nodes; have h2 := h.next; have h3 := h.now
  cases hx : w.fs
  cases hy : w'.fs
  simp only [hx, hy] at hd h1 h2 h3
  subst hd; subst h1; subst h2; subst h3; rfl

end Arx
