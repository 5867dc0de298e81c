import Verif.Proof.ExtractSched
/-!
# Independence of the schedule, for every archive

As in `ExtractSched`, but a file may be opened more than once: what is claimed about contents is only about files that are opened once.
-/
namespace Arx

/-- nothing else in the list is equal to its `j`th element -/
def Alone (l : List Nat) (j : Nat) : Prop := ∀ k, l[k]? = l[j]? → k = j

theorem Alone.of_append {l : List Nat} {i j : Nat} (hj : j < l.length) (h : Alone (l ++ [i]) j) : Alone l j ∧ l[j]? ≠ some i := by
  constructor
  · intro k hk
    have hk' : k < l.length := by
      rw [List.getElem?_eq_getElem hj] at hk
      exact (List.getElem?_eq_some_iff.mp hk).1
    refine h k ?_
    rw [List.getElem?_append_left hk', List.getElem?_append_left hj]; exact hk
  · intro e
    have := h l.length (by rw [List.getElem?_append_right (Nat.le_refl _), List.getElem?_append_left hj, e]; simp)
    omega

/-- what a writer has to do with its file -/
structure TaskAt (fs : FS) (t : Task) : Prop where
  off : t.off ≤ t.bytes.length
  done : t.st = .done → t.off = t.bytes.length
  mtime : (fs.data t.ino).mtime = fs.now
  lt : t.ino < fs.next

/-- byte `k` of file `i` is zero or from the content of one of its writers -/
def FromWriters (w : World) : Prop := ∀ i, i ∈ w.tasks.map Task.ino → ∀ (k : Nat) (x : UInt8), (w.fs.data i).bytes[k]? = some x →
  x = 0 ∨ ∃ y ∈ w.tasks.map (fun t => (t.ino, t.bytes)), y.1 = i ∧ y.2[k]? = some x

structure Progs (w : World) : Prop where
  ok : ∀ t ∈ w.tasks, TaskAt w.fs t
  solo : ∀ (j : Nat) (t : Task), w.tasks[j]? = some t → Alone (w.tasks.map Task.ino) j → (w.fs.data t.ino).bytes = t.bytes.take t.off
  inos : ∀ p i, w.fs.nodes p = some (.file i) → i < w.fs.next
  mixed : FromWriters w

theorem writeAt_get {b s : Bytes} {off k : Nat} {x : UInt8} (h : (writeAt b off s)[k]? = some x) :
    b[k]? = some x ∨ x = 0 ∨ (off ≤ k ∧ s[k - off]? = some x) := by
  unfold writeAt at h
  by_cases h1 : k < (b.take off).length
  · rw [List.append_assoc, List.append_assoc, List.getElem?_append_left h1] at h
    left
    rw [List.getElem?_take] at h
    split at h
    · exact h
    · cases h
  · have e1 : (b.take off).length = min off b.length := List.length_take
    rw [List.append_assoc, List.append_assoc, List.getElem?_append_right (by omega)] at h
    by_cases h2 : k - (b.take off).length < (List.replicate (off - b.length) (0 : UInt8)).length
    · rw [List.getElem?_append_left h2, List.getElem?_replicate] at h
      right; left
      split at h
      · simpa using h.symm
      · cases h
    · simp only [List.length_replicate] at h2
      rw [List.getElem?_append_right (by simpa using h2)] at h
      simp only [List.length_replicate] at h
      have hoff : off ≤ k := by omega
      have e2 : k - (b.take off).length - (off - b.length) = k - off := by omega
      rw [e2] at h
      by_cases h3 : k - off < s.length
      · rw [List.getElem?_append_left h3] at h
        exact Or.inr (Or.inr ⟨hoff, h⟩)
      · rw [List.getElem?_append_right (by omega), List.getElem?_drop] at h
        left
        have : off + s.length + (k - off - s.length) = k := by omega
        rw [this] at h; exact h

theorem Progs.step {w : World} (h : Progs w) (x : Nat × WriteRes) :
    Progs (w.step x) ∧ (∀ i, ((w.step x).fs.data i).mtime = (w.fs.data i).mtime) ∧
    (x.2 ≠ .err → (w.step x).okFlag = w.okFlag ∧ ((∀ t ∈ w.tasks, t.st ≠ .failed) → ∀ t ∈ (w.step x).tasks, t.st ≠ .failed)) := by
  obtain ⟨a1, a2, a3, a4, a5, a6⟩ := w.step_fs x
  have hmap := map_ino_of a5
  have hin : ∀ p i, (w.step x).fs.nodes p = some (.file i) → i < (w.step x).fs.next := by rw [a1, a2]; exact h.inos
  have hkeep : ∀ (v : World), v.tasks.map (fun t => (t.ino, t.bytes)) = w.tasks.map (fun t => (t.ino, t.bytes)) → v.fs.data = w.fs.data → FromWriters v := by
    intro v e1 e2 i hi
    rw [map_ino_of e1] at hi
    rw [e1, e2]
    exact h.mixed i hi
  revert hmap hin a5 a3
  clear a1 a2 a4 a6
  simp only [World.step]
  cases ht : w.tasks[x.1]? with
  | none => intro _ _ _ _; exact ⟨h, fun _ => rfl, fun _ => ⟨rfl, id⟩⟩
  | some t =>
    simp only
    have htm := List.mem_of_getElem? ht
    have T := h.ok t htm
    have hlt := (List.getElem?_eq_some_iff.mp ht).1
    split
    · intro _ _ _ _; exact ⟨h, fun _ => rfl, fun _ => ⟨rfl, id⟩⟩
    · rename_i hrun
      have hget : ∀ (t' : Task) (j : Nat) (u : Task), (w.tasks.set x.1 t')[j]? = some u → (j = x.1 ∧ u = t') ∨ (j ≠ x.1 ∧ w.tasks[j]? = some u) := by
        intro t' j u hj
        rw [List.getElem?_set] at hj
        split at hj
        · rename_i e
          left; exact ⟨e.symm, by simpa using hj.symm⟩
        · rename_i e; right; exact ⟨fun e' => e e'.symm, hj⟩
      have hmem : ∀ (t' u : Task), u ∈ w.tasks.set x.1 t' → u = t' ∨ u ∈ w.tasks := by
        intro t' u hu
        obtain ⟨j, hj⟩ := List.mem_iff_getElem?.mp hu
        rcases hget t' j u hj with ⟨_, e⟩ | ⟨_, e⟩
        · exact Or.inl e
        · exact Or.inr (List.mem_of_getElem? e)
      cases hx : x.2 with
      | err =>
        intro a3 a5 hmap hin
        refine ⟨⟨?_, ?_, hin, hkeep _ a5 rfl⟩, fun _ => rfl, fun he => absurd rfl he⟩
        · intro u hu
          rcases hmem _ _ hu with rfl | hu
          · exact ⟨T.off, fun h => by simp at h, T.mtime, T.lt⟩
          · exact h.ok u hu
        · intro j u hj hal
          rw [hmap] at hal
          rcases hget _ j u hj with ⟨rfl, rfl⟩ | ⟨_, e⟩
          · exact h.solo _ t ht hal
          · exact h.solo j u e hal
      | wrote k =>
        intro a3 a5 hmap hin
        refine ⟨⟨?_, ?_, hin, ?_⟩, ?_, ?_⟩
        · intro u hu
          rcases hmem _ _ hu with rfl | hu
          · refine ⟨t.slice_le T.off k, ?_, by simp [FS.setData], T.lt⟩
            intro hd
            simp only at hd ⊢
            split at hd
            · assumption
            · cases hd
          · have U := h.ok u hu
            refine ⟨U.off, U.done, ?_, U.lt⟩
            simp only [FS.setData]
            split
            · rfl
            · exact U.mtime
        · intro j u hj hal
          rw [hmap] at hal
          rcases hget _ j u hj with ⟨rfl, rfl⟩ | ⟨hne, e⟩
          · simp only [FS.setData, if_true]
            rw [h.solo _ t ht hal, writeAt_take _ _ T.off _ (t.slice_eq k)]
          · have hino : u.ino ≠ t.ino := by
              intro he
              refine hne (hal x.1 ?_).symm
              simp [ht, e, he]
            simp only [FS.setData, if_neg hino]
            exact h.solo j u e hal
        · intro i hi k' y hy
          simp only at hi hy ⊢
          rw [a5]
          rw [hmap] at hi
          simp only [FS.setData] at hy
          split at hy
          · rename_i hi'
            simp only at hy
            rcases writeAt_get hy with hb | rfl | ⟨hoff, hs⟩
            · exact h.mixed i hi k' y (by rw [hi']; exact hb)
            · exact Or.inl rfl
            · right
              refine ⟨(t.ino, t.bytes), List.mem_map.mpr ⟨t, htm, rfl⟩, hi'.symm, ?_⟩
              rw [t.slice_eq k, List.getElem?_take] at hs
              split at hs
              · rw [List.getElem?_drop] at hs
                have : t.off + (k' - t.off) = k' := by omega
                rw [this] at hs; exact hs
              · cases hs
          · exact h.mixed i hi k' y hy
        · intro i
          simp only [FS.setData]
          split
          · rename_i hi; subst hi; exact T.mtime.symm
          · rfl
        · intro _
          refine ⟨rfl, fun hf u hu => ?_⟩
          rcases hmem _ _ hu with rfl | hu
          · simp only; split <;> simp
          · exact hf u hu

theorem Progs.steps (l : List (Nat × WriteRes)) : ∀ {w : World}, Progs w →
    Progs (w.steps l) ∧ (∀ i, ((w.steps l).fs.data i).mtime = (w.fs.data i).mtime) ∧
    (NoErr l → (w.steps l).okFlag = w.okFlag ∧ ((∀ t ∈ w.tasks, t.st ≠ .failed) → ∀ t ∈ (w.steps l).tasks, t.st ≠ .failed)) := by
  induction l with
  | nil => intro w h; exact ⟨h, fun _ => rfl, fun _ => ⟨rfl, id⟩⟩
  | cons x xs ih =>
    intro w h
    obtain ⟨h1, h2, h3⟩ := h.step x
    obtain ⟨g1, g2, g3⟩ := ih h1
    refine ⟨g1, fun i => (g2 i).trans (h2 i), fun hn => ?_⟩
    have a := h3 (hn x (by simp))
    have b := g3 (fun y hy => hn y (by simp [hy]))
    exact ⟨b.1.trans a.1, fun hf => b.2 (a.2 hf)⟩

structure ASim (w w' : World) : Prop extends FSim w.fs w'.fs where
  tick : w.tick = w'.tick
  tasks : w.tasks.map (fun t => (t.ino, t.bytes)) = w'.tasks.map (fun t => (t.ino, t.bytes))
  prog : Progs w
  prog' : Progs w'
  data : ∀ i, i ∉ w.tasks.map Task.ino → w.fs.data i = w'.fs.data i
  flag : w.okFlag = true ∧ w'.okFlag = true
  fine : (∀ t ∈ w.tasks, t.st ≠ .failed) ∧ (∀ t ∈ w'.tasks, t.st ≠ .failed)

theorem ASim.steps {w w' : World} (h : ASim w w') {l l' : List (Nat × WriteRes)} (hl : NoErr l) (hl' : NoErr l') :
    ASim (w.steps l) (w'.steps l') := by
  obtain ⟨a1, a2, a3, a4, a5, a6⟩ := w.steps_fs l
  obtain ⟨b1, b2, b3, b4, b5, b6⟩ := w'.steps_fs l'
  obtain ⟨p1, p2, p3⟩ := h.prog.steps l
  obtain ⟨q1, q2, q3⟩ := h.prog'.steps l'
  have hi := map_ino_of a5
  have hi' := map_ino_of h.tasks
  refine ⟨⟨a1.trans (h.nodes.trans b1.symm), a2.trans (h.next.trans b2.symm), a3.trans (h.now.trans b3.symm),
    fun i => (p2 i).trans ((h.mtime i).trans (q2 i).symm)⟩, a4.trans (h.tick.trans b4.symm),
    a5.trans (h.tasks.trans b5.symm), p1, q1, ?_, ?_, ?_⟩
  · intro i hni
    rw [hi] at hni
    rw [a6 i hni, b6 i (by rw [← hi']; exact hni)]
    exact h.data i hni
  · exact ⟨(p3 hl).1.trans h.flag.1, (q3 hl').1.trans h.flag.2⟩
  · exact ⟨(p3 hl).2 h.fine.1, (q3 hl').2 h.fine.2⟩

theorem ASim.pre {e e' : Env} (he : EnvSim e e') {w w' : World} (h : ASim w w') : ASim (w.pre e) (w'.pre e') := by
  have h1 := h.steps (he.noErr w.tick) (he.noErr' w'.tick)
  exact ⟨⟨h1.nodes, h1.next, h1.now, h1.mtime⟩, by simp [World.pre, h.tick], h1.tasks,
    ⟨h1.prog.ok, h1.prog.solo, h1.prog.inos, h1.prog.mixed⟩, ⟨h1.prog'.ok, h1.prog'.solo, h1.prog'.inos, h1.prog'.mixed⟩, h1.data, h1.flag, h1.fine⟩

def APSim {α : Type} (x y : World × α) : Prop := ASim x.1 y.1 ∧ x.2 = y.2

theorem ASim.sys {e e' : Env} (he : EnvSim e e') {w w' : World} (h : ASim w w') {α : Type}
    {op : FS → Except HErr (α × FS)} (ho : OpSim op) : APSim (w.sys e op) (w'.sys e' op) := by
  have hp := h.pre he
  simp only [World.sys, ← he.fault, h.tick]
  cases hf : e.fault w'.tick with
  | true => exact ⟨by simpa using hp, rfl⟩
  | false =>
    simp only [Bool.false_eq_true, if_false]
    rcases ho _ _ hp.toFSim with ⟨x, h1, h2⟩ | ⟨x, g, g', h1, h2, hn, hx, hx', ht, ht', hd, hd', hfi⟩
    · rw [h1, h2]; exact ⟨hp, rfl⟩
    · rw [h1, h2]
      refine ⟨⟨⟨hn, by simp only [hx, hx', hp.next], by simp only [ht, ht', hp.now], by simp only [hd, hd']; exact hp.mtime⟩,
        hp.tick, hp.tasks, ⟨?_, ?_, ?_, ?_⟩, ⟨?_, ?_, ?_, ?_⟩, ?_, hp.flag, hp.fine⟩, rfl⟩
      · intro t htm
        have T := hp.prog.ok t htm
        exact ⟨T.off, T.done, by simp only [hd, ht]; exact T.mtime, by simp only [hx]; exact T.lt⟩
      · intro j t hj hal
        simp only [hd]; exact hp.prog.solo j t hj hal
      · intro p i hpi
        obtain ⟨p', hp'⟩ := hfi p i hpi
        simp only [hx]; exact hp.prog.inos p' i hp'
      · intro i hi
        simp only [hd]; exact hp.prog.mixed i hi
      · intro t htm
        have T := hp.prog'.ok t htm
        exact ⟨T.off, T.done, by simp only [hd', ht']; exact T.mtime, by simp only [hx']; exact T.lt⟩
      · intro j t hj hal
        simp only [hd']; exact hp.prog'.solo j t hj hal
      · intro p i hpi
        rw [← hn] at hpi
        obtain ⟨p', hp'⟩ := hfi p i hpi
        simp only [hx']; rw [← hp.next]; exact hp.prog.inos p' i hp'
      · intro i hi
        simp only [hd']; exact hp.prog'.mixed i hi
      · intro i hi; simp only [hd, hd']; exact hp.data i hi

theorem ASim.isDir {e e' : Env} (he : EnvSim e e') {w w' : World} (h : ASim w w') (p : List Bytes) :
    APSim (w.isDir e p) (w'.isDir e' p) := by
  have := h.sys he (OpSim.isDir p)
  simp only [World.isDir]
  revert this
  cases w.sys e (fun fs => .ok (fs.isDir p, fs)) with
  | mk w1 r1 =>
    cases w'.sys e' (fun fs => .ok (fs.isDir p, fs)) with
    | mk w2 r2 =>
      rintro ⟨h1, h2⟩
      simp only at h2; subst h2
      cases r1 <;> exact ⟨h1, rfl⟩

theorem ASim.createDirAll {e e' : Env} (he : EnvSim e e') : ∀ (f : Nat) {w w' : World} (p : List Bytes), ASim w w' →
    APSim (World.createDirAll e f w p) (World.createDirAll e' f w' p) := by
  intro f
  induction f with
  | zero => intro w w' p h; exact ⟨h, rfl⟩
  | succ f ih =>
    intro w w' p h
    have htail : ∀ {w w' : World} (x : HErr), ASim w w' →
        APSim (match w.isDir e p with | (w, true) => (w, (Except.ok () : Except HErr Unit)) | (w, false) => (w, .error x))
          (match w'.isDir e' p with | (w, true) => (w, (Except.ok () : Except HErr Unit)) | (w, false) => (w, .error x)) := by
      intro w w' x h
      have := h.isDir he p
      revert this
      cases w.isDir e p with
      | mk w1 b1 =>
        cases w'.isDir e' p with
        | mk w2 b2 =>
          rintro ⟨h1, h2⟩
          simp only at h2; subst h2
          cases b1 <;> exact ⟨h1, rfl⟩
    have h1 := h.sys he (OpSim.mkdir p)
    simp only [World.createDirAll]
    revert h1
    cases w.sys e (fun fs => fs.mkdir p) with
    | mk w1 r1 =>
      cases w'.sys e' (fun fs => fs.mkdir p) with
      | mk w1' r1' =>
        rintro ⟨h1, h2⟩
        simp only at h1 h2; subst h2
        cases r1 with
        | ok u => exact ⟨h1, rfl⟩
        | error x =>
          cases x with
          | notFound =>
            simp only
            split
            · exact ⟨h1, rfl⟩
            · have h2 := ih (parentOf p) h1
              revert h2
              cases World.createDirAll e f w1 (parentOf p) with
              | mk w2 r2 =>
                cases World.createDirAll e' f w1' (parentOf p) with
                | mk w2' r2' =>
                  rintro ⟨h2, h3⟩
                  simp only at h2 h3; subst h3
                  cases r2 with
                  | error x => exact ⟨h2, rfl⟩
                  | ok u =>
                    have h3 := h2.sys he (OpSim.mkdir p)
                    simp only
                    revert h3
                    cases w2.sys e (fun fs => fs.mkdir p) with
                    | mk w3 r3 =>
                      cases w2'.sys e' (fun fs => fs.mkdir p) with
                      | mk w3' r3' =>
                        rintro ⟨h3, h4⟩
                        simp only at h3 h4; subst h4
                        cases r3 with
                        | ok u => exact ⟨h3, rfl⟩
                        | error x => exact htail x h3
          | _ => exact htail _ h1

theorem XCfg.mkdirs_any {cfg cfg' : XCfg} (hc : CfgSim cfg cfg') {w w' : World} (h : ASim w w') (p : List Bytes) :
    APSim (cfg.mkdirs w p) (cfg'.mkdirs w' p) := by
  have := h.createDirAll hc.env (p.length + 1) p
  simp only [XCfg.mkdirs]
  revert this
  cases World.createDirAll cfg.env (p.length + 1) w p with
  | mk w1 r1 =>
    cases World.createDirAll cfg'.env (p.length + 1) w' p with
    | mk w2 r2 =>
      rintro ⟨h1, h2⟩
      simp only at h2; subst h2
      cases r1 <;> exact ⟨h1, rfl⟩

/-- the file just opened is given to a new task -/
theorem ASim.opened {w w' : World} (h : ASim w w') {i : Nat} (b : Bytes)
    (N : List Bytes → Option FNode) (X : Nat) (hilt : i < X) (hle : w.fs.next ≤ X)
    (hin : ∀ p j, N p = some (.file j) → j < X) :
    ASim (World.spawn { w with fs := ⟨N, fun j => if j = i then ⟨[], w.fs.now⟩ else w.fs.data j, X, w.fs.now⟩ } i b)
      (World.spawn { w' with fs := ⟨N, fun j => if j = i then ⟨[], w'.fs.now⟩ else w'.fs.data j, X, w'.fs.now⟩ } i b) := by
  have key : ∀ v : World, Progs v → v.fs.next ≤ X →
      Progs (World.spawn { v with fs := ⟨N, fun j => if j = i then ⟨[], v.fs.now⟩ else v.fs.data j, X, v.fs.now⟩ } i b) := by
    intro v hv hvx
    refine ⟨?_, ?_, hin, ?_⟩
    · intro t ht
      simp only [World.spawn, List.mem_append, List.mem_singleton] at ht
      rcases ht with ht | ht
      · have T := hv.ok t ht
        refine ⟨T.off, T.done, ?_, Nat.lt_of_lt_of_le T.lt hvx⟩
        simp only [World.spawn]
        split
        · rfl
        · exact T.mtime
      · subst ht
        exact ⟨Nat.zero_le _, (fun h => by cases h), by simp [World.spawn], hilt⟩
    · intro j t hj hal
      simp only [World.spawn, List.map_append, List.map_cons, List.map_nil] at hj hal ⊢
      by_cases hlt : j < v.tasks.length
      · rw [List.getElem?_append_left hlt] at hj
        obtain ⟨h1, h2⟩ := Alone.of_append (by simpa using hlt) hal
        have hne : t.ino ≠ i := by
          intro e
          apply h2
          simp [hj, e]
        simp only [if_neg hne]
        exact hv.solo j t hj h1
      · rw [List.getElem?_append_right (by omega)] at hj
        have : t = ⟨i, b, 0, .running⟩ := by
          have := List.mem_of_getElem? hj
          simpa using this
        subst this
        simp
    · intro j hj k x hx
      simp only [World.spawn] at hx
      split at hx
      · simp at hx
      · rename_i hne
        have hj' : j ∈ v.tasks.map Task.ino := by
          simp only [World.spawn, List.map_append, List.map_cons, List.map_nil, List.mem_append, List.mem_singleton] at hj
          rcases hj with hj | hj
          · exact hj
          · exact absurd hj hne
        rcases hv.mixed j hj' k x hx with h | ⟨y, hy, h1, h2⟩
        · exact Or.inl h
        · refine Or.inr ⟨y, ?_, h1, h2⟩
          simp only [World.spawn, List.map_append, List.mem_append]
          exact Or.inl hy
  refine ⟨⟨rfl, rfl, h.now, ?_⟩, h.tick, ?_, key w h.prog hle, key w' h.prog' (by rw [← h.next]; exact hle), ?_, h.flag, ?_⟩
  · intro j
    simp only [World.spawn]
    split
    · exact h.now
    · exact h.mtime j
  · simp only [World.spawn, List.map_append, h.tasks]
  · intro j hj
    simp only [World.spawn, List.map_append, List.mem_append, List.map_cons, List.map_nil, List.mem_singleton, not_or] at hj
    simp only [World.spawn, if_neg hj.2]
    exact h.data j hj.1
  · constructor <;> intro t ht <;> simp only [World.spawn, List.mem_append, List.mem_singleton] at ht
    · rcases ht with ht | rfl
      · exact h.fine.1 t ht
      · simp
    · rcases ht with ht | rfl
      · exact h.fine.2 t ht
      · simp

theorem ASim.createNew {cfg cfg' : XCfg} (hc : CfgSim cfg cfg') {w w' : World} (h : ASim w w') (abs : List Bytes) (b : Bytes) :
    (∃ e v v', w.sys cfg.env (fun fs => fs.createNew abs) = (v, .error e) ∧
      w'.sys cfg'.env (fun fs => fs.createNew abs) = (v', .error e) ∧ ASim v v') ∨
    (∃ i v v', w.sys cfg.env (fun fs => fs.createNew abs) = (v, .ok i) ∧
      w'.sys cfg'.env (fun fs => fs.createNew abs) = (v', .ok i) ∧ ASim (v.spawn i b) (v'.spawn i b)) := by
  have hp := h.pre hc.env
  simp only [World.sys, ← hc.env.fault, h.tick]
  cases hf : cfg.env.fault w'.tick with
  | true => left; exact ⟨_, _, _, rfl, rfl, hp⟩
  | false =>
    simp only [Bool.false_eq_true, if_false, FS.createNew, FS.resolve_congr hp.nodes]
    cases hr : (w'.pre cfg'.env).fs.resolve false abs with
    | error e => left; exact ⟨_, _, _, rfl, rfl, hp⟩
    | ok l =>
      cases l with
      | found q =>
        left
        by_cases hd : abs.getLast? = some CUR ∨ abs.getLast? = some PARENT
        · simp only [if_pos hd]; exact ⟨_, _, _, rfl, rfl, hp⟩
        · simp only [if_neg hd]; exact ⟨_, _, _, rfl, rfl, hp⟩
      | missing d n =>
        right
        have e1 : (w.pre cfg.env).fs.next = (w'.pre cfg'.env).fs.next := hp.next
        have e2 := hp.nodes
        refine ⟨_, _, _, rfl, by rw [← e1], ?_⟩
        have := hp.opened (i := (w.pre cfg.env).fs.next) b
          (fun q => if q = d ++ [n] then some (.file (w.pre cfg.env).fs.next) else (w.pre cfg.env).fs.nodes q)
          ((w.pre cfg.env).fs.next + 1) (Nat.lt_succ_self _) (Nat.le_succ _)
          (fun p j hj => by
            split at hj
            · simp only [Option.some.injEq, FNode.file.injEq] at hj; omega
            · have := hp.prog.inos p j hj; omega)
        simp only [FS.set, FS.setData]
        simp only [e2, e1] at this ⊢
        exact this

theorem ASim.reopen {cfg cfg' : XCfg} (hc : CfgSim cfg cfg') {w w' : World} (h : ASim w w') (abs : List Bytes) (b : Bytes) :
    APSim (cfg.reopen abs b w) (cfg'.reopen abs b w') := by
  have hp := h.pre hc.env
  simp only [XCfg.reopen, World.sys, ← hc.env.fault, h.tick]
  cases hf : cfg.env.fault w'.tick with
  | true => exact ⟨by simpa using hp, rfl⟩
  | false =>
    simp only [Bool.false_eq_true, if_false, FS.openTrunc, FS.resolve_congr hp.nodes, hp.nodes]
    cases hr : (w'.pre cfg'.env).fs.resolve true abs with
    | error e => exact ⟨hp, rfl⟩
    | ok l =>
      cases l with
      | missing d n => exact ⟨hp, rfl⟩
      | found q =>
        simp only
        cases hn : (w'.pre cfg'.env).fs.nodes q with
        | none => exact ⟨hp, rfl⟩
        | some nd =>
          cases nd with
          | dir t => exact ⟨hp, rfl⟩
          | link t m => exact ⟨hp, rfl⟩
          | file i =>
            simp only
            have hlt : i < (w.pre cfg.env).fs.next := hp.prog.inos q i (by rw [hp.nodes]; exact hn)
            have := hp.opened (i := i) b (w.pre cfg.env).fs.nodes (w.pre cfg.env).fs.next hlt (Nat.le_refl _)
              (fun p j hj => hp.prog.inos p j hj)
            refine ⟨?_, rfl⟩
            simp only [FS.setData]
            have e1 : (w.pre cfg.env).fs.next = (w'.pre cfg'.env).fs.next := hp.next
            have e2 := hp.nodes
            simp only [e2, e1] at this ⊢
            exact this

theorem ASim.relink {cfg cfg' : XCfg} (hc : CfgSim cfg cfg') {w w' : World} (h : ASim w w') (abs : List Bytes) (b : Bytes) :
    APSim (cfg.relink abs b w) (cfg'.relink abs b w') := by
  have h1 := h.sys hc.env (OpSim.removeFile abs)
  simp only [XCfg.relink]
  revert h1
  cases w.sys cfg.env (fun fs => fs.removeFile abs) with
  | mk w1 r1 =>
    cases w'.sys cfg'.env (fun fs => fs.removeFile abs) with
    | mk w1' r1' =>
      rintro ⟨h1, h2⟩
      simp only at h1 h2; subst h2
      cases r1 with
      | error e => exact ⟨h1, rfl⟩
      | ok u =>
        have h3 := h1.sys hc.env (OpSim.symlink b abs)
        simp only
        revert h3
        cases w1.sys cfg.env (fun fs => fs.symlink b abs) with
        | mk w2 r2 =>
          cases w1'.sys cfg'.env (fun fs => fs.symlink b abs) with
          | mk w2' r2' =>
            rintro ⟨h3, h4⟩
            simp only at h3 h4; subst h4
            cases r2 <;> exact ⟨h3, rfl⟩

theorem XCfg.writeFile_any {cfg cfg' : XCfg} (hc : CfgSim cfg cfg') {w w' : World} (h : ASim w w') (abs : List Bytes)
    (mtime : Nat) (b : Bytes) : APSim (cfg.writeFile w abs mtime b) (cfg'.writeFile w' abs mtime b) := by
  simp only [XCfg.writeFile, hc.mode]
  rcases h.createNew hc abs b with ⟨e, v, v', e1, e2, hv⟩ | ⟨i, v, v', e1, e2, hv⟩
  · rw [e1, e2]
    cases e with
    | «exists» =>
      cases cfg.mode with
      | skip => exact ⟨hv, rfl⟩
      | warn => exact ⟨hv, rfl⟩
      | error => exact ⟨hv, rfl⟩
      | overwrite => exact hv.reopen hc abs b
      | newer =>
        have h2 := hv.sys hc.env (OpSim.mtime true abs)
        simp only
        revert h2
        cases v.sys cfg.env (fun fs => fs.mtime true abs) with
        | mk w2 r2 =>
          cases v'.sys cfg'.env (fun fs => fs.mtime true abs) with
          | mk w2' r2' =>
            rintro ⟨h2, h3⟩
            simp only at h2 h3; subst h3
            cases r2 with
            | error e => exact ⟨h2, rfl⟩
            | ok t =>
              simp only
              cases newTime mtime with
              | none => exact ⟨h2, rfl⟩
              | some nt =>
                simp only
                split
                · exact h2.reopen hc abs b
                · exact ⟨h2, rfl⟩
    | _ => exact ⟨hv, rfl⟩
  · rw [e1, e2]; exact ⟨hv, rfl⟩

theorem XCfg.writeLink_any {cfg cfg' : XCfg} (hc : CfgSim cfg cfg') {w w' : World} (h : ASim w w') (abs : List Bytes)
    (mtime : Nat) (b : Bytes) : APSim (cfg.writeLink w abs mtime b) (cfg'.writeLink w' abs mtime b) := by
  have h1 := h.sys hc.env (OpSim.symlink b abs)
  simp only [XCfg.writeLink, hc.mode]
  revert h1
  cases w.sys cfg.env (fun fs => fs.symlink b abs) with
  | mk v r =>
    cases w'.sys cfg'.env (fun fs => fs.symlink b abs) with
    | mk v' r' =>
      rintro ⟨hv, h2⟩
      simp only at hv h2; subst h2
      cases r with
      | ok u => exact ⟨hv, rfl⟩
      | error e =>
        cases e with
        | «exists» =>
          cases cfg.mode with
          | skip => exact ⟨hv, rfl⟩
          | warn => exact ⟨hv, rfl⟩
          | error => exact ⟨hv, rfl⟩
          | overwrite => exact hv.relink hc abs b
          | newer =>
            have h2 := hv.sys hc.env (OpSim.mtime false abs)
            simp only
            revert h2
            cases v.sys cfg.env (fun fs => fs.mtime false abs) with
            | mk w2 r2 =>
              cases v'.sys cfg'.env (fun fs => fs.mtime false abs) with
              | mk w2' r2' =>
                rintro ⟨h2, h3⟩
                simp only at h2 h3; subst h3
                cases r2 with
                | error e => exact ⟨h2, rfl⟩
                | ok t =>
                  simp only
                  cases newTime mtime with
                  | none => exact ⟨h2, rfl⟩
                  | some nt =>
                    simp only
                    split
                    · exact h2.relink hc abs b
                    · exact ⟨h2, rfl⟩
        | _ => exact ⟨hv, rfl⟩

def AXSim (c c' : XCtx) : Prop := c.cur = c'.cur ∧ ASim c.w c'.w
def ANever (_ : XCtx) : Prop := False

theorem extractor_any {cfg cfg' : XCfg} (hc : CfgSim cfg cfg') :
    SimOps AXSim ANever (extractor cfg) (extractor cfg') where
  keep := ⟨fun _ _ h => h.elim, fun _ _ h => h.elim, fun _ _ h => h.elim, fun _ _ h => h.elim⟩
  enter := by
    rintro ⟨cur, w⟩ ⟨cur', w'⟩ d ⟨h1, h2⟩
    simp only at h1 h2; subst h1
    simp only [extractor, XCfg.onEnter, hc.should, hc.abs]
    split
    · exact Or.inl ⟨⟨rfl, h2⟩, rfl⟩
    · have := XCfg.mkdirs_any hc h2 (cfg.absPath (RPath.push cur d))
      revert this
      cases cfg.mkdirs w (cfg.absPath (RPath.push cur d)) with
      | mk v r =>
        cases cfg'.mkdirs w' (cfg.absPath (RPath.push cur d)) with
        | mk v' r' =>
          rintro ⟨g1, g2⟩
          simp only at g1 g2; subst g2
          cases r <;> exact Or.inl ⟨⟨rfl, g1⟩, rfl⟩
  exit := by
    rintro ⟨cur, w⟩ ⟨cur', w'⟩ d ⟨h1, h2⟩
    simp only at h1 h2; subst h1
    exact Or.inl ⟨⟨rfl, h2⟩, rfl⟩
  file := by
    rintro ⟨cur, w⟩ ⟨cur', w'⟩ f ⟨h1, h2⟩
    simp only at h1 h2; subst h1
    simp only [extractor, XCfg.onFile, hc.should, hc.abs, hc.bytes]
    split
    · exact Or.inl ⟨⟨rfl, h2⟩, rfl⟩
    · split
      · exact Or.inl ⟨⟨rfl, h2⟩, rfl⟩
      · exact Or.inl ⟨⟨rfl, h2⟩, rfl⟩
      · rename_i b hb
        obtain ⟨g1, g2⟩ := XCfg.writeFile_any hc h2 (cfg.absPath (RPath.push cur f.path)) f.mtime b
        exact Or.inl ⟨⟨rfl, g1⟩, g2⟩
  link := by
    rintro ⟨cur, w⟩ ⟨cur', w'⟩ f ⟨h1, h2⟩
    simp only at h1 h2; subst h1
    simp only [extractor, XCfg.onLink, hc.should, hc.abs]
    split
    · exact Or.inl ⟨⟨rfl, h2⟩, rfl⟩
    · obtain ⟨g1, g2⟩ := XCfg.writeLink_any hc h2 (cfg.absPath (RPath.push cur f.path)) f.mtime f.target
      exact Or.inl ⟨⟨rfl, g1⟩, g2⟩

theorem ASim.init {fs : FS} (h : fs.InosOK) : ASim (World.init fs) (World.init fs) := by
  have hp : Progs (World.init fs) := ⟨by simp [World.init], by intro j t hj; simp [World.init] at hj, h, by intro i hi; simp [World.init] at hi⟩
  exact ⟨⟨rfl, rfl, rfl, fun _ => rfl⟩, rfl, rfl, hp, hp, fun _ _ => rfl, ⟨rfl, rfl⟩, by simp [World.init], by simp [World.init]⟩

end Arx
