import Verif.Spec.Ends
import Verif.Proof.AdderProof
import Verif.Proof.ExtractGen
import Verif.Proof.ExtractSched
/-!
# Fair schedules end
-/
namespace Arx

/-! ## Schedules -/

theorem firstSteps_add {α : Type} (σ : Nat → α) (n m : Nat) :
    firstSteps σ (n + m) = firstSteps σ n ++ firstSteps (fun k => σ (n + k)) m := by
  simp [firstSteps, List.range_add, Function.comp_def]

theorem firstSteps_le {α : Type} (σ : Nat → α) {n m : Nat} (h : n ≤ m) : ∃ l, firstSteps σ m = firstSteps σ n ++ l :=
  ⟨_, by rw [← firstSteps_add σ n (m - n)]; congr 1; omega⟩

theorem BothRun.shift {σ : Nat → Bool} (h : BothRun σ) (n : Nat) : BothRun (fun k => σ (n + k)) := by
  intro b m
  obtain ⟨k, h1, h2⟩ := h b (n + m)
  exact ⟨k - n, by omega, by simp only; rw [show n + (k - n) = k by omega]; exact h2⟩

/-- enough steps of a thread -/
theorem BothRun.many {σ : Nat → Bool} (h : BothRun σ) (b : Bool) : ∀ c, ∃ N, c ≤ (firstSteps σ N).count b := by
  intro c
  induction c with
  | zero => exact ⟨0, Nat.zero_le _⟩
  | succ c ih =>
    obtain ⟨N, hN⟩ := ih
    obtain ⟨k, h1, h2⟩ := h b N
    refine ⟨k + 1, ?_⟩
    obtain ⟨l, hl⟩ := firstSteps_le σ h1
    rw [firstSteps_add, hl, List.count_append, List.count_append]
    have : firstSteps (fun j => σ (k + j)) 1 = [b] := by simp [firstSteps, h2]
    rw [this]
    simp only [List.count_singleton_self]
    omega

/-! ## `add_from_path` -/

section
variable (env : CEnv) (pre root : RPath)

theorem Chan.adderStep_todo (c : Chan) : (c.adderStep env pre root).todo = c.todo ∧ (c.adderStep env pre root).alive = c.alive ∧
    (c.adderStep env pre root).queue.length ≤ c.queue.length := by
  unfold Chan.adderStep
  repeat' split
  all_goals first
    | exact ⟨rfl, rfl, Nat.le_refl _⟩
    | (refine ⟨rfl, rfl, ?_⟩; simp_all)

theorem Chan.walkerStep_result (c : Chan) : c.walkerStep.result = c.result ∧
    c.walkerStep.queue.length + c.walkerStep.todo.length ≤ c.queue.length + c.todo.length := by
  unfold Chan.walkerStep
  repeat' split
  all_goals refine ⟨rfl, ?_⟩
  all_goals simp_all
  all_goals omega

theorem Chan.run_dead : ∀ (l : List Bool) (c : Chan), c.alive = false → (Chan.run env pre root c l).alive = false := by
  intro l
  induction l with
  | nil => intro c h; exact h
  | cons b l ih =>
    intro c h
    cases b with
    | true => exact ih _ (by unfold Chan.walkerStep; simp [h])
    | false => exact ih _ (by rw [(c.adderStep_todo env pre root).2.1]; exact h)

theorem Chan.run_walker : ∀ (l : List Bool) (c : Chan), c.todo.length < l.count true → (Chan.run env pre root c l).alive = false := by
  intro l
  induction l with
  | nil => intro c h; simp at h
  | cons b l ih =>
    intro c h
    cases b with
    | true =>
      simp only [List.count_cons_self] at h
      simp only [Chan.run]
      unfold Chan.walkerStep
      repeat' split
      · rename_i h1; exact Chan.run_dead env pre root l _ (by simpa using h1)
      · exact Chan.run_dead env pre root l _ rfl
      · exact Chan.run_dead env pre root l _ rfl
      · exact Chan.run_dead env pre root l _ rfl
      · rename_i h1 _
        rw [h1] at h
        exact ih _ (by simp at h ⊢; omega)
    | false =>
      simp only [Chan.run]
      refine ih _ ?_
      rw [(c.adderStep_todo env pre root).1]
      rw [List.count_cons_of_ne (by simp)] at h
      exact h

theorem Chan.run_size : ∀ (l : List Bool) (c : Chan),
    (Chan.run env pre root c l).queue.length + (Chan.run env pre root c l).todo.length ≤ c.queue.length + c.todo.length := by
  intro l
  induction l with
  | nil => intro c; exact Nat.le_refl _
  | cons b l ih =>
    intro c
    cases b with
    | true => exact Nat.le_trans (ih _) c.walkerStep_result.2
    | false =>
      refine Nat.le_trans (ih _) ?_
      obtain ⟨h1, _, h2⟩ := c.adderStep_todo env pre root
      rw [h1]; omega

theorem Chan.run_returned : ∀ (l : List Bool) (c : Chan), c.result.isSome = true →
    (Chan.run env pre root c l).result.isSome = true := by
  intro l
  induction l with
  | nil => intro c h; exact h
  | cons b l ih =>
    intro c h
    cases b with
    | true => exact ih _ (by rw [c.walkerStep_result.1]; exact h)
    | false => exact ih _ (by unfold Chan.adderStep; rw [if_pos h]; exact h)

theorem Chan.run_adder : ∀ (l : List Bool) (c : Chan), c.alive = false → c.queue.length < l.count false →
    (Chan.run env pre root c l).result.isSome = true := by
  intro l
  induction l with
  | nil => intro c _ h; simp at h
  | cons b l ih =>
    intro c ha h
    cases b with
    | true =>
      simp only [Chan.run]
      have : c.walkerStep = c := by unfold Chan.walkerStep; simp [ha]
      rw [this]
      rw [List.count_cons_of_ne (by simp)] at h
      exact ih c ha h
    | false =>
      simp only [List.count_cons_self] at h
      simp only [Chan.run]
      by_cases hr : (c.adderStep env pre root).result.isSome = true
      · exact Chan.run_returned env pre root l _ hr
      · refine ih _ (by rw [(c.adderStep_todo env pre root).2.1]; exact ha) ?_
        revert hr
        unfold Chan.adderStep
        repeat' split
        all_goals simp_all
        all_goals omega

end

/-- both threads end, after a number of steps that depends only on the schedule and the number of items -/
theorem Chan.ends {σ : Nat → Bool} (h : BothRun σ) (k : Nat) : ∃ N, ∀ (env : CEnv) (pre root : RPath) (a : Adder) (items : List (Except Unit Bytes)),
    items.length ≤ k → ∀ n, N ≤ n →
      (Chan.run env pre root (Chan.start a items) (firstSteps σ n)).result.isSome = true ∧
      (Chan.run env pre root (Chan.start a items) (firstSteps σ n)).alive = false := by
  obtain ⟨N1, h1⟩ := h.many true (k + 1)
  obtain ⟨N2, h2⟩ := (h.shift N1).many false (k + 1)
  refine ⟨N1 + N2, fun env pre root a items hk n hn => ?_⟩
  obtain ⟨l, hl⟩ := firstSteps_le σ hn
  rw [hl, firstSteps_add, Chan.run_append, Chan.run_append]
  have hdead := Chan.run_walker env pre root (firstSteps σ N1) (Chan.start a items)
    (by simp only [Chan.start]; omega)
  have hsize := Chan.run_size env pre root (firstSteps σ N1) (Chan.start a items)
  have hd2 := Chan.run_dead env pre root (firstSteps (fun j => σ (N1 + j)) N2) _ hdead
  refine ⟨Chan.run_returned env pre root l _ ?_, Chan.run_dead env pre root l _ hd2⟩
  refine Chan.run_adder env pre root _ _ hdead ?_
  simp only [Chan.start, List.length_nil, Nat.zero_add] at hsize
  simp only [Chan.start] at hsize ⊢
  omega

/-! ## Writers -/

/-- what a writer still has to do -/
def Task.left (t : Task) : Nat := if t.st = .running then t.bytes.length - t.off + 1 else 0

/-- the writer after a `write` of at most `k` bytes -/
def Task.after (t : Task) (k : Nat) : Task :=
  ⟨t.ino, t.bytes, t.off + (t.slice.take k).length, if t.off + (t.slice.take k).length = t.bytes.length then .done else .running⟩

def World.left (w : World) : Nat := (w.tasks.map Task.left).sum

/-- no writer is beyond the end of its content -/
def World.InRange (w : World) : Prop := ∀ t ∈ w.tasks, t.off ≤ t.bytes.length

theorem sum_set {l : List Task} : ∀ {i : Nat} {t t' : Task}, l[i]? = some t →
    ((l.set i t').map Task.left).sum + t.left = (l.map Task.left).sum + t'.left := by
  induction l with
  | nil => intro i t t' h; simp at h
  | cons x l ih =>
    intro i t t' h
    cases i with
    | zero =>
      simp only [List.getElem?_cons_zero, Option.some.injEq] at h
      subst h
      simp only [List.set_cons_zero, List.map_cons, List.sum_cons]
      omega
    | succ i =>
      simp only [List.getElem?_cons_succ] at h
      have := ih (t' := t') h
      simp only [List.set_cons_succ, List.map_cons, List.sum_cons]
      omega

theorem World.step_inRange {w : World} (h : w.InRange) (x : Nat × WriteRes) : (w.step x).InRange := by
  unfold World.step
  cases ht : w.tasks[x.1]? with
  | none => exact h
  | some t =>
    have hm := List.mem_of_getElem? ht
    simp only
    split
    · exact h
    · cases x.2 with
      | err =>
        intro t' ht'
        rcases List.mem_or_eq_of_mem_set ht' with h1 | rfl
        · exact h t' h1
        · exact h t hm
      | wrote k =>
        intro t' ht'
        rcases List.mem_or_eq_of_mem_set ht' with h1 | rfl
        · exact h t' h1
        · exact t.slice_le (h t hm) k

theorem World.steps_inRange : ∀ (l : List (Nat × WriteRes)) {w : World}, w.InRange → (w.steps l).InRange := by
  intro l
  induction l with
  | nil => intro w h; exact h
  | cons x l ih => intro w h; exact ih (w.step_inRange h x)

/-- a step never makes more work, and less if it is one of a running writer that gets on -/
theorem World.step_left {w : World} (h : w.InRange) (x : Nat × WriteRes) :
    (w.step x).left ≤ w.left ∧
    ∀ t, w.tasks[x.1]? = some t → t.st = .running → x.2 ≠ .wrote 0 → (w.step x).left < w.left := by
  unfold World.step World.left
  cases ht : w.tasks[x.1]? with
  | none => exact ⟨Nat.le_refl _, fun t e => by cases e⟩
  | some t =>
    have hm := h t (List.mem_of_getElem? ht)
    simp only
    by_cases hst : t.st = .running
    · have hl : t.left = t.bytes.length - t.off + 1 := by simp [Task.left, hst]
      rw [if_neg (by simp [hst])]
      cases hx : x.2 with
      | err =>
        have := sum_set (t' := { t with st := .failed }) ht
        have h0 : Task.left { t with st := .failed } = 0 := by simp [Task.left]
        simp only
        exact ⟨by omega, fun _ _ _ _ => by omega⟩
      | wrote k =>
        simp only
        have := sum_set (t' := t.after k) ht
        change ((w.tasks.set x.1 (t.after k)).map Task.left).sum ≤ _ ∧
          ∀ t' : Task, some t = some t' → t'.st = .running → WriteRes.wrote k ≠ .wrote 0 → ((w.tasks.set x.1 (t.after k)).map Task.left).sum < _
        have hle := t.slice_le hm k
        by_cases he : t.off + (t.slice.take k).length = t.bytes.length
        · have h0 : (t.after k).left = 0 := by simp only [Task.left, Task.after, if_pos he]; simp
          exact ⟨by omega, fun _ _ _ _ => by omega⟩
        · have h0 : (t.after k).left = t.bytes.length - (t.off + (t.slice.take k).length) + 1 := by
            simp only [Task.left, Task.after, if_neg he, if_true]
          refine ⟨by omega, fun _ _ _ hne => ?_⟩
          have hk : k ≠ 0 := by rintro rfl; exact hne rfl
          have : 0 < (t.slice.take k).length ∨ t.off = t.bytes.length := by
            by_cases h1 : t.off = t.bytes.length
            · exact Or.inr h1
            · left
              have : 0 < t.slice.length := by
                simp only [Task.slice, Task.subSize, List.length_take, List.length_drop]
                omega
              rw [List.length_take]; omega
          rcases this with h1 | h1
          · omega
          · rw [h1] at he hle
            omega
    · rw [if_pos hst]
      exact ⟨Nat.le_refl _, fun t' e hr => by cases e; exact absurd hr hst⟩

theorem World.steps_left : ∀ (l : List (Nat × WriteRes)) {w : World}, w.InRange → (w.steps l).left ≤ w.left := by
  intro l
  induction l with
  | nil => intro w _; exact Nat.le_refl _
  | cons x l ih => intro w h; exact Nat.le_trans (ih (w.step_inRange h x)) (w.step_left h x).1

theorem World.step_finished {w : World} (h : w.finished) (x : Nat × WriteRes) : w.step x = w := by
  unfold World.step
  cases ht : w.tasks[x.1]? with
  | none => rfl
  | some t =>
    simp only
    rw [if_pos (h t (List.mem_of_getElem? ht))]

theorem World.steps_finished : ∀ (l : List (Nat × WriteRes)) {w : World}, w.finished → w.steps l = w := by
  intro l
  induction l with
  | nil => intro w _; rfl
  | cons x l ih => intro w h; show (w.step x).steps l = w; rw [w.step_finished h x]; exact ih h

theorem World.steps_append (w : World) (l k : List (Nat × WriteRes)) : w.steps (l ++ k) = (w.steps l).steps k := by
  simp [World.steps, List.foldl_append]

/-- a running writer stays as it is, at its place, if others step -/
theorem World.step_other {w : World} {x : Nat × WriteRes} {i : Nat} (h : x.1 ≠ i) : (w.step x).tasks[i]? = w.tasks[i]? := by
  unfold World.step
  split
  · rfl
  · split
    · rfl
    · split <;> simp [List.getElem?_set, h]

theorem WritersRun.shift {τ : Nat → Nat × WriteRes} (h : WritersRun τ) (n : Nat) : WritersRun (fun k => τ (n + k)) := by
  intro i m
  obtain ⟨k, h1, h2⟩ := h i (n + m)
  exact ⟨k - n, by omega, by simp only; rw [show n + (k - n) = k by omega]; exact h2⟩

/-- a running writer: after a while there is less to do -/
theorem WritersRun.progress {τ : Nat → Nat × WriteRes} (h : WritersRun τ) {w : World} (hw : w.InRange) {t : Task} (ht : t ∈ w.tasks)
    (hr : t.st = .running) : ∃ N, (w.steps (firstSteps τ N)).left < w.left := by
  obtain ⟨i, hi⟩ := List.mem_iff_getElem?.mp ht
  obtain ⟨k, _, h1, h2⟩ := h i 0
  -- up to step `k`, either the work gets less, or the writer still runs
  have key : ∀ j, (∃ N, (w.steps (firstSteps τ N)).left < w.left) ∨
      ∃ t', (w.steps (firstSteps τ j)).tasks[i]? = some t' ∧ t'.st = .running := by
    intro j
    induction j with
    | zero => exact Or.inr ⟨t, hi, hr⟩
    | succ j ih =>
      rcases ih with h0 | ⟨t', e1, e2⟩
      · exact Or.inl h0
      · have hs : w.steps (firstSteps τ (j + 1)) = (w.steps (firstSteps τ j)).step (τ j) := by
          rw [firstSteps_add, World.steps_append]; rfl
        have hin := World.steps_inRange (firstSteps τ j) hw
        have hle := World.steps_left (firstSteps τ j) hw
        by_cases hx : (τ j).1 = i
        · by_cases hz : (τ j).2 = .wrote 0
          · have hlt := (List.getElem?_eq_some_iff.mp e1).1
            have hstep : ((w.steps (firstSteps τ j)).step (τ j)).tasks[i]? = some (t'.after 0) := by
              unfold World.step
              rw [hx, e1]
              simp only [e2, ne_eq, not_true, if_false, hz]
              rw [List.getElem?_set_self hlt]
              rfl
            by_cases he : t'.off = t'.bytes.length
            · left
              refine ⟨j + 1, ?_⟩
              rw [hs]
              have hsum := sum_set (t' := t'.after 0) e1
              have hl : t'.left = t'.bytes.length - t'.off + 1 := by simp [Task.left, e2]
              have h0 : (t'.after 0).left = 0 := by simp [Task.left, Task.after, he]
              have heq : ((w.steps (firstSteps τ j)).step (τ j)).left =
                  (((w.steps (firstSteps τ j)).tasks.set i (t'.after 0)).map Task.left).sum := by
                unfold World.step World.left
                rw [hx, e1]
                simp only [e2, ne_eq, not_true, if_false, hz]
                rfl
              rw [heq]
              unfold World.left at hle ⊢
              omega
            · right
              rw [hs]
              exact ⟨_, hstep, by simp [Task.after, he]⟩
          · left
            refine ⟨j + 1, ?_⟩
            rw [hs]
            exact Nat.lt_of_lt_of_le ((World.step_left hin (τ j)).2 t' (by rw [hx]; exact e1) e2 hz) hle
        · exact Or.inr ⟨t', by rw [hs, World.step_other hx]; exact e1, e2⟩
  rcases key k with h0 | ⟨t', e1, e2⟩
  · exact h0
  · refine ⟨k + 1, ?_⟩
    have hs : w.steps (firstSteps τ (k + 1)) = (w.steps (firstSteps τ k)).step (τ k) := by
      rw [firstSteps_add, World.steps_append]; rfl
    rw [hs]
    exact Nat.lt_of_lt_of_le ((World.step_left (World.steps_inRange _ hw) (τ k)).2 t' (by rw [h1]; exact e1) e2 h2)
      (World.steps_left _ hw)

/-- every writer ends -/
theorem WritersRun.ends : ∀ (m : Nat) {τ : Nat → Nat × WriteRes}, WritersRun τ → ∀ {w : World}, w.InRange → w.left ≤ m →
    ∃ N, (w.steps (firstSteps τ N)).finished := by
  intro m
  induction m with
  | zero =>
    intro τ h w hw hm
    refine ⟨0, fun t ht hr => ?_⟩
    obtain ⟨N, hN⟩ := h.progress hw ht hr
    omega
  | succ m ih =>
    intro τ h w hw hm
    by_cases hf : w.finished
    · exact ⟨0, hf⟩
    · have : ∃ t, t ∈ w.tasks ∧ t.st = .running := by
        apply Classical.byContradiction
        intro hn
        exact hf (fun t ht hr => hn ⟨t, ht, hr⟩)
      obtain ⟨t, ht, hr⟩ := this
      obtain ⟨N, hN⟩ := h.progress hw ht hr
      obtain ⟨M, hM⟩ := ih (h.shift N) (World.steps_inRange (firstSteps τ N) hw) (by omega)
      refine ⟨N + M, ?_⟩
      rw [firstSteps_add, World.steps_append]
      exact hM

/-- and nothing changes after that -/
theorem WritersRun.ends_same {τ : Nat → Nat × WriteRes} (h : WritersRun τ) {w : World} (hw : w.InRange) :
    ∃ N v, v.finished ∧ ∀ n, N ≤ n → w.steps (firstSteps τ n) = v := by
  obtain ⟨N, hN⟩ := WritersRun.ends w.left h hw (Nat.le_refl _)
  refine ⟨N, _, hN, fun n hn => ?_⟩
  obtain ⟨l, hl⟩ := firstSteps_le τ hn
  rw [hl, World.steps_append, World.steps_finished l hN]

/-! ## The walk of an extraction, in every overwrite mode -/

theorem World.sys_inRange {α : Type} (env : Env) (op : FS → Except HErr (α × FS)) {w : World} (h : w.InRange) :
    (w.sys env op).1.InRange := by
  have hp : (w.pre env).InRange := World.steps_inRange _ h
  rcases w.sys_cases env op with ⟨e, h1, _⟩ | ⟨x, fs, _, _, h1⟩
  · rw [h1]; exact hp
  · rw [h1]; exact hp

theorem World.spawn_inRange {w : World} (h : w.InRange) (i : Nat) (b : Bytes) : (w.spawn i b).InRange := by
  intro t ht
  rcases List.mem_append.mp ht with h1 | h1
  · exact h t h1
  · simp only [List.mem_singleton] at h1
    subst h1
    exact Nat.zero_le _

theorem inRange_worldInv : WorldInv World.InRange where
  steps w l h := World.steps_inRange l h
  tick _ _ h := h
  mkdir _ _ _ h _ := h
  create _ _ b i _ h _ := World.spawn_inRange (w := _) h i b
  symlink _ _ _ _ h _ := h

theorem XCfg.writeFile_inRange (cfg : XCfg) {w : World} (abs : List Bytes) (mt : Nat) (b : Bytes) (h : w.InRange) :
    (cfg.writeFile w abs mt b).1.InRange := by
  have hopen : ∀ {w : World}, w.InRange →
      (match w.sys cfg.env (fun fs => fs.openTrunc abs) with
        | (w, .error e) => (w, (Except.error (EErr.host e) : Except EErr Unit))
        | (w, .ok ino) => (w.spawn ino b, Except.ok ())).1.InRange := by
    intro w h
    have := w.sys_inRange cfg.env (fun fs => fs.openTrunc abs) h
    revert this
    cases w.sys cfg.env (fun fs => fs.openTrunc abs) with
    | mk w' r =>
      intro h
      cases r with
      | error e => exact h
      | ok i => exact World.spawn_inRange h i b
  have h1 := w.sys_inRange cfg.env (fun fs => fs.createNew abs) h
  simp only [XCfg.writeFile]
  revert h1
  cases w.sys cfg.env (fun fs => fs.createNew abs) with
  | mk w1 r1 =>
    intro h1
    cases r1 with
    | ok i => exact World.spawn_inRange h1 i b
    | error e =>
      cases e with
      | «exists» =>
        simp only
        cases cfg.mode with
        | skip => exact h1
        | warn => exact h1
        | error => exact h1
        | overwrite => exact hopen h1
        | newer =>
          simp only
          have h2 := w1.sys_inRange cfg.env (fun fs => fs.mtime true abs) h1
          revert h2
          cases w1.sys cfg.env (fun fs => fs.mtime true abs) with
          | mk w2 r2 =>
            intro h2
            cases r2 with
            | error e => exact h2
            | ok t =>
              simp only
              cases newTime mt with
              | none => exact h2
              | some u =>
                simp only
                split
                · exact hopen h2
                · exact h2
      | _ => exact h1

theorem XCfg.writeLink_inRange (cfg : XCfg) {w : World} (abs : List Bytes) (mt : Nat) (t : Bytes) (h : w.InRange) :
    (cfg.writeLink w abs mt t).1.InRange := by
  have hrep : ∀ {w : World}, w.InRange →
      (match w.sys cfg.env (fun fs => fs.removeFile abs) with
        | (w, .error e) => (w, (Except.error (EErr.host e) : Except EErr Unit))
        | (w, .ok ()) =>
          match w.sys cfg.env (fun fs => fs.symlink t abs) with
          | (w, .error e) => (w, .error (.host e))
          | (w, .ok ()) => (w, .ok ())).1.InRange := by
    intro w h
    have h1 := w.sys_inRange cfg.env (fun fs => fs.removeFile abs) h
    revert h1
    cases w.sys cfg.env (fun fs => fs.removeFile abs) with
    | mk w1 r1 =>
      intro h1
      cases r1 with
      | error e => exact h1
      | ok u =>
        simp only
        have h2 := w1.sys_inRange cfg.env (fun fs => fs.symlink t abs) h1
        revert h2
        cases w1.sys cfg.env (fun fs => fs.symlink t abs) with
        | mk w2 r2 => cases r2 <;> exact id
  have h1 := w.sys_inRange cfg.env (fun fs => fs.symlink t abs) h
  simp only [XCfg.writeLink]
  revert h1
  cases w.sys cfg.env (fun fs => fs.symlink t abs) with
  | mk w1 r1 =>
    intro h1
    cases r1 with
    | ok i => exact h1
    | error e =>
      cases e with
      | «exists» =>
        simp only
        cases cfg.mode with
        | skip => exact h1
        | warn => exact h1
        | error => exact h1
        | overwrite => exact hrep h1
        | newer =>
          simp only
          have h2 := w1.sys_inRange cfg.env (fun fs => fs.mtime false abs) h1
          revert h2
          cases w1.sys cfg.env (fun fs => fs.mtime false abs) with
          | mk w2 r2 =>
            intro h2
            cases r2 with
            | error e => exact h2
            | ok u =>
              simp only
              cases newTime mt with
              | none => exact h2
              | some v =>
                simp only
                split
                · exact hrep h2
                · exact h2
      | _ => exact h1

theorem extractor_inRange (cfg : XCfg) : (extractor cfg).Keeps (fun c => c.w.InRange) where
  enter c d hc := by
    simp only [extractor, XCfg.onEnter]
    split
    · exact hc
    · have := XCfg.mkdirs_inv inRange_worldInv cfg c.w (cfg.absPath (RPath.push c.cur d)) hc
      revert this
      cases cfg.mkdirs c.w (cfg.absPath (RPath.push c.cur d)) with
      | mk w r => intro h; cases r <;> exact h
  exit c d hc := hc
  file c f hc := by
    simp only [extractor, XCfg.onFile]
    split
    · exact hc
    · split
      · exact hc
      · exact hc
      · exact cfg.writeFile_inRange _ _ _ hc
  link c l hc := by
    simp only [extractor, XCfg.onLink]
    split
    · exact hc
    · exact cfg.writeLink_inRange _ _ _ hc

/-- whatever the extraction did, its writers are in range when the walk is over -/
theorem XCfg.walk_inRange (cfg : XCfg) (depth : Nat) (rg : Range) (fs : FS) :
    (cfg.a.walkFrom extractBuilder (extractor cfg) depth rg ⟨[], World.init fs⟩).1.w.InRange :=
  cfg.a.walkFrom_inv extractBuilder (extractor_inRange cfg)
    (fun c hc => XCfg.mkdirs_inv inRange_worldInv cfg c.w cfg.base hc) (fun c hc => hc) depth rg ⟨[], World.init fs⟩
    (by intro t ht; cases ht)

end Arx
