import Verif.Proof.Ends
import Mathlib.Data.Nat.Pairing
import Verif.Props.CreateOk
import Verif.Props.Hostile
import Verif.Props.Extract
import Verif.Props.Create
/-!
# C90: the commands end

The schedules of the other properties are finite: they say what is true of a call that has returned. Here schedules go on for
ever, and the calls return under each schedule that gives every thread steps again and again.
-/
namespace Arx

/-! ## Adding -/

/-- **C90, adding.** Whatever is walked, whichever paths cannot be read, whichever calls fail, and in any state: there are one
outcome and one result of `add_from_path` such that under every schedule in which its two threads are given steps again and again
the call returns with them, and its walking thread ends. -/
theorem C90_add_ends (env : CEnv) (pre root : RPath) (a : Adder) (items : List (Except Unit Bytes)) :
    ∃ a' e, ∀ σ : Nat → Bool, BothRun σ → ∃ N, ∀ n, N ≤ n →
      let c := Chan.run env pre root (Chan.start a items) (firstSteps σ n)
      c.result = some e ∧ c.adder = a' ∧ c.alive = false := by
  refine ⟨(a.addSeq env pre root (goodPrefix items)).1, (a.addSeq env pre root (goodPrefix items)).2, fun σ h => ?_⟩
  obtain ⟨N, hN⟩ := Chan.ends h items.length
  refine ⟨N, fun n hn => ?_⟩
  have hend := hN env pre root a items (Nat.le_refl _) n hn
  obtain ⟨e, he⟩ := Option.isSome_iff_exists.mp hend.1
  have := Chan.run_result he
  rw [this]
  exact ⟨he, rfl, hend.2⟩

/-- **C90, adding: how long.** The number of steps depends on the schedule and on the number of walked paths only. -/
theorem C90_add_bound {σ : Nat → Bool} (h : BothRun σ) (k : Nat) :
    ∃ N, ∀ (env : CEnv) (pre root : RPath) (a : Adder) (items : List (Except Unit Bytes)), items.length ≤ k → ∀ n, N ≤ n →
      (Chan.run env pre root (Chan.start a items) (firstSteps σ n)).result ≠ none ∧
      (Chan.run env pre root (Chan.start a items) (firstSteps σ n)).alive = false := by
  obtain ⟨N, hN⟩ := Chan.ends h k
  refine ⟨N, fun env pre root a items hk n hn => ⟨fun e => ?_, (hN env pre root a items hk n hn).2⟩⟩
  have := (hN env pre root a items hk n hn).1
  rw [e] at this
  cases this

/-- a call that has returned does the same under every schedule -/
theorem addFromPath_same {env : CEnv} {pre : RPath} {a : Adder} {f : Bytes} {rc : Bool} {r : WalkRun} {l l' : List Bool}
    (h : (Chan.run env pre f (Chan.start a (walkItems env.cwd r.src r.ls r.depth f rc)) l).result ≠ none)
    (h' : (Chan.run env pre f (Chan.start a (walkItems env.cwd r.src r.ls r.depth f rc)) l').result ≠ none) :
    addFromPath env pre a f rc { r with sched := l } = addFromPath env pre a f rc { r with sched := l' } := by
  obtain ⟨e, he⟩ := Option.ne_none_iff_exists'.mp h
  obtain ⟨e', he'⟩ := Option.ne_none_iff_exists'.mp h'
  have h1 := Chan.run_result he
  have h2 := Chan.run_result he'
  rw [h1] at h2
  simp only [Prod.mk.injEq] at h2
  simp only [addFromPath, he, he', h2.1, h2.2]

theorem addInputs_same {sys sys' : CreateSys} {cwd : List Bytes} {pre : RPath} {rc : Bool} (hc : sys.cenv cwd = sys'.cenv cwd) :
    ∀ (fs : List Bytes) (i : Nat) (a : Adder),
      (∀ j f a, fs[j]? = some f → addFromPath (sys.cenv cwd) pre a f rc (sys.walks (i + j)) =
        addFromPath (sys.cenv cwd) pre a f rc (sys'.walks (i + j))) →
      addInputs sys cwd pre rc a i fs = addInputs sys' cwd pre rc a i fs := by
  intro fs
  induction fs with
  | nil => intro i a _; rfl
  | cons f fs ih =>
    intro i a h
    have h0 := h 0 f a rfl
    simp only [Nat.add_zero] at h0
    rw [addInputs, addInputs, ← hc, ← h0]
    cases addFromPath (sys.cenv cwd) pre a f rc (sys.walks i) with
    | mk a1 e =>
      cases e <;> try rfl
      simp only
      rw [ih (i + 1) a1 (fun j g b hj => by
        have := h (j + 1) g b (by simpa using hj)
        rw [show i + (j + 1) = i + 1 + j by omega] at this
        exact this)]

/-- **C90, `arx create`.** Under every family of schedules in which both threads of every walk are given steps again and
again, there are numbers of steps after which every call of `add_from_path` of the command has returned, and what the command
does and reports is then settled: it is the same for all larger numbers of steps. For all options and everything the command can
find: trees that cannot be read, calls that fail, an archive that cannot be written. -/
theorem C90_create_ends (o : CreateOpts) (sys : CreateSys) {σ : Nat → Nat → Bool} (h : ∀ i, BothRun (σ i)) :
    ∃ (N : Nat → Nat) (evs : List CreateEv) (res : CmdRes), ∀ len : Nat → Nat, (∀ i, N i ≤ len i) →
      (∀ cwd, sys.chdir o.baseDir = some cwd → CallsReturn o (sys.under σ len) cwd) ∧ o.run (sys.under σ len) = (evs, res) := by
  -- the directory the inputs are relative to
  let cwd := (sys.chdir o.baseDir).getD []
  let items : Nat → Bytes → List (Except Unit Bytes) :=
    fun i f => walkItems cwd (sys.walks i).src (sys.walks i).ls (sys.walks i).depth f o.recursion
  have hmem : ∀ {l : List Nat} {x : Nat}, x ∈ l → x ≤ l.sum := by
    intro l
    induction l with
    | nil => intro x hx; cases hx
    | cons y l ih =>
      intro x hx
      rcases List.mem_cons.mp hx with rfl | hx
      · simp
      · have := ih hx; simp only [List.sum_cons]; omega
  have hN : ∀ i, ∃ N, ∀ (env : CEnv) (pre root : RPath) (a : Adder) (l : List (Except Unit Bytes)),
      l.length ≤ (o.infiles.map (fun f => (items i f).length)).sum → ∀ n, N ≤ n →
        (Chan.run env pre root (Chan.start a l) (firstSteps (σ i) n)).result.isSome = true ∧
        (Chan.run env pre root (Chan.start a l) (firstSteps (σ i) n)).alive = false := fun i => Chan.ends (h i) _
  refine ⟨fun i => (hN i).choose, (o.run (sys.under σ fun i => (hN i).choose)).1, (o.run (sys.under σ fun i => (hN i).choose)).2, ?_⟩
  intro len hlen
  have hret : ∀ len : Nat → Nat, (∀ i, (hN i).choose ≤ len i) → ∀ c, sys.chdir o.baseDir = some c → CallsReturn o (sys.under σ len) c := by
    intro len hlen c hc i f hf a
    have hcc : cwd = c := by simp only [cwd, hc]; rfl
    subst hcc
    have hx := (hN i).choose_spec (sys.cenv cwd) (o.stripPrefix.getD []) f a (items i f)
      (hmem (List.mem_map.mpr ⟨f, List.mem_of_getElem? hf, rfl⟩)) (len i) (hlen i)
    refine ⟨fun e => ?_, hx.2⟩
    have e' : (Chan.run (sys.cenv cwd) (o.stripPrefix.getD []) f (Chan.start a (items i f)) (firstSteps (σ i) (len i))).result = none := e
    rw [e'] at hx
    cases hx.1
  refine ⟨hret len hlen, ?_⟩
  show o.run (sys.under σ len) = o.run (sys.under σ fun i => (hN i).choose)
  have hchk : ∀ len, checkOutput (sys.under σ len) = checkOutput sys := fun _ => rfl
  have hdir : ∀ len, (sys.under σ len).chdir o.baseDir = sys.chdir o.baseDir := fun _ => rfl
  unfold CreateOpts.run
  rw [hdir, hdir]
  simp only [hchk]
  show (if _ then _ else _) = (if _ then _ else _)
  cases hc : sys.chdir o.baseDir with
  | none => rfl
  | some c =>
    have hadd : o.addAll (sys.under σ len) c = o.addAll (sys.under σ fun i => (hN i).choose) c := by
      unfold CreateOpts.addAll
      cases o.fileList with
      | some l => rfl
      | none =>
        simp only
        have hi : addInputs (sys.under σ len) c (o.stripPrefix.getD []) o.recursion Adder.new 0 o.infiles =
            addInputs (sys.under σ fun i => (hN i).choose) c (o.stripPrefix.getD []) o.recursion Adder.new 0 o.infiles := by
          refine addInputs_same (sys := sys.under σ len) (sys' := sys.under σ fun i => (hN i).choose) rfl o.infiles 0 Adder.new (fun j f a hj => ?_)
          rw [Nat.zero_add]
          exact addFromPath_same (r := sys.walks j) (hret len hlen c hc j f hj a).1
            (hret _ (fun _ => Nat.le_refl _) c hc j f hj a).1
        have hck : ∀ len, checkInputs (sys.under σ len) c o.infiles = checkInputs sys c o.infiles := fun _ => rfl
        rw [hi, hck, hck]
    simp only [hadd]
    rfl

/-! ## Extracting -/

/-- **C90, extracting.** Let any archive (well formed or not) be extracted, in any overwrite mode, to any file system,
whichever calls and writes fail, and however the writers were scheduled during the walk. Under every schedule after it in which
every writer is given steps again and again in which its `write` takes a byte or fails, all writers end, and then nothing changes
any more: the final state and the result are settled. -/
theorem C90_extract_ends (cfg : XCfg) (depth : Nat) (rg : Range) (before : FS) {τ : Nat → Nat × WriteRes} (h : WritersRun τ) :
    ∃ N w res, w.finished ∧ ∀ n, N ≤ n → cfg.extractRange depth rg before (firstSteps τ n) = (w, res) := by
  obtain ⟨N, v, hv, hN⟩ := h.ends_same (cfg.walk_inRange depth rg before)
  unfold XCfg.extractRange
  cases hr : (cfg.a.walkFrom extractBuilder (extractor cfg) depth rg ⟨[], World.init before⟩).2 with
  | error e => exact ⟨N, v, .walk e, hv, fun n hn => by simp only [hN n hn, hr]⟩
  | ok u => exact ⟨N, v, if v.okFlag then .ok else .writes, hv, fun n hn => by simp only [hN n hn, hr]⟩

/-- **C90, created archives.** Extracting a created archive, or a directory of it, always comes to an end under such a schedule,
and never because the recursion is too deep: there is a finished run, to which all the other properties of extraction apply. -/
theorem C90_created_ends {rs : List AddReq} {m : PathMap} {cfg : XCfg} {rg : Range} {d0 : List Bytes}
    (hs : Source rs m cfg.a rg d0) (before : FS) {τ : Nat → Nat × WriteRes} (h : WritersRun τ) {depth : Nat}
    (hd : cfg.a.entries.length < depth) :
    ∃ N w res, Extraction cfg rg before w.fs res ∧ res ≠ .walk .depth ∧
      ∀ n, N ≤ n → cfg.extractRange depth rg before (firstSteps τ n) = (w, res) := by
  obtain ⟨N, w, res, hf, hN⟩ := C90_extract_ends cfg depth rg before h
  refine ⟨N, w, res, ⟨depth, _, w, hd, hN N (Nat.le_refl _), hf, rfl⟩, ?_, hN⟩
  rintro rfl
  have hw := C57_walk_ends (C57_created_forward hs.written) extractBuilder (extractor cfg) depth hd rg ⟨[], World.init before⟩
  have := hN N (Nat.le_refl _)
  unfold XCfg.extractRange at this
  cases hr : (cfg.a.walkFrom extractBuilder (extractor cfg) depth rg ⟨[], World.init before⟩).2 with
  | error e =>
    simp only [hr, Prod.mk.injEq, XResult.walk.injEq] at this
    exact hw (by rw [hr, this.2])
  | ok u =>
    simp only [hr, Prod.mk.injEq] at this
    obtain ⟨_, this⟩ := this
    split at this <;> cases this

/-- Each hypothesis is needed: a walking thread that gets no steps, and a `write` that never takes a byte of a file that is not
empty, and the calls do not return. -/
theorem C90_needs_steps : (∀ n, (Chan.run exEnv [] (ascii "d") (Chan.start Adder.new [.ok (ascii "d")]) (firstSteps (fun _ => false) n)).result = none) ∧
    ∀ n, ¬ ((exX [] .error).extractRange 5 exArchive.root fs0 (firstSteps (fun _ => (0, .wrote 0)) n)).1.finished := by
  constructor
  · intro n
    have : ∀ l : List Bool, (∀ b ∈ l, b = false) → ∀ c : Chan, c.queue = [] → c.alive = true → c.result = none →
        (Chan.run exEnv [] (ascii "d") c l).result = none := by
      intro l
      induction l with
      | nil => intro _ c _ _ h; exact h
      | cons b l ih =>
        intro hb c h1 h2 h3
        have := hb b (by simp)
        subst this
        have hs : c.adderStep exEnv [] (ascii "d") = c := by unfold Chan.adderStep; simp [h1, h2, h3]
        simp only [Chan.run, hs]
        exact ih (fun x hx => hb x (by simp [hx])) c h1 h2 h3
    exact this _ (by simp [firstSteps]) _ rfl rfl rfl
  · intro n hf
    have hn : ∀ (n : Nat) (w : World) (t : Task), w.tasks[0]? = some t → t.st = .running → t.off = 0 → t.bytes ≠ [] →
        ∃ t', (w.steps (firstSteps (fun _ => (0, WriteRes.wrote 0)) n)).tasks[0]? = some t' ∧ t'.st = .running := by
      intro n
      induction n with
      | zero => intro w t h1 h2 _ _; exact ⟨t, h1, h2⟩
      | succ n ih =>
        intro w t h1 h2 h3 h4
        rw [Nat.add_comm, firstSteps_add, World.steps_append]
        have hlt := (List.getElem?_eq_some_iff.mp h1).1
        have hne : ¬ (0 = t.bytes.length) := fun e => h4 (List.eq_nil_of_length_eq_zero e.symm)
        refine ih _ (t.after 0) ?_ (by simp [Task.after, h3, hne]) (by simp [Task.after, h3]) h4
        show (w.step (0, .wrote 0)).tasks[0]? = _
        unfold World.step
        simp only [h1, h2, ne_eq, not_true, if_false]
        rw [List.getElem?_set_self hlt]
        rfl
    obtain ⟨t', e1, e2⟩ := hn n ((exX [] .error).a.walkFrom extractBuilder (extractor (exX [] .error)) 5 exArchive.root ⟨[], World.init fs0⟩).1.w
      ⟨0, ascii "xyz", 0, .running⟩ (by decide +kernel) rfl rfl (by decide)
    have hw : ((exX [] .error).extractRange 5 exArchive.root fs0 (firstSteps (fun _ => (0, .wrote 0)) n)).1 =
        ((exX [] .error).a.walkFrom extractBuilder (extractor (exX [] .error)) 5 exArchive.root ⟨[], World.init fs0⟩).1.w.steps
          (firstSteps (fun _ => (0, .wrote 0)) n) := by
      unfold XCfg.extractRange
      simp only
      split <;> rfl
    rw [hw] at hf
    exact hf t' (List.mem_of_getElem? e1) e2

/-! ## The hypotheses can be met -/

/-- the threads take turns -/
example : BothRun (fun n => n % 2 == 0) := by
  intro b n
  cases b with
  | true => exact ⟨2 * n, by omega, by simp⟩
  | false => exact ⟨2 * n + 1, by omega, by simp⟩

/-- every writer is given steps again and again, and writes one byte in each -/
def fairWriters (n : Nat) : Nat × WriteRes := ((Nat.unpair n).1, .wrote 1)

theorem fairWriters_run : WritersRun fairWriters :=
  fun i n => ⟨Nat.pair i n, Nat.right_le_pair i n, by simp [fairWriters], by simp [fairWriters]⟩

/-- with it, the extraction of the example ends -/
example : ∃ N w res, Extraction (exX [] .error) exArchive.root fs0 w.fs res ∧ res ≠ .walk .depth ∧
    ∀ n, N ≤ n → (exX [] .error).extractRange 6 exArchive.root fs0 (firstSteps fairWriters n) = (w, res) :=
  C90_created_ends (cfg := exX [] .error) exSource fs0 fairWriters_run (by decide)

/-- and what the command of the example does is settled -/
example : ∃ (N : Nat → Nat) (evs : List CreateEv) (res : CmdRes), ∀ len : Nat → Nat, (∀ i, N i ≤ len i) →
    (∀ cwd, exSys.chdir exCreate.baseDir = some cwd → CallsReturn exCreate (exSys.under (fun _ n => n % 2 == 0) len) cwd) ∧
    exCreate.run (exSys.under (fun _ n => n % 2 == 0) len) = (evs, res) :=
  C90_create_ends exCreate exSys (fun _ b n => by
    cases b with
    | true => exact ⟨2 * n, by omega, by simp⟩
    | false => exact ⟨2 * n + 1, by omega, by simp⟩)

end Arx
