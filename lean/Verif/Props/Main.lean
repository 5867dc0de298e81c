import Verif.Props.Output
import Verif.Props.Hostile
import Verif.Props.Trip
import Verif.Spec.Main
/-!
# C74: exit status and pipes
-/
namespace Arx

theorem Sink.atEnd_spec {cap : Nat} {o : OutEnv} {s : Sink} {w : Bytes} (h : s.Has cap w) (e : Exit) :
    (s.atEnd o e = (w, e)) ∨ ((s.atEnd o e).2 = .signal SIGPIPE ∧ (s.atEnd o e).1 <+: w ∧ o.last < cap) := by
  unfold Sink.atEnd
  split
  · left; rw [h.1]
  · right
    refine ⟨rfl, ?_, ?_⟩
    · rw [← h.1, List.prefix_append_right_inj]; exact List.take_prefix _ _
    · have := h.2; omega

theorem finishPipe_spec {P : Type} {o : OutEnv} {x : (P × Bytes) × Except (WErr Unit) Unit} {y : (P × Sink) × Except (WErr Unit) Unit}
    (h : Tracked Printing (Broken o) x y) (hop : ∀ e, x.2 ≠ .error (.op e)) :
    (finishPipe o y).1 <+: x.1.2 ∧
    ((finishPipe o y).2 = .code 0 → x.2.isOk = true ∧ (finishPipe o y).1 = x.1.2) ∧
    (∀ n, (finishPipe o y).2 = .code n → n ≠ 0 → x.2.isOk = false ∧ (finishPipe o y).1 = x.1.2) ∧
    ((finishPipe o y).2 = .signal SIGPIPE → o.Leaves 9216) ∧
    (x.2 ≠ .error .depth → (∃ n, (finishPipe o y).2 = .code n) ∨ (finishPipe o y).2 = .signal SIGPIPE) := by
  obtain ⟨⟨p, s⟩, r⟩ := y
  obtain ⟨⟨p', w⟩, r'⟩ := x
  rcases h with ⟨h1, h2⟩ | ⟨⟨e, h1⟩, h2⟩
  · simp only at h1
    subst h1
    have h2' : s.Has listCap w := h2.2
    have key : ∀ n, (∀ k, (s.atEnd o (.code n)).2 = .code k → k = n ∧ (s.atEnd o (.code n)).1 = w) ∧ (s.atEnd o (.code n)).1 <+: w ∧
        ((s.atEnd o (.code n)).2 = .signal SIGPIPE → o.Leaves 9216) ∧
        ((∃ k, (s.atEnd o (.code n)).2 = .code k) ∨ (s.atEnd o (.code n)).2 = .signal SIGPIPE) := by
      intro n
      rcases Sink.atEnd_spec (o := o) h2' (.code n) with h | ⟨h3, h4, h5⟩
      · rw [h]
        exact ⟨fun k hk => by cases hk; exact ⟨rfl, rfl⟩, List.prefix_refl _, fun hk => by (cases hk), .inl ⟨n, rfl⟩⟩
      · exact ⟨fun k hk => by (rw [h3] at hk; cases hk), h4, fun _ => .inr h5, .inr h3⟩
    cases r' with
    | ok u =>
      obtain ⟨k1, k2, k3, k4⟩ := key 0
      exact ⟨k2, fun h => ⟨rfl, (k1 0 h).2⟩, fun n h hn => absurd (k1 n h).1 hn, k3, fun _ => k4⟩
    | error e =>
      cases e with
      | op e => exact absurd rfl (hop e)
      | depth =>
        refine ⟨?_, fun h => ?_, fun n h => ?_, fun h => ?_, fun h => absurd rfl h⟩
        · show s.out <+: w
          rw [← h2'.1]; exact List.prefix_append _ _
        · cases h
        · cases h
        · simp [finishPipe, SIGABRT, SIGPIPE] at h
      | read e =>
        have : ∃ n, n ≠ 0 ∧ finishPipe o ((p, s), Except.error (WErr.read e)) = s.atEnd o (.code n) := by
          cases e <;> first | exact ⟨101, by decide, rfl⟩ | exact ⟨1, by decide, rfl⟩
        obtain ⟨n, hn, this⟩ := this
        rw [this]
        obtain ⟨k1, k2, k3, k4⟩ := key n
        exact ⟨k2, fun h => absurd (k1 0 h).1.symm hn, fun k h hk => ⟨rfl, (k1 k h).2⟩, k3, fun _ => k4⟩
  · simp only at h1
    subst h1
    refine ⟨?_, fun h => ?_, fun n h => ?_, fun h => .inl h2.2, fun _ => .inr rfl⟩
    · exact (List.prefix_append _ _).trans h2.1
    · cases h
    · cases h

/-- An operator that never fails makes no walk fail. -/
theorem forEach_ne_op {C X E : Type} {body : C → X → C × Except (WErr E) Unit} (h : ∀ c y e, (body c y).2 ≠ .error (.op e)) :
    ∀ (l : List X) (c : C) (e : E), (forEach body c l).2 ≠ .error (.op e)
  | [], _, _ => by simp [forEach]
  | x :: xs, c, e => by
    have h1 := h c x e
    simp only [forEach]
    revert h1
    cases body c x with
    | mk c' r =>
      intro h1
      cases r with
      | error y => simpa using h1
      | ok u => exact forEach_ne_op h xs c' e

theorem walk_ne_op {a : Archive} {E C F L D : Type} (B : Builder F L D) {op : Operator E C F L D} (hop : op.Eager) (depth : Nat) (c : C) (e : E) :
    (a.walk B op depth c).2 ≠ .error (.op e) := by
  have hr : ∀ (f : Nat) (range : Range) (c : C) (e : E), (a.walkRange B op f range c).2 ≠ .error (.op e) := by
    intro f
    induction f with
    | zero => intro range c e; simp [Archive.walkRange]
    | succ f ih =>
      intro range c e
      unfold Archive.walkRange
      refine forEach_ne_op ?_ _ _ _
      intro c y e
      cases y with
      | error x => simp [walkEntry]
      | ok y =>
        cases y with
        | file x =>
          have := hop.file c x
          simp only [walkEntry]
          revert this
          cases op.onFile c x with | mk c' r => intro h; simp only at h; subst h; simp [liftOp]
        | link x =>
          have := hop.link c x
          simp only [walkEntry]
          revert this
          cases op.onLink c x with | mk c' r => intro h; simp only at h; subst h; simp [liftOp]
        | dir range' d =>
          have := hop.enter c d
          simp only [walkEntry]
          revert this
          cases op.onEnter c d with
          | mk c1 r =>
            intro h
            simp only at h
            subst h
            simp only [if_true]
            have := ih range' c1
            revert this
            cases a.walkRange B op f range' c1 with
            | mk c2 r2 =>
              intro this
              cases r2 with
              | error x => exact this e
              | ok u =>
                have := hop.exit c2 d
                revert this
                simp only
                cases op.onExit c2 d with | mk c' r => intro h; simp only at h; subst h; simp [liftOp]
  unfold Archive.walk Archive.walkFrom
  have := hop.start c
  revert this
  cases op.onStart c with
  | mk c1 r =>
    intro h
    simp only at h
    subst h
    simp only
    have := hr depth a.root c1
    revert this
    cases a.walkRange B op depth a.root c1 with
    | mk c2 r2 =>
      intro this
      cases r2 with
      | error x => exact this e
      | ok u =>
        have := hop.stop c2
        revert this
        simp only
        cases op.onStop c2 with | mk c' r => intro h; simp only at h; subst h; simp [liftOp]

theorem stableLister_eager : stableLister.Eager := ⟨fun _ => rfl, fun _ => rfl, fun _ _ => rfl, fun _ _ => rfl, fun _ _ => rfl, fun _ _ => rfl⟩

theorem listPipe_spec (o : OutEnv) (a : Archive) (stable : Option Nat) (depth : Nat) :
    Delivered (listPipe o (some a) stable depth).1 (listCmd a stable depth).1 ∧
    ((listPipe o (some a) stable depth).2 = .code 0 →
      (listCmd a stable depth).2 = true ∧ (listPipe o (some a) stable depth).1 = (listCmd a stable depth).1) ∧
    (∀ n, (listPipe o (some a) stable depth).2 = .code n → n ≠ 0 →
      (listCmd a stable depth).2 = false ∧ (listPipe o (some a) stable depth).1 = (listCmd a stable depth).1) ∧
    ((listPipe o (some a) stable depth).2 = .signal SIGPIPE → o.Leaves 9216) := by
  cases stable with
  | none =>
    have := finishPipe_spec (a.walk_tracked lightBuilder (lister_tracks o) depth (c1 := ([], [])) (c2 := ([], Sink.new)) ⟨rfl, Sink.Has.new _⟩)
      (walk_ne_op lightBuilder lister_eager depth _)
    exact ⟨this.1, this.2.1, this.2.2.1, this.2.2.2.1⟩
  | some v =>
    unfold listPipe listCmd
    simp only
    split
    · have := finishPipe_spec (a.walk_tracked fullBuilder (stableLister_tracks o) depth (c1 := ([], [])) (c2 := ([], Sink.new)) ⟨rfl, Sink.Has.new _⟩)
        (walk_ne_op fullBuilder stableLister_eager depth _)
      exact ⟨this.1, this.2.1, this.2.2.1, this.2.2.2.1⟩
    · exact ⟨List.prefix_refl _, fun h => by (cases h), fun _ _ _ => ⟨rfl, rfl⟩, fun h => by (cases h)⟩

/-- **C74, `arx list`, both formats, of any archive, to a pipe.** `listCmd` is the listing and the verdict when output cannot fail:
* what the reader gets is the beginning of the listing;
* status 0: the listing worked and the reader got all of it;
* another status: the listing itself failed; the reader got all that was listed before;
* the process is ended by SIGPIPE only if the reader has gone. -/
theorem C74_list_any {sys : MainSys} {a : Archive} {bytes : ContentAddr → GetBytes} (ha : sys.cmd.archive = some (a, bytes)) (stable : Option Nat) :
    ∃ b e, arxMain (command (.list stable)) sys = (.stdout b, e) ∧
      Delivered b (listCmd a stable sys.depth).1 ∧
      (e = .code 0 → (listCmd a stable sys.depth).2 = true ∧ b = (listCmd a stable sys.depth).1) ∧
      (∀ n, e = .code n → n ≠ 0 → (listCmd a stable sys.depth).2 = false ∧ b = (listCmd a stable sys.depth).1) ∧
      (e = .signal SIGPIPE → sys.out.Leaves 9216) := by
  refine ⟨_, _, rfl, ?_⟩
  simp only [ha, Option.map_some]
  exact listPipe_spec sys.out a stable sys.depth

/-- **C74, `arx list` of a created archive to a pipe.** The reader gets one line per entry, all of them and the status is 0; or it gets
the beginning of these lines, has gone, and the process ends by SIGPIPE: never with an error. -/
theorem C74_list {rs : List AddReq} {a : Archive} {m : PathMap} (h : Written rs a) (hm : SpecRun PathMap.empty rs m)
    {sys : MainSys} {bytes : ContentAddr → GetBytes} (ha : sys.cmd.archive = some (a, bytes)) (hd : a.entries.length < sys.depth) :
    ∃ V b e, Listing m [] V ∧ arxMain (command (.list none)) sys = (.stdout b, e) ∧
      ((e = .code 0 ∧ b = V.flatMap (fun p => joinPath p ++ [10])) ∨
       (e = .signal SIGPIPE ∧ b <+: V.flatMap (fun p => joinPath p ++ [10]) ∧ sys.out.Leaves 9216)) := by
  obtain ⟨V, hV, hl⟩ := C11_list h hm sys.depth hd
  refine ⟨V, _, _, hV, rfl, ?_⟩
  simp only [ha, Option.map_some]
  obtain ⟨h1, h2, h3, h4⟩ := listPipe_spec sys.out a none sys.depth
  rw [hl] at h1 h2 h3
  have h5 := (finishPipe_spec (a.walk_tracked lightBuilder (lister_tracks sys.out) sys.depth (c1 := ([], [])) (c2 := ([], Sink.new))
    ⟨rfl, Sink.Has.new _⟩) (walk_ne_op lightBuilder lister_eager sys.depth _)).2.2.2.2 (C57_walk_ends (C57_created_forward h) _ _ _ hd _ _)
  change (∃ n, (listPipe sys.out (some a) none sys.depth).2 = .code n) ∨ (listPipe sys.out (some a) none sys.depth).2 = .signal SIGPIPE at h5
  rcases h5 with ⟨n, hn⟩ | hs
  · by_cases h0 : n = 0
    · subst h0
      exact .inl ⟨hn, (h2 hn).2⟩
    · exact absurd (h3 n hn h0).1 (by simp)
  · exact .inr ⟨hs, h1, h4 hs⟩

theorem copyPipe_spec (o : OutEnv) (ns : List Nat) (b : Bytes) :
    ((copyPipe o ns b).2 = .code 0 ∧ (copyPipe o ns b).1 = b) ∨
    ((copyPipe o ns b).2 = .signal SIGPIPE ∧ (copyPipe o ns b).1 <+: b ∧ o.Leaves 1024) := by
  unfold copyPipe
  have h := Sink.writes_spec (o := o) (chop ns b) (Sink.Has.new dumpCap)
  rw [chop_flatten, List.nil_append] at h
  revert h
  cases Sink.new.writes dumpCap o (chop ns b) with
  | mk s ok =>
    cases ok with
    | true =>
      intro h
      rcases Sink.atEnd_spec (o := o) h (.code 0) with h' | ⟨h3, h4, h5⟩
      · left; simp only [h', and_self]
      · exact .inr ⟨h3, h4, .inr h5⟩
    | false => intro h; exact .inr ⟨rfl, (List.prefix_append _ _).trans h.1, .inl h.2⟩

/-- **C74, `arx dump` to a pipe.** Of a file whose content is there: the reader gets all of the content and the status is 0; or it
gets the beginning, has gone, and the process ends by SIGPIPE. Of anything else, or if the content cannot be read: no output, and the
status is 1. (If the pack with the content is missing: no output, and status 0, see C45.) -/
theorem C74_dump {rs : List AddReq} {a : Archive} {m : PathMap} (h : Written rs a) (hm : SpecRun PathMap.empty rs m)
    {sys : MainSys} {bytes : ContentAddr → GetBytes} (ha : sys.cmd.archive = some (a, bytes)) (path : RPath) (hp : comps path ≠ []) :
    ((∀ n s c, m (comps path) = some n → n.kind ≠ .file s c) → arxMain (command (.dump path)) sys = (.stdout [], .code 1)) ∧
    (∀ n s c, m (comps path) = some n → n.kind = .file s c →
      (bytes c = .err → arxMain (command (.dump path)) sys = (.stdout [], .code 1)) ∧
      (bytes c = .missing → arxMain (command (.dump path)) sys = (.stdout [], .code 0)) ∧
      (∀ content, bytes c = .found content → ∃ b e, arxMain (command (.dump path)) sys = (.stdout b, e) ∧
        ((e = .code 0 ∧ b = content) ∨ (e = .signal SIGPIPE ∧ b <+: content ∧ sys.out.Leaves 1024)))) := by
  have hg := dump_getEntry h hm path hp
  have hrun : arxMain (command (.dump path)) sys =
      (.stdout (dumpPipe sys.out sys.sizes (some (a, bytes)) path).1, (dumpPipe sys.out sys.sizes (some (a, bytes)) path).2) := by
    rw [← ha]; rfl
  constructor
  · intro hno
    rw [hrun]
    cases hk : m (comps path) with
    | none => rw [hk] at hg; simp only at hg; simp only [dumpPipe, hg]
    | some n =>
      rw [hk] at hg
      simp only at hg
      obtain ⟨e, he, h2⟩ := hg
      cases hkk : n.kind with
      | file s c => exact absurd hkk (hno n s c hk)
      | dir => rw [hkk] at h2; obtain ⟨r, rfl⟩ := h2; simp only [dumpPipe, he]
      | link t => rw [hkk] at h2; simp only at h2; subst h2; simp only [dumpPipe, he]
  · intro n s c hk hkk
    rw [hk] at hg
    simp only [hkk] at hg
    obtain ⟨e, he, rfl⟩ := hg
    rw [hrun]
    refine ⟨fun hb => ?_, fun hb => ?_, fun content hb => ⟨_, _, rfl, ?_⟩⟩
    · simp only [dumpPipe, he, hb]
    · simp only [dumpPipe, he, hb]
    · simp only [dumpPipe, he, hb]
      exact copyPipe_spec sys.out sys.sizes content

/-- **C74, the other commands.** `arx create` and `arx mount` end with status 0 exactly if they report success, 1 if they report an
error, 101 if they crash; `arx extract` ends with status 0 exactly if the extraction took place and succeeded, otherwise with
another status or (directories nested for ever) by a signal. The options that print a manual or completions come
before any command: nothing else is done then. -/
theorem C74_status (sys : MainSys) :
    (∀ o, ∃ e, arxMain (command (.create o)) sys = (.create (o.run sys.create).1, e) ∧
      (e = .code 0 ↔ (o.run sys.create).2 = .ok) ∧ (e = .code 1 ↔ (o.run sys.create).2 = .err) ∧ (e = .code 101 ↔ (o.run sys.create).2 = .panic)) ∧
    (∀ o, ∃ e, arxMain (command (.mount o)) sys = (.mount (mountCmd o sys.mount).1, e) ∧
      (e = .code 0 ↔ (mountCmd o sys.mount).2 = .ok) ∧ (e = .code 1 ↔ (mountCmd o sys.mount).2 = .err) ∧
      (e = .code 101 ↔ (mountCmd o sys.mount).2 = .panic)) ∧
    (∀ o, ∃ e, arxMain (command (.extract o)) sys = (.extract ((o.run sys.cmd sys.depth sys.fs sys.last).map (·.1)), e) ∧
      (e = .code 0 ↔ ∃ w, o.run sys.cmd sys.depth sys.fs sys.last = some (w, .ok))) ∧
    (∀ a, a.manPage ≠ none ∨ a.complete = true → ∃ what, (arxMain (.args a) sys).1 = .man what ∨ (arxMain (.args a) sys).1 = .complete) := by
  have hx : ∀ r : CmdRes, (r.exit = .code 0 ↔ r = .ok) ∧ (r.exit = .code 1 ↔ r = .err) ∧ (r.exit = .code 101 ↔ r = .panic) := by intro r; cases r <;> simp [CmdRes.exit]
  have hroot : ∀ (a : Archive) (d : Option Bytes), mountRootCmd a d ≠ .error .ok := by
    intro a d
    unfold mountRootCmd
    cases d with
    | none => simp
    | some p =>
      simp only
      split
      · simp
      · split <;> simp
  refine ⟨fun o => ⟨_, rfl, hx _⟩, fun o => ⟨_, rfl, hx _⟩, fun o => ⟨_, rfl, ?_⟩, fun a ha => ?_⟩
  · show o.exit sys.cmd (o.run sys.cmd sys.depth sys.fs sys.last) = .code 0 ↔ _
    cases hr : o.run sys.cmd sys.depth sys.fs sys.last with
    | none =>
      constructor
      · intro h
        exfalso
        simp only [ExtractOpts.exit] at h
        revert h
        split
        · split
          · rename_i e he
            intro h
            rw [(hx e).1] at h
            subst h
            exact hroot _ _ he
          · intro h; cases h
        · intro h; cases h
      · rintro ⟨w, h⟩; cases h
    | some x =>
      obtain ⟨w, res⟩ := x
      simp only [ExtractOpts.exit, Option.some.injEq, Prod.mk.injEq]
      cases res with
      | ok => simp [XResult.exit]
      | writes => simp [XResult.exit]
      | walk e =>
        cases e with
        | depth => simp [XResult.exit]
        | read e => cases e <;> simp [XResult.exit]
        | op e => cases e <;> simp [XResult.exit]
  · unfold arxMain
    simp only
    cases hm : a.manPage with
    | some what => exact ⟨what, .inl rfl⟩
    | none =>
      rcases ha with ha | ha
      · exact absurd hm ha
      · simp only [ha, if_true]; exact ⟨[], .inr trivial⟩

/-! ### Examples -/

/-- the reader takes two bytes at the third write and goes; a reader that takes no byte (`arx list | true`) -/
def mainSys (out : OutEnv) : MainSys :=
  ⟨exSys, { exCmd with archive := some (exArchive, exBytes) }, ⟨ascii "/", none, none, true, true⟩, out, [], 10, fs0, finish, true⟩

/-- the hypotheses of `C74_list` and `C74_dump` are met, with all outcomes: a reader that stays, one that goes during
the second line, one that is not there at the end (here `C58_counterexample` has a success for a full device) -/
example : (arxMain (command (.list none)) (mainSys fineOut)).2 = .code 0 ∧ (arxMain (command (.list none)) (mainSys brokenOut)).2 = .signal 13 ∧
    (arxMain (command (.list (some 1))) (mainSys brokenOut)).2 = .signal 13 ∧ (arxMain (command (.list (some 2))) (mainSys fineOut)).2 = .code 1 ∧
    (arxMain (command (.list none)) (mainSys fullOut)).2 = .signal 13 ∧ (arxMain (command (.dump (ascii "b/x"))) (mainSys fullOut)).2 = .signal 13 ∧
    (arxMain (command (.dump (ascii "b/x"))) (mainSys fineOut)).2 = .code 0 ∧ (arxMain (command (.dump (ascii "b"))) (mainSys fineOut)).2 = .code 1 ∧
    (arxMain (command (.dump (ascii ""))) (mainSys fineOut)).2 = .code 101 ∧ (arxMain (command (.create exCreate)) (mainSys fineOut)).2 = .code 0 := by
  refine ⟨by decide +kernel, by decide +kernel, by decide +kernel, by decide +kernel, by decide +kernel, by decide +kernel, by decide +kernel,
    by decide +kernel, by decide +kernel, by decide +kernel⟩

example : Written exReqs exArchive ∧ SpecRun PathMap.empty exReqs exMap ∧ exArchive.entries.length < (mainSys fineOut).depth :=
  ⟨exWritten, exMap_spec, by decide⟩

end Arx
