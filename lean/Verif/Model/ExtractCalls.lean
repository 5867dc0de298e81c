import Verif.Model.Extract
/-!
# Extraction, seen as the system calls it makes

A second model of /repo/libarx/src/tools.rs, for an extraction that is not alone: other processes may change
the target at any time, so the answer to every call is arbitrary (it may depend on everything that happened
before).  The functions are those of `Verif/Model/Extract.lean`, with the calls made to an environment instead
of a file system; `callExtract_fs` (Props/Calls) proves that the extraction on a file system that only arx
changes is the special case where the environment answers as this file system does.
-/
namespace Arx

/-- The calls made on the target by /repo/libarx/src/tools.rs (lines 187, 206, 235-238, 249, 254-257, 262-265,
285, 323, 332, 336-337, 343-344). `write` is a call of the `task`-th spawned writer on the open file `file`,
whose position is `off` (only this writer uses the handle). -/
inductive XCall where
  | mkdir (p : List Bytes)
  | isDir (p : List Bytes)
  | openNew (p : List Bytes)
  | openTrunc (p : List Bytes)
  | modified (follow : Bool) (p : List Bytes)
  | symlink (target : Bytes) (p : List Bytes)
  | unlink (p : List Bytes)
  | write (task file off : Nat) (s : Bytes)
  deriving DecidableEq, Repr

/-- Answers of the system. `opened` identifies the file (its inode). -/
inductive XAns where
  | done
  | bool (b : Bool)
  | opened (file : Nat)
  | time (t : Int)
  | wrote (k : Nat)
  | err (e : HErr)
  deriving DecidableEq, Repr

/-- What happened so far: the calls with their answers, in order. -/
abbrev XTrace := List (XCall × XAns)

/-- The environment: the answer to a call of the walking thread, and what the writers do before it. Both may
depend on everything that happened before; so this is any behaviour of the system and of other processes. -/
structure CallEnv where
  answer : XTrace → XCall → XAns
  sched : XTrace → List (Nat × WriteRes)

/-- The state of an extraction: calls made so far, writers (`Task.ino` is the open file), and the flag
`extract_ok`. -/
structure CWorld where
  trace : XTrace
  tasks : List Task
  okFlag : Bool

/-- One iteration of the loop of task `i` (/repo/libarx/src/tools.rs:283-296). -/
def CWorld.step (w : CWorld) (x : Nat × WriteRes) : CWorld :=
  match w.tasks[x.1]? with
  | none => w
  | some t =>
    if t.st ≠ .running then w
    else
      match x.2 with
      | .err =>
        { trace := w.trace ++ [(.write x.1 t.ino t.off t.slice, .err .other)]
          tasks := w.tasks.set x.1 { t with st := .failed }, okFlag := false }
      | .wrote k =>
        let n := (t.slice.take k).length
        let off := t.off + n
        { w with
          trace := w.trace ++ [(.write x.1 t.ino t.off t.slice, .wrote n)]
          tasks := w.tasks.set x.1 { t with off := off, st := if off = t.bytes.length then .done else .running } }

/-- Some steps of the writers. -/
def CWorld.steps (w : CWorld) (l : List (Nat × WriteRes)) : CWorld := l.foldl CWorld.step w

/-- One call of the walking thread: some writer steps happen first. -/
def CWorld.call (env : CallEnv) (w : CWorld) (c : XCall) : CWorld × XAns :=
  let w := w.steps (env.sched w.trace)
  ({ w with trace := w.trace ++ [(c, env.answer w.trace c)] }, env.answer w.trace c)

/-- A call that yields nothing; an answer of another kind counts as some error. -/
def CWorld.callUnit (env : CallEnv) (w : CWorld) (c : XCall) : CWorld × Except HErr Unit :=
  match w.call env c with
  | (w, .done) => (w, .ok ())
  | (w, .err e) => (w, .error e)
  | (w, _) => (w, .error .other)

/-- A call that opens a file. -/
def CWorld.callOpen (env : CallEnv) (w : CWorld) (c : XCall) : CWorld × Except HErr Nat :=
  match w.call env c with
  | (w, .opened f) => (w, .ok f)
  | (w, .err e) => (w, .error e)
  | (w, _) => (w, .error .other)

/-- A call that yields a time. -/
def CWorld.callTime (env : CallEnv) (w : CWorld) (c : XCall) : CWorld × Except HErr Int :=
  match w.call env c with
  | (w, .time t) => (w, .ok t)
  | (w, .err e) => (w, .error e)
  | (w, _) => (w, .error .other)

/-- `Path::is_dir` (errors count as "no"). -/
def CWorld.callIsDir (env : CallEnv) (w : CWorld) (p : List Bytes) : CWorld × Bool :=
  match w.call env (.isDir p) with
  | (w, .bool b) => (w, b)
  | (w, _) => (w, false)

/-- `std::fs::create_dir_all` (see `World.createDirAll`), called at /repo/libarx/src/tools.rs:187 and 206. -/
def CWorld.createDirAll (env : CallEnv) : Nat → CWorld → List Bytes → CWorld × Except HErr Unit
  | 0, w, _ => (w, .error .other)
  | f + 1, w, p =>
    match w.callUnit env (.mkdir p) with
    | (w, .ok ()) => (w, .ok ())
    | (w, .error .notFound) =>
      if p = [] then (w, .error .other)
      else
        match CWorld.createDirAll env f w (parentOf p) with
        | (w, .error e) => (w, .error e)
        | (w, .ok ()) =>
          match w.callUnit env (.mkdir p) with
          | (w, .ok ()) => (w, .ok ())
          | (w, .error e) =>
            match w.callIsDir env p with
            | (w, true) => (w, .ok ())
            | (w, false) => (w, .error e)
    | (w, .error e) =>
      match w.callIsDir env p with
      | (w, true) => (w, .ok ())
      | (w, false) => (w, .error e)

/-- `create_dir_all` as called by the extractor. -/
def CWorld.mkdirs (env : CallEnv) (w : CWorld) (p : List Bytes) : CWorld × Except EErr Unit :=
  match CWorld.createDirAll env (p.length + 1) w p with
  | (w, .ok ()) => (w, .ok ())
  | (w, .error e) => (w, .error (.host e))

/-- `self.scope.spawn(…)` (/repo/libarx/src/tools.rs:277-297). -/
def CWorld.spawn (w : CWorld) (file : Nat) (b : Bytes) : CWorld :=
  { w with tasks := w.tasks ++ [⟨file, b, 0, .running⟩] }

/-- The body of `on_file` for found content (/repo/libarx/src/tools.rs:234-297). -/
def CWorld.writeFile (env : CallEnv) (mode : Overwrite) (w : CWorld) (abs : List Bytes) (mtime : Nat) (b : Bytes) :
    CWorld × Except EErr Unit :=
  let reopen (w : CWorld) : CWorld × Except EErr Unit :=
    match w.callOpen env (.openTrunc abs) with
    | (w, .error e) => (w, .error (.host e))
    | (w, .ok f) => (w.spawn f b, .ok ())
  match w.callOpen env (.openNew abs) with
  | (w, .ok f) => (w.spawn f b, .ok ())
  | (w, .error .exists) =>
    match mode with
    | .skip => (w, .ok ())
    | .warn => (w, .ok ())
    | .newer =>
      match w.callTime env (.modified true abs) with
      | (w, .error e) => (w, .error (.host e))
      | (w, .ok existing) =>
        match newTime mtime with
        | none => (w, .error .panic)
        | some new => if new ≥ existing then reopen w else (w, .ok ())
    | .overwrite => reopen w
    | .error => (w, .error .already)
  | (w, .error e) => (w, .error (.host e))

/-- The body of `on_link` for a selected link (/repo/libarx/src/tools.rs:322-352). -/
def CWorld.writeLink (env : CallEnv) (mode : Overwrite) (w : CWorld) (abs : List Bytes) (mtime : Nat) (target : Bytes) :
    CWorld × Except EErr Unit :=
  let replace (w : CWorld) : CWorld × Except EErr Unit :=
    match w.callUnit env (.unlink abs) with
    | (w, .error e) => (w, .error (.host e))
    | (w, .ok ()) =>
      match w.callUnit env (.symlink target abs) with
      | (w, .error e) => (w, .error (.host e))
      | (w, .ok ()) => (w, .ok ())
  match w.callUnit env (.symlink target abs) with
  | (w, .ok ()) => (w, .ok ())
  | (w, .error .exists) =>
    match mode with
    | .skip => (w, .ok ())
    | .warn => (w, .ok ())
    | .newer =>
      match w.callTime env (.modified false abs) with
      | (w, .error e) => (w, .error (.host e))
      | (w, .ok existing) =>
        match newTime mtime with
        | none => (w, .error .panic)
        | some new => if new ≥ existing then replace w else (w, .ok ())
    | .overwrite => replace w
    | .error => (w, .error .already)
  | (w, .error e) => (w, .error (.host e))

/-- The walker's context (`current_path`) and the world. -/
structure CCtx where
  cur : RPath
  w : CWorld

/-- `on_file` (/repo/libarx/src/tools.rs:220-314). (`cfg.env` is not used.) -/
def XCfg.onFileC (cfg : XCfg) (env : CallEnv) (c : CCtx) (e : XFile) : CCtx × Except EErr Unit :=
  let cur := RPath.push c.cur e.path
  if !cfg.shouldExtract cur false then (c, .ok ())
  else
    match cfg.bytes e.content with
    | .err => (c, .error .panic)
    | .missing => (c, .ok ())
    | .found b =>
      let r := c.w.writeFile env cfg.mode (cfg.absPath cur) e.mtime b
      ({ c with w := r.1 }, r.2)

/-- `on_link` (/repo/libarx/src/tools.rs:315-358). -/
def XCfg.onLinkC (cfg : XCfg) (env : CallEnv) (c : CCtx) (e : XLink) : CCtx × Except EErr Unit :=
  let cur := RPath.push c.cur e.path
  if !cfg.shouldExtract cur false then (c, .ok ())
  else
    let r := c.w.writeLink env cfg.mode (cfg.absPath cur) e.mtime e.target
    ({ c with w := r.1 }, r.2)

/-- `on_directory_enter` (/repo/libarx/src/tools.rs:195-210). -/
def XCfg.onEnterC (cfg : XCfg) (env : CallEnv) (c : CCtx) (name : Bytes) : CCtx × Except EErr Bool :=
  let cur := RPath.push c.cur name
  if !cfg.shouldExtract cur true then ({ c with cur := cur }, .ok false)
  else
    match c.w.mkdirs env (cfg.absPath cur) with
    | (w, .ok ()) => (⟨cur, w⟩, .ok true)
    | (w, .error e) => (⟨cur, w⟩, .error e)

/-- `impl Operator for Extractor` (/repo/libarx/src/tools.rs:182-359). -/
def callExtractor (cfg : XCfg) (env : CallEnv) : Operator EErr CCtx XFile XLink Bytes where
  onStart c :=
    let r := c.w.mkdirs env cfg.base
    ({ c with w := r.1 }, r.2)
  onStop c := (c, .ok ())
  onEnter c d := cfg.onEnterC env c d
  onExit c _ := ({ c with cur := RPath.pop c.cur }, .ok ())
  onFile c f := cfg.onFileC env c f
  onLink c l := cfg.onLinkC env c l

/-- `extract_arx_range` (/repo/libarx/src/tools.rs:403-432), see `XCfg.extractRange`. -/
def XCfg.callExtract (cfg : XCfg) (env : CallEnv) (depth : Nat) (range : Range) (last : List (Nat × WriteRes)) :
    CWorld × XResult :=
  let r := cfg.a.walkFrom extractBuilder (callExtractor cfg env) depth range ⟨[], ⟨[], [], true⟩⟩
  let w := r.1.w.steps last
  match r.2 with
  | .error e => (w, .walk e)
  | .ok () => (w, if w.okFlag then .ok else .writes)

/-- Every writer has ended. -/
def CWorld.finished (w : CWorld) : Prop := ∀ t ∈ w.tasks, t.st ≠ .running

instance (w : CWorld) : Decidable w.finished := by unfold CWorld.finished; infer_instance

/-! ## What the calls do on a file system -/

/-- What a call of the walking thread does (see `Verif/Model/HostFs.lean`). -/
def XCall.run (fs : FS) : XCall → Except HErr (XAns × FS)
  | .mkdir p => (fs.mkdir p).map (fun r => (.done, r.2))
  | .isDir p => .ok (.bool (fs.isDir p), fs)
  | .openNew p => (fs.createNew p).map (fun r => (.opened r.1, r.2))
  | .openTrunc p => (fs.openTrunc p).map (fun r => (.opened r.1, r.2))
  | .modified follow p => (fs.mtime follow p).map (fun r => (.time r.1, r.2))
  | .symlink t p => (fs.symlink t p).map (fun r => (.done, r.2))
  | .unlink p => (fs.removeFile p).map (fun r => (.done, r.2))
  | .write _ _ _ _ => .error .other

/-- The file system after a call was answered: a failed call has no effect; a write puts the accepted bytes
at the position of the handle. -/
def FS.afterCall (fs : FS) : XCall × XAns → FS
  | (_, .err _) => fs
  | (.write _ f off s, .wrote k) => fs.setData f ⟨writeAt (fs.data f).bytes off (s.take k), fs.now⟩
  | (c, _) =>
    match c.run fs with
    | .ok (_, fs') => fs'
    | .error _ => fs

end Arx
