import Verif.Model.HostFs
import Verif.Model.Walk
import Verif.Model.ArxFs
/-!
# Extraction

Model of /repo/libarx/src/tools.rs.  Progress output and log messages are not modelled.
-/
namespace Arx

/-- `FileEntry` (/repo/libarx/src/tools.rs:18-22). -/
structure XFile where
  path : Bytes
  content : ContentAddr
  mtime : Nat
  deriving DecidableEq, Repr

/-- `Link` (/repo/libarx/src/tools.rs:24-28). -/
structure XLink where
  path : Bytes
  target : Bytes
  mtime : Nat
  deriving DecidableEq, Repr

/-- `FileBuilder`, `LinkBuilder`, `DirBuilder` (/repo/libarx/src/tools.rs:30-114): names and link targets
must be UTF-8. -/
def extractBuilder : Builder XFile XLink Bytes where
  file _ r := if validUtf8 r.name then .ok ⟨r.name, r.content, r.mtime⟩ else .error .notUtf8
  link _ r :=
    if !validUtf8 r.name then .error .notUtf8
    else if !validUtf8 r.target then .error .notUtf8
    else .ok ⟨r.name, r.target, r.mtime⟩
  dir _ r := if validUtf8 r.name then .ok r.name else .error .notUtf8

/-- `Overwrite` (/repo/libarx/src/tools.rs:118-126). -/
inductive Overwrite where
  | skip | warn | newer | overwrite | error
  deriving DecidableEq, Repr

/-- The fields of `Extractor` (/repo/libarx/src/tools.rs:128-140), the content packs, and the
environment. `base` are the names of the (absolute) output directory. -/
structure XCfg where
  a : Archive
  bytes : ContentAddr → GetBytes
  files : List RPath
  recurse : Bool
  base : List Bytes
  mode : Overwrite
  env : Env

/-- The chain of `parent()`s of a path (the `while let Some(p) = parent` loops of
/repo/libarx/src/tools.rs:154-160, 166-172). The first argument bounds the iterations. -/
def ancestors : Nat → RPath → List RPath
  | 0, _ => []
  | f + 1, p =>
    match RPath.parent p with
    | none => []
    | some q => q :: ancestors f q

/-- `self.files.contains(p)`: equality of relative paths. -/
def XCfg.contains (cfg : XCfg) (p : RPath) : Bool := cfg.files.any (fun f => RPath.eqv f p)

/-- `should_extract` (/repo/libarx/src/tools.rs:143-176). -/
def XCfg.shouldExtract (cfg : XCfg) (cur : RPath) (isDir : Bool) : Bool :=
  if cfg.files.isEmpty then true
  else if cfg.contains cur then true
  else if cfg.recurse && (ancestors (cur.length + 2) cur).any (fun p => cfg.contains p) then true
  else if isDir && cfg.files.any (fun f => (ancestors (f.length + 2) f).any (fun p => RPath.eqv cur p)) then true
  else false

/-- `abs_path` (/repo/libarx/src/tools.rs:177-179), `RelativePath::to_path`. -/
def XCfg.absPath (cfg : XCfg) (cur : RPath) : List Bytes := cfg.base ++ comps cur

/-- Errors of the extractor: a system call, "File … already exists", or a panic. -/
inductive EErr where
  | host (e : HErr)
  | already
  | panic
  deriving DecidableEq, Repr

/-- The walker's context (`current_path`) and the world. -/
structure XCtx where
  cur : RPath
  w : World

/-- nanoseconds of `UNIX_EPOCH + Duration::from_secs(mtime)`; panics when `SystemTime` overflows. -/
def newTime (mtime : Nat) : Option Int := if mtime < 2 ^ 63 then some (mtime * 1000000000) else none

/-- `create_dir_all` as called by the extractor. -/
def XCfg.mkdirs (cfg : XCfg) (w : World) (p : List Bytes) : World × Except EErr Unit :=
  match World.createDirAll cfg.env (p.length + 1) w p with
  | (w, .ok ()) => (w, .ok ())
  | (w, .error e) => (w, .error (.host e))

/-- `self.scope.spawn(…)` (/repo/libarx/src/tools.rs:277-297). -/
def World.spawn (w : World) (ino : Nat) (b : Bytes) : World :=
  { w with tasks := w.tasks ++ [⟨ino, b, 0, .running⟩] }

/-- The body of `on_file` for found content (/repo/libarx/src/tools.rs:234-297). -/
def XCfg.writeFile (cfg : XCfg) (w : World) (abs : List Bytes) (mtime : Nat) (b : Bytes) : World × Except EErr Unit :=
  let reopen (w : World) : World × Except EErr Unit :=
    match w.sys cfg.env (fun fs => fs.openTrunc abs) with
    | (w, .error e) => (w, .error (.host e))
    | (w, .ok ino) => (w.spawn ino b, .ok ())
  match w.sys cfg.env (fun fs => fs.createNew abs) with
  | (w, .ok ino) => (w.spawn ino b, .ok ())
  | (w, .error .exists) =>
    match cfg.mode with
    | .skip => (w, .ok ())
    | .warn => (w, .ok ())
    | .newer =>
      match w.sys cfg.env (fun fs => fs.mtime true abs) with
      | (w, .error e) => (w, .error (.host e))
      | (w, .ok existing) =>
        match newTime mtime with
        | none => (w, .error .panic)
        | some new => if new ≥ existing then reopen w else (w, .ok ())
    | .overwrite => reopen w
    | .error => (w, .error .already)
  | (w, .error e) => (w, .error (.host e))

/-- `on_file` (/repo/libarx/src/tools.rs:220-314). The context path is not changed (a clone is pushed). -/
def XCfg.onFile (cfg : XCfg) (c : XCtx) (e : XFile) : XCtx × Except EErr Unit :=
  let cur := RPath.push c.cur e.path
  if !cfg.shouldExtract cur false then (c, .ok ())
  else
    match cfg.bytes e.content with
    | .err => (c, .error .panic)                          -- `.unwrap()` at line 230
    | .missing => (c, .ok ())                             -- lines 299-306: only logged
    | .found b =>
      let r := cfg.writeFile c.w (cfg.absPath cur) e.mtime b
      ({ c with w := r.1 }, r.2)

/-- The body of `on_link` for a selected link (/repo/libarx/src/tools.rs:322-352). -/
def XCfg.writeLink (cfg : XCfg) (w : World) (abs : List Bytes) (mtime : Nat) (target : Bytes) :
    World × Except EErr Unit :=
  let replace (w : World) : World × Except EErr Unit :=
    match w.sys cfg.env (fun fs => fs.removeFile abs) with
    | (w, .error e) => (w, .error (.host e))
    | (w, .ok ()) =>
      match w.sys cfg.env (fun fs => fs.symlink target abs) with
      | (w, .error e) => (w, .error (.host e))
      | (w, .ok ()) => (w, .ok ())
  match w.sys cfg.env (fun fs => fs.symlink target abs) with
  | (w, .ok ()) => (w, .ok ())
  | (w, .error .exists) =>
    match cfg.mode with
    | .skip => (w, .ok ())
    | .warn => (w, .ok ())
    | .newer =>
      match w.sys cfg.env (fun fs => fs.mtime false abs) with
      | (w, .error e) => (w, .error (.host e))
      | (w, .ok existing) =>
        match newTime mtime with
        | none => (w, .error .panic)
        | some new => if new ≥ existing then replace w else (w, .ok ())
    | .overwrite => replace w
    | .error => (w, .error .already)
  | (w, .error e) => (w, .error (.host e))

/-- `on_link` (/repo/libarx/src/tools.rs:315-358). -/
def XCfg.onLink (cfg : XCfg) (c : XCtx) (e : XLink) : XCtx × Except EErr Unit :=
  let cur := RPath.push c.cur e.path
  if !cfg.shouldExtract cur false then (c, .ok ())
  else
    let r := cfg.writeLink c.w (cfg.absPath cur) e.mtime e.target
    ({ c with w := r.1 }, r.2)

/-- `on_directory_enter` (/repo/libarx/src/tools.rs:195-210). -/
def XCfg.onEnter (cfg : XCfg) (c : XCtx) (name : Bytes) : XCtx × Except EErr Bool :=
  let cur := RPath.push c.cur name
  if !cfg.shouldExtract cur true then ({ c with cur := cur }, .ok false)
  else
    match cfg.mkdirs c.w (cfg.absPath cur) with
    | (w, .ok ()) => (⟨cur, w⟩, .ok true)
    | (w, .error e) => (⟨cur, w⟩, .error e)

/-- `impl Operator for Extractor` (/repo/libarx/src/tools.rs:182-359). -/
def extractor (cfg : XCfg) : Operator EErr XCtx XFile XLink Bytes where
  onStart c :=
    let r := cfg.mkdirs c.w cfg.base
    ({ c with w := r.1 }, r.2)
  onStop c := (c, .ok ())
  onEnter c d := cfg.onEnter c d
  onExit c _ := ({ c with cur := RPath.pop c.cur }, .ok ())
  onFile c f := cfg.onFile c f
  onLink c l := cfg.onLink c l

/-- The world in which an extraction starts. -/
def World.init (fs : FS) : World := { fs := fs, tasks := [], okFlag := true, tick := 0 }

/-- What an extraction returns. -/
inductive XResult where
  | ok
  | walk (e : WErr EErr)      -- error (or panic) of the walk
  | writes                    -- "Some errors appends during extraction."
  deriving DecidableEq, Repr

/-- `extract_arx_range` (/repo/libarx/src/tools.rs:403-432). `last` are the writer steps after the walk;
the function returns when every task has ended. -/
def XCfg.extractRange (cfg : XCfg) (depth : Nat) (range : Range) (fs : FS) (last : List (Nat × WriteRes)) :
    World × XResult :=
  let r := cfg.a.walkFrom extractBuilder (extractor cfg) depth range ⟨[], World.init fs⟩
  let w := r.1.w.steps last
  match r.2 with
  | .error e => (w, .walk e)
  | .ok () => (w, if w.okFlag then .ok else .writes)

/-- `extract_arx` (/repo/libarx/src/tools.rs:373-401). -/
def XCfg.extract (cfg : XCfg) (depth : Nat) (fs : FS) (last : List (Nat × WriteRes)) : World × XResult :=
  cfg.extractRange depth cfg.a.root fs last

/-- `extract --root-dir` (/repo/arx/src/extract.rs:117-131): the path must be a relative UTF-8 path and name
a directory. `none`: an error before anything is extracted. -/
def XCfg.extractRoot (cfg : XCfg) (depth : Nat) (root : Bytes) (fs : FS) (last : List (Nat × WriteRes)) :
    Option (World × XResult) :=
  match RPath.fromPathRef root with
  | .error _ => none
  | .ok p =>
    match cfg.a.getEntry (⟨fun _ _ => .ok (), fun _ _ => .ok (), fun _ _ => .ok ()⟩ : Builder Unit Unit Unit) p with
    | .ok (.dir range _) => some (cfg.extractRange depth range fs last)
    | _ => none

end Arx
