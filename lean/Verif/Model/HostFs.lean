import Verif.Base.RelPath
/-!
# The file system an archive is extracted to, and the writer tasks

External to arx: a POSIX file system seen through the calls `std::fs` makes for
/repo/libarx/src/tools.rs.  A canonical absolute path is the list of its names (the root is `[]`).

Simplifications: no other process changes the file system during the extraction; the clock does not
advance during the extraction; creating or removing an entry does not change the modification time of its
directory; permissions, disk limits and name length limits are not modelled but any call may fail
(`Env.fault`) without effect.
-/
namespace Arx

/-- A directory entry: directory, regular file (an inode number), or symbolic link. -/
inductive FNode where
  | dir (mtime : Int)
  | file (ino : Nat)
  | link (target : Bytes) (mtime : Int)
  deriving DecidableEq, Repr

/-- Content of an inode; modification time in nanoseconds. -/
structure FData where
  bytes : Bytes
  mtime : Int
  deriving DecidableEq, Repr

/-- The state of the file system. Inodes from `next` on are unused. -/
structure FS where
  nodes : List Bytes → Option FNode
  data : Nat → FData
  next : Nat
  now : Int

/-- Errors of file system calls (`std::io::ErrorKind`). `other` stands for anything else (permission
denied, no space left, I/O error, …). -/
inductive HErr where
  | exists | notFound | notDir | isDir | loop | inval | other
  deriving DecidableEq, Repr

/-! ## Path resolution (`path_resolution(7)`) -/

/-- Where a path leads: to an existing entry, or to a free name in an existing directory. -/
inductive Loc where
  | found (p : List Bytes)
  | missing (d : List Bytes) (n : Bytes)
  deriving DecidableEq, Repr

/-- What a trailing separator adds to the names of a path: as in POSIX, `p/` means `p/.`. -/
def trailing (p : Bytes) : List Bytes := if p.getLast? = some SEP then [CUR] else []

/-- Resolve the names `todo` starting in directory `cur`. `retry` continues after a symbolic link. -/
def resAux (fs : FS) (follow : Bool) (retry : List Bytes → List Bytes → Except HErr Loc) :
    List Bytes → List Bytes → Except HErr Loc
  | [], cur => .ok (.found cur)
  | c :: rest, cur =>
    if c = CUR then resAux fs follow retry rest cur
    else if c = PARENT then resAux fs follow retry rest cur.dropLast
    else
      match fs.nodes (cur ++ [c]) with
      | none => if rest = [] then .ok (.missing cur c) else .error .notFound
      | some (.dir _) => resAux fs follow retry rest (cur ++ [c])
      | some (.file _) => if rest = [] then .ok (.found (cur ++ [c])) else .error .notDir
      | some (.link t _) =>
        if rest = [] ∧ follow = false then .ok (.found (cur ++ [c]))
        else retry (comps t ++ trailing t ++ rest) (if t.head? = some SEP then [] else cur)

/-- Resolution with at most `budget` symbolic links. -/
def resolveN (fs : FS) (follow : Bool) : Nat → List Bytes → List Bytes → Except HErr Loc
  | 0, _, _ => .error .loop
  | n + 1, todo, cur => resAux fs follow (resolveN fs follow n) todo cur

/-- Resolve an absolute path. `follow`: also if the last name is a symbolic link. A NUL byte is refused
by `std`. -/
def FS.resolve (fs : FS) (follow : Bool) (p : List Bytes) : Except HErr Loc :=
  if p.any (fun c => c.contains 0) then .error .inval else resolveN fs follow 41 p []

/-! ## Calls -/

def FS.set (fs : FS) (p : List Bytes) (n : Option FNode) : FS :=
  { fs with nodes := fun q => if q = p then n else fs.nodes q }

def FS.setData (fs : FS) (ino : Nat) (d : FData) : FS :=
  { fs with data := fun i => if i = ino then d else fs.data i }

/-- `mkdir(2)`. -/
def FS.mkdir (fs : FS) (p : List Bytes) : Except HErr (Unit × FS) :=
  match fs.resolve false p with
  | .error e => .error e
  | .ok (.found _) => .error .exists
  | .ok (.missing d n) => .ok ((), fs.set (d ++ [n]) (some (.dir fs.now)))

/-- `Path::is_dir` (errors count as "no"). -/
def FS.isDir (fs : FS) (p : List Bytes) : Bool :=
  match fs.resolve true p with
  | .ok (.found q) => match fs.nodes q with
    | some (.dir _) => true
    | _ => false
  | _ => false

/-- `OpenOptions::new().write(true).create_new(true).open`: `O_CREAT|O_EXCL|O_WRONLY`. Yields the inode. -/
def FS.createNew (fs : FS) (p : List Bytes) : Except HErr (Nat × FS) :=
  match fs.resolve false p with
  | .error e => .error e
  | .ok (.found _) =>
    if p.getLast? = some CUR ∨ p.getLast? = some PARENT then .error .isDir else .error .exists
  | .ok (.missing d n) =>
    .ok (fs.next, { (fs.set (d ++ [n]) (some (.file fs.next))).setData fs.next ⟨[], fs.now⟩ with next := fs.next + 1 })

/-- `OpenOptions::new().write(true).truncate(true).open`: `O_TRUNC|O_WRONLY`. Yields the inode. -/
def FS.openTrunc (fs : FS) (p : List Bytes) : Except HErr (Nat × FS) :=
  match fs.resolve true p with
  | .error e => .error e
  | .ok (.missing _ _) => .error .notFound
  | .ok (.found q) =>
    match fs.nodes q with
    | some (.file ino) => .ok (ino, fs.setData ino ⟨[], fs.now⟩)
    | _ => .error .isDir

/-- modification time of a directory entry -/
def FS.mtimeAt (fs : FS) (q : List Bytes) : Except HErr (Int × FS) :=
  match fs.nodes q with
  | none => .error .notFound
  | some (.dir t) => .ok (t, fs)
  | some (.file ino) => .ok ((fs.data ino).mtime, fs)
  | some (.link _ t) => .ok (t, fs)

/-- `metadata(p)?.modified()?` (`follow`) or `symlink_metadata(p)?.modified()?`. -/
def FS.mtime (fs : FS) (follow : Bool) (p : List Bytes) : Except HErr (Int × FS) :=
  match fs.resolve follow p with
  | .error e => .error e
  | .ok (.missing _ _) => .error .notFound
  | .ok (.found q) => fs.mtimeAt q

/-- `symlink(target, p)`. -/
def FS.symlink (fs : FS) (target : Bytes) (p : List Bytes) : Except HErr (Unit × FS) :=
  if target.contains 0 then .error .inval
  else if target = [] then .error .notFound
  else
    match fs.resolve false p with
    | .error e => .error e
    | .ok (.found _) => .error .exists
    | .ok (.missing d n) => .ok ((), fs.set (d ++ [n]) (some (.link target fs.now)))

/-- `remove_file`: `unlink(2)`. -/
def FS.removeFile (fs : FS) (p : List Bytes) : Except HErr (Unit × FS) :=
  match fs.resolve false p with
  | .error e => .error e
  | .ok (.missing _ _) => .error .notFound
  | .ok (.found q) =>
    match fs.nodes q with
    | some (.dir _) => .error .isDir
    | _ => .ok ((), fs.set q none)

/-- `write(2)` at the position `off` of the open file. -/
def writeAt (b : Bytes) (off : Nat) (s : Bytes) : Bytes :=
  b.take off ++ List.replicate (off - b.length) 0 ++ s ++ b.drop (off + s.length)

/-! ## Writer tasks -/

inductive TState where
  | running | done | failed
  deriving DecidableEq, Repr

/-- One spawned writer (/repo/libarx/src/tools.rs:277-297): the open file, the content, and the local
variable `offset`. -/
structure Task where
  ino : Nat
  bytes : Bytes
  off : Nat
  st : TState
  deriving DecidableEq, Repr

/-- Outcome of one `write` call: how many bytes the system accepts at most, or an error (also an error
of `get_slice`). -/
inductive WriteRes where
  | wrote (k : Nat)
  | err
  deriving DecidableEq, Repr

/-- File system, writer tasks, the shared flag `extract_ok`, and the number of calls made so far by the
walking thread. -/
structure World where
  fs : FS
  tasks : List Task
  okFlag : Bool
  tick : Nat

/-- What the environment decides: which calls fail for an external reason, and which writer steps happen
before each call of the walking thread. -/
structure Env where
  fault : Nat → Bool
  sched : Nat → List (Nat × WriteRes)

/-- `sub_size` (/repo/libarx/src/tools.rs:284). -/
def Task.subSize (t : Task) : Nat := min (t.bytes.length - t.off) (4 * 1024)

/-- The slice passed to `write` (/repo/libarx/src/tools.rs:285). -/
def Task.slice (t : Task) : Bytes := (t.bytes.drop t.off).take t.subSize

/-- One iteration of the loop of task `i` (/repo/libarx/src/tools.rs:283-296). -/
def World.step (w : World) (x : Nat × WriteRes) : World :=
  match w.tasks[x.1]? with
  | none => w
  | some t =>
    if t.st ≠ .running then w
    else
      match x.2 with
      | .err => { w with tasks := w.tasks.set x.1 { t with st := .failed }, okFlag := false }
      | .wrote k =>
        let s := t.slice.take k
        let off := t.off + s.length
        { w with
          fs := w.fs.setData t.ino ⟨writeAt (w.fs.data t.ino).bytes t.off s, w.fs.now⟩
          tasks := w.tasks.set x.1 { t with off := off, st := if off = t.bytes.length then .done else .running } }

/-- Some steps of the writer tasks. -/
def World.steps (w : World) (l : List (Nat × WriteRes)) : World := l.foldl World.step w

/-- The writer steps that happen before a call of the walking thread. -/
def World.pre (env : Env) (w : World) : World := { w.steps (env.sched w.tick) with tick := w.tick + 1 }

/-- One file system call of the walking thread: some writer steps happen first, the call may fail. -/
def World.sys {α : Type} (env : Env) (w : World) (op : FS → Except HErr (α × FS)) : World × Except HErr α :=
  if env.fault w.tick then (w.pre env, .error .other)
  else
    match op (w.pre env).fs with
    | .error e => (w.pre env, .error e)
    | .ok (x, fs) => ({ w.pre env with fs := fs }, .ok x)

/-- `Path::is_dir` as a call. -/
def World.isDir (env : Env) (w : World) (p : List Bytes) : World × Bool :=
  match w.sys env (fun fs => .ok (fs.isDir p, fs)) with
  | (w, .ok b) => (w, b)
  | (w, .error _) => (w, false)

/-- `Path::parent` on the names of an absolute path. -/
def parentOf (p : List Bytes) : List Bytes := (p.filter (fun c => decide (c ≠ CUR))).dropLast

/-- `std::fs::create_dir_all` (std's `DirBuilder::create_dir_all`). The first argument bounds the
recursion; the number of names suffices. -/
def World.createDirAll (env : Env) : Nat → World → List Bytes → World × Except HErr Unit
  | 0, w, _ => (w, .error .other)
  | f + 1, w, p =>
    match w.sys env (fun fs => fs.mkdir p) with
    | (w, .ok ()) => (w, .ok ())
    | (w, .error .notFound) =>
      if p = [] then (w, .error .other)                   -- "failed to create whole tree"
      else
        match World.createDirAll env f w (parentOf p) with
        | (w, .error e) => (w, .error e)
        | (w, .ok ()) =>
          match w.sys env (fun fs => fs.mkdir p) with
          | (w, .ok ()) => (w, .ok ())
          | (w, .error e) =>
            match w.isDir env p with
            | (w, true) => (w, .ok ())
            | (w, false) => (w, .error e)
    | (w, .error e) =>
      match w.isDir env p with
      | (w, true) => (w, .ok ())
      | (w, false) => (w, .error e)

/-- no write fails (used in statements only) -/
def NoErr (l : List (Nat × WriteRes)) : Prop := ∀ x ∈ l, x.2 ≠ .err

/-- Every writer task has ended (`rayon::scope` returns only then). -/
def World.finished (w : World) : Prop := ∀ t ∈ w.tasks, t.st ≠ .running

instance (w : World) : Decidable w.finished := by unfold World.finished; infer_instance

end Arx
