import Verif.Model.Reader
import Verif.Model.FsAdder
import Verif.Model.Extract
/-!
# The Python module

Model of /repo/python/src.  A raised exception is `raised`, a Rust panic (pyo3's `PanicException`) is `panic`.
-/
namespace Arx

/-- How a call ends. -/
inductive PyRes where
  | ok | raised | panic
  deriving DecidableEq, Repr

/-! ## `Creator` (/repo/python/src/creator.rs) -/

/-- What decides how `add_from_path` proceeds: the source as the walk sees it, the order in which directories
are listed, a bound of the depth, and the interleaving of the two threads. -/
structure WalkRun where
  src : Src
  ls : ReadDir
  depth : Nat
  sched : List Bool

/-- `FsAdder::add_from_path` (/repo/libarx/src/create/fs_adder.rs:157-197) run to its end. (`panic` if the
schedule does not reach it: then the call has not returned.) -/
def addFromPath (env : CEnv) (pre : RPath) (a : Adder) (root : Bytes) (recurse : Bool) (r : WalkRun) : Adder × AOut :=
  let c := Chan.run env pre root (Chan.start a (walkItems env.cwd r.src r.ls r.depth root recurse)) r.sched
  (c.adder, c.result.getD .panic)

/-- Whether a crash of `add_entry` for this path leaves the children map of the root directory poisoned
(/repo/libarx/src/create/entry_store_creator.rs:83-88): `DirEntry::add` holds the write lock of a directory while it goes into
the next one, so the lock of the root is held exactly if the path has a parent with components. (In a walk only the path given
to `add` can crash: the others end in a name.) -/
def crashPoisons (path : Bytes) : Bool :=
  match RPath.fromPathBuf path with
  | .error _ => false
  | .ok arx =>
    match RPath.parent arx with
    | none => false
    | some p => !(comps p).isEmpty

/-- `FsAdder::add_entry_from_path` (/repo/libarx/src/create/fs_adder.rs:209-246, no prefix) when the children map of the root
directory is poisoned: every access to it (`try_write().unwrap()`, `try_read().unwrap()`:
/repo/libarx/src/create/entry_store_creator.rs:84, 97-98, 170, 205, 223) panics; only a special file at top level does not get
there (lines 143-148). -/
def Adder.addEntryPoisoned (env : CEnv) (s : Adder) (path : Bytes) (follow : Bool) : Adder × AOut :=
  match RPath.fromPathBuf path with
  | .error e => (s, .path e)
  | .ok arx =>
    if arx = [] then (s, .ok)
    else
      match newFromPath env s.tick s.contents (namesOf env.cwd path) arx follow with
      | .error e => ({ s with tick := s.tick + 4 }, .host e)
      | .ok (req, contents) =>
        (⟨s.creator, contents, s.tick + 4⟩,
          match req.kind with
          | .ok none => if crashPoisons path then .panic else .ok
          | _ => .panic)

/-- The adding thread of `add_from_path` with a poisoned map (see `Chan.adderStep`). -/
def Chan.poisonedStep (env : CEnv) (root : RPath) (c : Chan) : Chan :=
  if c.result.isSome then c
  else
    match c.queue with
    | p :: q =>
      match c.adder.addEntryPoisoned env p (decide (stdComps p = stdComps root)) with
      | (a, .ok) => { c with queue := q, adder := a }
      | (a, e) => { c with queue := q, adder := a, result := some e }
    | [] => if c.alive then c else { c with result := some .ok }

/-- `add_from_path` under a schedule, with a poisoned map (see `Chan.run`). -/
def Chan.poisonedRun (env : CEnv) (root : RPath) (c : Chan) : List Bool → Chan
  | [] => c
  | true :: l => Chan.poisonedRun env root c.walkerStep l
  | false :: l => Chan.poisonedRun env root (c.poisonedStep env root) l

/-- `FsAdder::add_from_path` (/repo/libarx/src/create/fs_adder.rs:157-197) with a poisoned map. -/
def addPoisoned (env : CEnv) (a : Adder) (root : Bytes) (recurse : Bool) (r : WalkRun) : Adder × AOut :=
  let c := Chan.poisonedRun env root (Chan.start a (walkItems env.cwd r.src r.ls r.depth root recurse)) r.sched
  (c.adder, c.result.getD .panic)

/-- `struct Creator` (/repo/python/src/creator.rs:15-20), and the archives written so far (`finalize`,
external). `poisoned`: the map of the root directory is, after a crash (a Python program can catch pyo3's `PanicException`
and go on). -/
structure PyCreator where
  started : Bool
  creator : Option Adder
  written : List Adder
  poisoned : Bool

/-- `Creator::new` (lines 25-40). -/
def PyCreator.new : PyCreator := ⟨false, some Adder.new, [], false⟩

/-- Calls. `exit` has the exception of the `with` body, if any, and says whether writing the archive succeeds. -/
inductive PyCall where
  | enter
  | exit (exc : Bool) (writeOk : Bool)
  | add (path : Bytes) (recursive : Bool) (r : WalkRun)

/-- `__enter__` (/repo/python/src/creator.rs:42-51). -/
def PyCreator.enter (c : PyCreator) : PyRes × PyCreator :=
  if c.creator.isNone then (.raised, c)
  else if c.started then (.raised, c)
  else (.ok, { c with started := true })

/-- `__exit__` (/repo/python/src/creator.rs:53-69). With a poisoned map `finalize` panics before anything is written: it starts
with `entry_count` (/repo/libarx/src/create/entry_store_creator.rs:302-304, 323-324). -/
def PyCreator.exit (c : PyCreator) (writeOk : Bool) : PyRes × PyCreator :=
  if !c.started then (.raised, c)
  else
    match c.creator with
    | none => (.raised, { c with started := false })
    | some a =>
      if c.poisoned then (.panic, { c with started := false, creator := none })
      else (if writeOk then .ok else .raised, { c with started := false, creator := none, written := c.written ++ [a] })

/-- `add` (/repo/python/src/creator.rs:74-89). -/
def PyCreator.add (env : CEnv) (c : PyCreator) (path : Bytes) (recursive : Bool) (r : WalkRun) : PyRes × PyCreator :=
  match c.creator with
  | none => (.raised, c)
  | some a =>
    if !c.started then (.raised, c)
    else
      match if c.poisoned then addPoisoned env a path recursive r else addFromPath env [] a path recursive r with
      | (a, .ok) => (.ok, { c with creator := some a })
      | (a, .panic) => (.panic, { c with creator := some a, poisoned := c.poisoned || crashPoisons path })
      | (a, _) => (.raised, { c with creator := some a })

/-- One call. -/
def PyCreator.step (env : CEnv) (c : PyCreator) : PyCall → PyRes × PyCreator
  | .enter => c.enter
  | .exit _ w => c.exit w
  | .add p rec r => c.add env p rec r

/-- A history of calls. -/
def PyCreator.run (env : CEnv) (c : PyCreator) : List PyCall → List PyRes × PyCreator
  | [] => ([], c)
  | x :: xs =>
    let r := c.step env x
    let q := PyCreator.run env r.2 xs
    (r.1 :: q.1, q.2)

/-! ## `Stream` (/repo/python/src/stream.rs) -/

/-- `Stream`: the content and the position of jubako's `ByteStream` (external; reading the content is assumed
not to fail). -/
structure PyStream where
  content : Bytes
  offset : Nat
  deriving DecidableEq

/-- `size` (lines 27-29). -/
def PyStream.size (s : PyStream) : Nat := s.content.length
/-- `size_left` (lines 34-36). -/
def PyStream.sizeLeft (s : PyStream) : Nat := s.content.length - s.offset
/-- `tell` (lines 39-41). -/
def PyStream.tell (s : PyStream) : Nat := s.offset
/-- `read` (/repo/python/src/stream.rs:13-24). -/
def PyStream.read (s : PyStream) (size : Nat) : Bytes × PyStream :=
  let size := min size s.sizeLeft
  ((s.content.drop s.offset).take size, { s with offset := s.offset + size })

/-- Several reads. -/
def PyStream.reads (s : PyStream) : List Nat → List Bytes × PyStream
  | [] => ([], s)
  | n :: ns =>
    let r := s.read n
    let q := PyStream.reads r.2 ns
    (r.1 :: q.1, q.2)

/-! ## `Arx`, `Entry` and `EntryIter` -/

abbrev FullEntry := Entry FileEntry LinkEntry DirEntry

/-- `EntryIter` (/repo/python/src/iterator.rs:10-32). -/
structure PyIter where
  start : Nat
  stop : Nat

/-- `new_from_range`, `new_from_index` (lines 18-32). -/
def PyIter.new (r : Range) : PyIter := ⟨r.offset, r.offset + r.count⟩

/-- `__next__` (/repo/python/src/iterator.rs:39-51): nothing at the end. -/
def PyIter.next (a : Archive) (i : PyIter) : Except RErr (Option FullEntry) × PyIter :=
  if i.start = i.stop then (.ok none, i)
  else
    match a.getEntryAt fullBuilder i.start with
    | .error e => (.error e, i)
    | .ok e => (.ok (some e), { i with start := i.start + 1 })

/-- What the first `n` calls of `__next__` give (a `for` loop makes them until one gives nothing or raises). -/
def PyIter.nexts (a : Archive) : Nat → PyIter → List (Except RErr (Option FullEntry))
  | 0, _ => []
  | n + 1, i =>
    let r := i.next a
    r.1 :: PyIter.nexts a n r.2

/-- `Arx.__iter__` (/repo/python/src/arx.rs:101-104). -/
def pyIterRoot (a : Archive) : PyIter := .new a.root

/-- `Entry.__iter__` (/repo/python/src/entry.rs:191-199); `none`: TypeError. -/
def pyIterEntry : FullEntry → Option PyIter
  | .dir r _ => some (.new r)
  | _ => none

/-- `Entry.nb_children` (/repo/python/src/entry.rs:181-186). -/
def pyNbChildren : FullEntry → Option Nat
  | .dir r _ => some r.count
  | _ => none

/-- `Entry.first_child` (/repo/python/src/entry.rs:171-176). -/
def pyFirstChild : FullEntry → Option Nat
  | .dir r _ => some r.offset
  | _ => none

/-- Name and metadata of an entry. -/
def pyCommon : FullEntry → CommonPart
  | .file e => e.common
  | .link e => e.common
  | .dir _ e => e.common

/-- `Entry.parent` (/repo/python/src/entry.rs:64-81). -/
def pyParent (a : Archive) (e : FullEntry) : Except RErr (Option FullEntry) :=
  match (pyCommon e).parent with
  | none => .ok none
  | some i =>
    match a.getEntryAt fullBuilder i with
    | .error e => .error e
    | .ok p => .ok (some p)

/-- `Entry.path` (/repo/python/src/entry.rs:54-60): panics if the name is not UTF-8. -/
def pyPath (e : FullEntry) : Except Unit Bytes :=
  if validUtf8 (pyCommon e).path then .ok (pyCommon e).path else .error ()

/-- `Entry.__eq__` (/repo/python/src/entry.rs:201-203). -/
def pyEq (e f : FullEntry) : Bool := (pyCommon e).idx == (pyCommon f).idx

/-- What getting the content of an entry gives. -/
inductive PyContent where
  | stream (s : PyStream)
  | typeError            -- not a file
  | osError              -- the pack is missing
  | panic
  deriving DecidableEq

/-- `Arx.get_content` (/repo/python/src/arx.rs:97-99, 51-63). -/
def pyGetContent (bytes : ContentAddr → GetBytes) (c : ContentAddr) : PyContent :=
  match bytes c with
  | .err => .panic
  | .missing => .osError
  | .found b => .stream ⟨b, 0⟩

/-- `Entry.get_content` (/repo/python/src/entry.rs:151-156). -/
def pyContent (bytes : ContentAddr → GetBytes) : FullEntry → PyContent
  | .file f => pyGetContent bytes f.content
  | _ => .typeError

/-- `Entry.get_content_address` (/repo/python/src/entry.rs:141-146); `none`: TypeError. -/
def pyContentAddress : FullEntry → Option ContentAddr
  | .file f => some f.content
  | _ => none

/-- `Entry.__repr__` (/repo/python/src/entry.rs:27-39): panics if the name is not UTF-8. -/
def pyRepr (e : FullEntry) : Except Unit Bytes :=
  if validUtf8 (pyCommon e).path then
    .ok ((match e with
      | .file _ => ascii "File("
      | .link _ => ascii "Link("
      | .dir _ _ => ascii "Dir(") ++ (pyCommon e).path ++ ascii ")")
  else .error ()

/-- `Entry.get_target` (/repo/python/src/entry.rs:161-166); `none`: TypeError. -/
def pyTarget : FullEntry → Option Bytes
  | .link l => some l.target
  | _ => none

/-- How `Arx.get_entry` ends when it gives no entry. -/
inductive PyGetErr where
  | runtime        -- the path is not relative
  | unicode        -- `PyUnicodeDecodeError::new_err` with one argument (raises, in fact, a TypeError)
  | value          -- no such entry
  | panic
  deriving DecidableEq, Repr

/-- `Arx.get_entry` (/repo/python/src/arx.rs:79-94). -/
def pyGetEntry (a : Archive) (path : Bytes) : Except PyGetErr FullEntry :=
  match RPath.fromPathBuf path with
  | .error .nonRelative => .error .runtime
  | .error .nonUtf8 => .error .unicode
  | .error .badSeparator => .error .runtime
  | .ok p =>
    match a.getEntry fullBuilder p with
    | .ok e => .ok e
    | .error .panic => .error .panic
    | .error _ => .error .value

/-- `Arx.extract` (/repo/python/src/arx.rs:108-118): everything, existing files are kept (`Overwrite::Warn`). -/
def pyExtract (a : Archive) (bytes : ContentAddr → GetBytes) (env : Env) (cwd : List Bytes) (path : Bytes) (depth : Nat)
    (fs : FS) (last : List (Nat × WriteRes)) : World × XResult :=
  ({ a := a, bytes := bytes, files := [], recurse := true, base := baseNames cwd path, mode := .warn, env := env } : XCfg).extract
    depth fs last

end Arx
