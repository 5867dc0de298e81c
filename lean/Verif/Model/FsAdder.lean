import Verif.Model.HostFs
import Verif.Model.ArxFs
/-!
# Adding from the file system

Model of /repo/libarx/src/create/fs_adder.rs (Unix).  The source file system is the one of `HostFs.lean`
plus owner, group and mode of every entry, and special files (FIFO, socket, device: a `file` whose inode is
`special`).  Paths are resolved name by name; `p/` means `p/.`.  Log messages are not modelled.
-/
namespace Arx

/-- The source file system at one moment. `ids q`: uid, gid and `st_mode` of the entry at `q`. -/
structure Src where
  fs : FS
  ids : List Bytes → Nat × Nat × Nat
  special : Nat → Bool

/-- The file types `std::fs::Metadata` distinguishes. -/
inductive SKind where
  | dir | file (len : Nat) | link | other
  deriving DecidableEq, Repr

/-- The fields of `std::fs::Metadata` that are used. `mtime`: seconds (`st_mtime`, can be negative). -/
structure Stat where
  kind : SKind
  uid : Nat
  gid : Nat
  mode : Nat
  mtime : Int
  deriving DecidableEq, Repr

/-- Seconds of a time in nanoseconds. -/
def seconds (t : Int) : Int := t.fdiv 1000000000

/-- Metadata of the entry at the canonical path `q`. -/
def Src.statAt (s : Src) (q : List Bytes) : Except HErr Stat :=
  let st (k : SKind) (t : Int) : Stat := ⟨k, (s.ids q).1, (s.ids q).2.1, (s.ids q).2.2, seconds t⟩
  match s.fs.nodes q with
  | none => .error .notFound
  | some (.dir t) => .ok (st .dir t)
  | some (.link _ t) => .ok (st .link t)
  | some (.file i) =>
    let d := s.fs.data i
    .ok (if s.special i then st .other d.mtime else st (.file d.bytes.length) d.mtime)

/-- `std::fs::symlink_metadata`. -/
def Src.lstat (s : Src) (p : List Bytes) : Except HErr Stat :=
  match s.fs.resolve false p with
  | .error e => .error e
  | .ok (.missing _ _) => .error .notFound
  | .ok (.found q) => s.statAt q

/-- `std::fs::canonicalize`. -/
def Src.canonicalize (s : Src) (p : List Bytes) : Except HErr (List Bytes) :=
  match s.fs.resolve true p with
  | .error e => .error e
  | .ok (.missing _ _) => .error .notFound
  | .ok (.found q) => .ok q

/-- Read a whole file. -/
def Src.readFile (s : Src) (p : List Bytes) : Except HErr Bytes :=
  match s.fs.resolve true p with
  | .error e => .error e
  | .ok (.missing _ _) => .error .notFound
  | .ok (.found q) =>
    match s.fs.nodes q with
    | some (.file i) => if s.special i then .error .other else .ok (s.fs.data i).bytes
    | _ => .error .isDir

/-- `std::fs::read_link`. -/
def Src.readLink (s : Src) (p : List Bytes) : Except HErr Bytes :=
  match s.fs.resolve false p with
  | .error e => .error e
  | .ok (.missing _ _) => .error .notFound
  | .ok (.found q) =>
    match s.fs.nodes q with
    | some (.link t _) => .ok t
    | _ => .error .inval

/-- What the environment decides: the state of the source at each call (other processes may change it
between two calls), which calls fail for an external reason, and the current directory. -/
structure CEnv where
  src : Nat → Src
  fault : Nat → Bool
  cwd : List Bytes

/-- One call. -/
def CEnv.call {α : Type} (env : CEnv) (t : Nat) (f : Src → Except HErr α) : Except HErr α :=
  if env.fault t then .error .other else f (env.src t)

/-- The names of a path given as text, from the root. -/
def baseNames (cwd : List Bytes) (p : Bytes) : List Bytes := if p.head? = some SEP then comps p else cwd ++ comps p

/-- The names by which a path given as text is looked up: with a trailing separator, it must lead to a directory, and a
link is followed. -/
def namesOf (cwd : List Bytes) (p : Bytes) : List Bytes := baseNames cwd p ++ trailing p

/-- `detect_kind` (/repo/libarx/src/create/fs_adder.rs:37-61); the detected kind is the kind of the
returned metadata. `t` numbers the calls. -/
def detectKind (env : CEnv) (t : Nat) (path : List Bytes) (follow : Bool) : Except HErr (List Bytes × Stat) :=
  match env.call t (fun s => s.lstat path) with
  | .error e => .error e
  | .ok attr =>
    if attr.kind = .link ∧ follow = true then
      match env.call (t + 1) (fun s => s.canonicalize path) with
      | .error e => .error e
      | .ok path =>
        match env.call (t + 2) (fun s => s.lstat path) with
        | .error e => .error e
        | .ok attr => .ok (path, attr)
    else .ok (path, attr)

/-- `ContentAdder::add_content` (jubako's `CachedContentAdder`, external): a content that was already added
gets the same address. The contents are the list of the byte strings added so far. -/
def addContent (cs : List Bytes) (b : Bytes) : ContentAddr × List Bytes :=
  (⟨1, cs.idxOf b⟩, if b ∈ cs then cs else cs ++ [b])

/-- The content pack written for the contents `cs`: what is read at an address (external). -/
def packBytes (cs : List Bytes) (a : ContentAddr) : GetBytes :=
  if a.pack = 1 then
    match cs[a.content]? with
    | some b => .found b
    | none => .err
  else .missing

/-- `i64 as u64`. -/
def asU64 (i : Int) : Nat := (i % 2 ^ 64).toNat

/-- `FsEntry::new_from_path` (/repo/libarx/src/create/fs_adder.rs:64-108) and `EntryTrait for FsEntry`
(lines 111-142): the entry to add, and the contents. The size is the one of the metadata; the content is
what is read later. A large file (lines 77-79) is opened now and read when its cluster is written: the model
reads it in the call of the opening. (The state `env.src (t + 3)` is used for nothing else, so it may be understood as
the directories at the moment of the opening with the data at the moment of the reading; it is arbitrary.) -/
def newFromPath (env : CEnv) (t : Nat) (contents : List Bytes) (path : List Bytes) (arx : RPath) (follow : Bool) :
    Except HErr (AddReq × List Bytes) :=
  match detectKind env t path follow with
  | .error e => .error e
  | .ok (path, attr) =>
    let info : Meta := ⟨attr.uid, attr.gid, attr.mode, asU64 attr.mtime⟩
    match attr.kind with
    | .dir => .ok (⟨arx, .ok (some .dir), info⟩, contents)
    | .file size =>
      match env.call (t + 3) (fun s => s.readFile path) with
      | .error e => .error e
      | .ok b =>
        let r := addContent contents b
        .ok (⟨arx, .ok (some (.file size r.1)), info⟩, r.2)
    | .link =>
      match env.call (t + 3) (fun s => s.readLink path) with
      | .error e => .error e
      | .ok target => .ok (⟨arx, .ok (some (.link target)), info⟩, contents)
    | .other => .ok (⟨arx, .ok none, info⟩, contents)

/-- `SimpleCreator` (/repo/libarx/src/create/creator.rs:9-12), and the number of the next call. -/
structure Adder where
  creator : Creator
  contents : List Bytes
  tick : Nat

/-- `SimpleCreator::new` (/repo/libarx/src/create/creator.rs:15-38). -/
def Adder.new : Adder := ⟨Creator.new, [], 0⟩

/-- Results of the adding functions. -/
inductive AOut where
  | ok
  | path (e : FromPathError)
  | notInPrefix
  | host (e : HErr)
  | add (e : AddErr)
  | panic
  deriving DecidableEq, Repr

/-- `FsAdder::add_entry_from_path` (/repo/libarx/src/create/fs_adder.rs:209-246). -/
def Adder.addEntryFromPath (env : CEnv) (stripPrefix : RPath) (s : Adder) (path : Bytes) (follow : Bool) : Adder × AOut :=
  match RPath.fromPathBuf path with
  | .error e => (s, .path e)
  | .ok arx =>
    match RPath.stripPrefix arx stripPrefix with
    | none => (s, .notInPrefix)
    | some arx =>
      if arx = [] then (s, .ok)
      else
        match newFromPath env s.tick s.contents (namesOf env.cwd path) arx follow with
        | .error e => ({ s with tick := s.tick + 4 }, .host e)
        | .ok (req, contents) =>
          match s.creator.addEntry req with
          | (c, .ok) => (⟨c, contents, s.tick + 4⟩, .ok)
          | (c, .err e) => (⟨c, contents, s.tick + 4⟩, .add e)
          | (c, .panic) => (⟨c, contents, s.tick + 4⟩, .panic)

/-- The loop of `add_from_list` (/repo/libarx/src/create/fs_adder.rs:199-207), also for paths each with its
own `follow_symlink`. -/
def Adder.addAll (env : CEnv) (stripPrefix : RPath) (s : Adder) : List (Bytes × Bool) → Adder × AOut
  | [] => (s, .ok)
  | x :: xs =>
    match s.addEntryFromPath env stripPrefix x.1 x.2 with
    | (s, .ok) => Adder.addAll env stripPrefix s xs
    | (s, e) => (s, e)

/-- `FsAdder::add_from_list` (/repo/libarx/src/create/fs_adder.rs:199-207). -/
def Adder.addFromList (env : CEnv) (stripPrefix : RPath) (s : Adder) (paths : List Bytes) (follow : Bool) : Adder × AOut :=
  s.addAll env stripPrefix (paths.map (fun p => (p, follow)))

/-! ## Walking a directory (crate `walkdir`, external) -/

/-- `Path::join` with a name. -/
def joinChild (p n : Bytes) : Bytes := if p = [] ∨ p.getLast? = some SEP then p ++ n else p ++ SEP :: n

/-- What `readdir` yields for a directory (canonical path), in order: names or errors. -/
abbrev ReadDir := List Bytes → List (Except Unit Bytes)

/-- The entries below the directory at `d`, named `text`: each followed by what is below it. Symbolic links
are not followed. The first argument bounds the depth. -/
def walkBelow (s : Src) (ls : ReadDir) : Nat → Bytes → List Bytes → List (Except Unit Bytes)
  | 0, _, _ => []
  | f + 1, text, d =>
    (ls d).flatMap fun x =>
      match x with
      | .error u => [.error u]
      | .ok n =>
        .ok (joinChild text n) ::
          match s.fs.nodes (d ++ [n]) with
          | some (.dir _) => walkBelow s ls f (joinChild text n) (d ++ [n])
          | _ => []

/-- The items of `WalkDir::new(root)` with `max_depth(0)` unless `recurse`: the root, even if it is a
symbolic link, is followed to list its content (/repo/libarx/src/create/fs_adder.rs:180-186). The source
does not change during the walk. -/
def walkItems (cwd : List Bytes) (s : Src) (ls : ReadDir) (depth : Nat) (root : Bytes) (recurse : Bool) :
    List (Except Unit Bytes) :=
  if root = [] then [.error ()]
  else
    match s.fs.resolve false (namesOf cwd root) with
    | .error _ => [.error ()]
    | .ok (.missing _ _) => [.error ()]
    | .ok (.found q) =>
      match s.fs.nodes q with
      | none => [.error ()]
      | some (.dir _) => .ok root :: (if recurse then walkBelow s ls depth root q else [])
      | some (.file _) => [.ok root]
      | some (.link _ _) =>
        match s.fs.resolve true (namesOf cwd root) with
        | .ok (.found q) =>
          match s.fs.nodes q with
          | none => [.error ()]
          | some (.dir _) => .ok root :: (if recurse then walkBelow s ls depth root q else [])
          | some _ => [.ok root]
        | _ => [.error ()]

/-- `walkBelow` through `FilterEntry`: an entry the filter rejects is left out with all that is below it, and the
filter is not asked about what is below. Errors pass. The filter of the code may have a state (`FnMut`); it is asked
at most once about a path, so its answers in one walk are a function of the path. -/
def walkBelowF (keep : Bytes → Bool) (s : Src) (ls : ReadDir) : Nat → Bytes → List Bytes → List (Except Unit Bytes)
  | 0, _, _ => []
  | f + 1, text, d =>
    (ls d).flatMap fun x =>
      match x with
      | .error u => [.error u]
      | .ok n =>
        if keep (joinChild text n) then
          .ok (joinChild text n) ::
            match s.fs.nodes (d ++ [n]) with
            | some (.dir _) => walkBelowF keep s ls f (joinChild text n) (d ++ [n])
            | _ => []
        else []

/-- The items of the walk of `add_from_path_with_filter` (/repo/libarx/src/create/fs_adder.rs:164-189); see
`walkItems` for the walk itself. The filter is asked about the root as well. -/
def walkItemsF (keep : Bytes → Bool) (cwd : List Bytes) (s : Src) (ls : ReadDir) (depth : Nat) (root : Bytes) (recurse : Bool) :
    List (Except Unit Bytes) :=
  if root = [] then [.error ()]
  else
    match s.fs.resolve false (namesOf cwd root) with
    | .error _ => [.error ()]
    | .ok (.missing _ _) => [.error ()]
    | .ok (.found q) =>
      match s.fs.nodes q with
      | none => [.error ()]
      | some (.dir _) =>
        if keep root then .ok root :: (if recurse then walkBelowF keep s ls depth root q else []) else []
      | some (.file _) => if keep root then [.ok root] else []
      | some (.link _ _) =>
        match s.fs.resolve true (namesOf cwd root) with
        | .ok (.found q) =>
          match s.fs.nodes q with
          | none => [.error ()]
          | some (.dir _) =>
            if keep root then .ok root :: (if recurse then walkBelowF keep s ls depth root q else []) else []
          | some _ => if keep root then [.ok root] else []
        | _ => [.error ()]

/-! ## The two threads of `add_from_path` -/

/-- The walking thread, the channel, and the adding thread
(/repo/libarx/src/create/fs_adder.rs:164-197). `todo`: what the walker has still to yield; `alive`: the
walking thread still holds its end of the channel; `result`: what the function returned. -/
structure Chan where
  todo : List (Except Unit Bytes)
  queue : List Bytes
  alive : Bool
  adder : Adder
  result : Option AOut

/-- One step of the walking thread (lines 178-189): an error makes it panic (`entry.unwrap()`), and so does
sending after the receiver has gone. -/
def Chan.walkerStep (c : Chan) : Chan :=
  if !c.alive then c
  else
    match c.todo with
    | [] => { c with alive := false }
    | .error _ :: _ => { c with alive := false, todo := [] }
    | .ok p :: r =>
      if c.result.isSome then { c with alive := false, todo := [] }
      else { c with todo := r, queue := c.queue ++ [p] }

/-- One step of the adding thread (lines 190-197): receive and add; it waits on an empty channel, and ends
when the channel is empty and the walking thread has ended, or when an add fails. -/
def Chan.adderStep (env : CEnv) (stripPrefix root : RPath) (c : Chan) : Chan :=
  if c.result.isSome then c
  else
    match c.queue with
    | p :: q =>
      match c.adder.addEntryFromPath env stripPrefix p (decide (stdComps p = stdComps root)) with
      | (a, .ok) => { c with queue := q, adder := a }
      | (a, e) => { c with queue := q, adder := a, result := some e }
    | [] => if c.alive then c else { c with result := some .ok }

/-- `add_from_path` (/repo/libarx/src/create/fs_adder.rs:157-197) under a schedule: `true` is a step of the
walking thread, `false` one of the adding thread. -/
def Chan.run (env : CEnv) (stripPrefix root : RPath) (c : Chan) : List Bool → Chan
  | [] => c
  | true :: l => Chan.run env stripPrefix root c.walkerStep l
  | false :: l => Chan.run env stripPrefix root (c.adderStep env stripPrefix root) l

/-- The start of `add_from_path`. -/
def Chan.start (s : Adder) (items : List (Except Unit Bytes)) : Chan := ⟨items, [], true, s, none⟩

end Arx
