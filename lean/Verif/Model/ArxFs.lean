import Verif.Model.Reader
/-!
# The FUSE mount

Model of /repo/libarx/src/arx_fs.rs.  A request is one call of a `fuser::Filesystem` method, a reply is
what is sent to the kernel; `panic` is a Rust panic of the handler (the mount process dies).
Statistics counters (`Stats`) are modelled in Model/Stats.lean.  TTLs, generation numbers, file handles (always 0) and
flags are constants in the code and are left out.
-/
namespace Arx

/-! ## LRU caches (crate `lru`, external) -/

/-- `LruCache`: at most `cap` items, most recently used first. -/
structure Lru (K V : Type) where
  cap : Nat
  items : List (K × V)

/-- `LruCache::get`: the found item becomes the most recent one. -/
def Lru.get {K V : Type} [DecidableEq K] (c : Lru K V) (k : K) : Option V × Lru K V :=
  match c.items.find? (fun x => decide (x.1 = k)) with
  | none => (none, c)
  | some x => (some x.2, { c with items := x :: c.items.filter (fun y => decide (y.1 ≠ k)) })

/-- `LruCache::put` / `push`: replace or insert as most recent, dropping the least recent if full. -/
def Lru.put {K V : Type} [DecidableEq K] (c : Lru K V) (k : K) (v : V) : Lru K V :=
  { c with items := ((k, v) :: c.items.filter (fun y => decide (y.1 ≠ k))).take c.cap }

/-! ## Inodes -/

/-- `impl From<u64> for Ino` + `TryInto<EntryIdx>` (/repo/libarx/src/arx_fs.rs:55-60, 68-77): inode 0 panics
(outer `none`), 1 is the root (inner `none`), otherwise the entry index `(v - 2) as u32`. -/
def inoIdx (ino : Nat) : Option (Option Nat) :=
  if ino = 0 then none else if ino = 1 then some none else some (some (asU32 (ino - 2)))

/-- `impl From<EntryIdx> for Ino` (/repo/libarx/src/arx_fs.rs:62-66). -/
def idxIno (idx : Nat) : Nat := idx + 2

/-! ## Attributes -/

/-- The `fuser::FileAttr` fields that vary. -/
structure Attr where
  ino : Nat
  size : Nat
  blocks : Nat
  kind : EntryType
  perm : Nat
  uid : Nat
  gid : Nat
  mtime : Nat
  nlink : Nat
  deriving DecidableEq, Repr

/-- `div_ceil` (/repo/libarx/src/arx_fs.rs:276-282). -/
def divCeil (value rhs : Nat) : Nat :=
  let ret := value / rhs
  if value % rhs ≠ 0 then ret + 1 else ret

/-- `AttrBuilder::create_entry` (/repo/libarx/src/arx_fs.rs:284-331); `none`: an error or a panic (the
callers unwrap): no such row, invalid variant, integer overflow, or a modification time that
`SystemTime` cannot represent (`UNIX_EPOCH + Duration` panics above `i64::MAX` seconds). -/
def Archive.attrOf (a : Archive) (idx : Nat) : Option Attr :=
  match a.entries[idx]? with
  | none => none
  | some r =>
    match EntryType.tryFrom r.variant with
    | none => none
    | some kind =>
      let size := match kind with
        | .file => r.size
        | .dir => (r.nbChildren + 1) * 10
        | .link => r.target.length
      let allocated := match kind with
        | .dir => 0
        | _ => divCeil size (4 * 1024) * (4 * 1024)
      if size ≥ 2 ^ 64 ∨ allocated ≥ 2 ^ 64 ∨ r.mtime ≥ 2 ^ 63 then none
      else some
        { ino := idxIno idx, size := size, blocks := divCeil allocated 512, kind := kind,
          perm := (r.rights % 2 ^ 16) &&& 0b1111_1111_0110_1101,
          uid := asU32 r.owner, gid := asU32 r.group, mtime := r.mtime, nlink := 1 }

/-- `ROOT_ATTR` (/repo/libarx/src/arx_fs.rs:438-454). -/
def rootAttr : Attr :=
  { ino := 1, size := 0, blocks := 1, kind := .dir, perm := 0o555, uid := 1000, gid := 1000, mtime := 0, nlink := 2 }

/-! ## Requests and replies -/

inductive Errno where
  | ENOENT | ENOLINK | EISDIR | EIO | ENOMEDIUM | ENOTDIR
  deriving DecidableEq, Repr

/-- One directory entry as passed to `reply.add`. -/
structure DirEnt where
  ino : Nat
  cookie : Nat
  kind : EntryType
  name : Bytes
  deriving DecidableEq, Repr

/-- The kernel's requests. `readdir` carries the offset and the size of the reply buffer. Offsets of
`readdir` are not negative (the kernel sends offsets it received). -/
inductive FReq where
  | lookup (parent : Nat) (name : Bytes)
  | getattr (ino : Nat)
  | readlink (ino : Nat)
  | open (ino : Nat)
  | read (ino : Nat) (offset : Int) (size : Nat)
  | release (ino : Nat)
  | opendir (ino : Nat)
  | readdir (ino : Nat) (offset : Nat) (bufSize : Nat)
  | releasedir (ino : Nat)
  deriving DecidableEq, Repr

inductive Reply where
  | entry (a : Attr)
  | attr (a : Attr)
  | data (b : Bytes)
  | dir (l : List DirEnt)
  | opened
  | ok
  | error (e : Errno)
  | panic
  deriving DecidableEq, Repr

/-- Result of `Arx::get_bytes` (/repo/libarx/src/arx.rs via jubako): failure, missing pack, or bytes. -/
inductive GetBytes where
  | err
  | missing
  | found (b : Bytes)
  deriving DecidableEq, Repr

/-- What is mounted: the archive, the range shown as root, and the content packs. -/
structure FsCfg where
  a : Archive
  root : Range
  bytes : ContentAddr → GetBytes

/-- The mutable part of `ArxFs` (/repo/libarx/src/arx_fs.rs:335-350). -/
structure FsState where
  resolve : Lru (Nat × Bytes) (Option Nat)
  attr : Lru Nat Attr
  region : Nat → Option (Bytes × Nat)

/-- `ArxFs::new_with_stats` (/repo/libarx/src/arx_fs.rs:367-399). -/
def FsState.init : FsState := { resolve := ⟨4 * 1024, []⟩, attr := ⟨100, []⟩, region := fun _ => none }

/-- `get_entry_range` (/repo/libarx/src/arx_fs.rs:401-409); `none`: error (unwrapped by the callers). -/
def FsCfg.entryRange (cfg : FsCfg) (ino : Nat) : Option Range :=
  match inoIdx ino with
  | none => none
  | some none => some cfg.root
  | some (some idx) =>
    match cfg.a.entries[idx]? with
    | none => none
    | some r => if EntryType.tryFrom r.variant = some .dir then some (rowRange r) else none

/-- The attribute part shared by `lookup` and `getattr`
(/repo/libarx/src/arx_fs.rs:485-493, 513-521). -/
def FsState.cachedAttr (cfg : FsCfg) (s : FsState) (idx : Nat) : Option Attr × FsState :=
  match s.attr.get idx with
  | (some a, c) => (some a, { s with attr := c })
  | (none, _) =>
    match cfg.a.attrOf idx with
    | none => (none, s)
    | some a =>
      let c := s.attr.put idx a
      match c.get idx with
      | (some a, c) => (some a, { s with attr := c })
      | (none, _) => (none, s)

/-- `lookup` (/repo/libarx/src/arx_fs.rs:457-497). -/
def FsState.lookup (cfg : FsCfg) (s : FsState) (parent : Nat) (name : Bytes) : Reply × FsState :=
  if parent = 0 then (.panic, s) else
  let answer (idx : Option Nat) (s : FsState) : Reply × FsState :=
    match idx with
    | none => (.error .ENOENT, s)
    | some idx =>
      match s.cachedAttr cfg idx with
      | (none, s) => (.panic, s)
      | (some a, s) => (.entry a, s)
  match s.resolve.get (parent, name) with
  | (some idx, c) => answer idx { s with resolve := c }
  | (none, _) =>
    match cfg.entryRange parent with
    | none => (.panic, s)
    | some range =>
      match cfg.a.find range name with
      | .error _ => (.panic, s)
      | .ok found =>
        let idx := found.map (fun i => i + range.offset)
        answer idx { s with resolve := s.resolve.put (parent, name) idx }

/-- `getattr` (/repo/libarx/src/arx_fs.rs:499-525). -/
def FsState.getattr (cfg : FsCfg) (s : FsState) (ino : Nat) : Reply × FsState :=
  match inoIdx ino with
  | none => (.panic, s)
  | some none => (.attr rootAttr, s)
  | some (some idx) =>
    match s.cachedAttr cfg idx with
    | (none, s) => (.panic, s)
    | (some a, s) => (.attr a, s)

/-- `readlink` (/repo/libarx/src/arx_fs.rs:527-543). -/
def FsState.readlink (cfg : FsCfg) (s : FsState) (ino : Nat) : Reply × FsState :=
  match inoIdx ino with
  | none => (.panic, s)
  | some none => (.error .ENOLINK, s)
  | some (some idx) =>
    match cfg.a.entries[idx]? with
    | none => (.panic, s)
    | some r =>
      match EntryType.tryFrom r.variant with
      | none => (.panic, s)
      | some .link => (.data r.target, s)
      | some _ => (.error .ENOLINK, s)

def setRegion (f : Nat → Option (Bytes × Nat)) (ino : Nat) (v : Option (Bytes × Nat)) : Nat → Option (Bytes × Nat) :=
  fun i => if i = ino then v else f i

/-- `open` (/repo/libarx/src/arx_fs.rs:545-581). -/
def FsState.open (cfg : FsCfg) (s : FsState) (ino : Nat) : Reply × FsState :=
  match inoIdx ino with
  | none => (.panic, s)
  | some idx =>
    match s.region ino with
    | some (r, c) => (.opened, { s with region := setRegion s.region ino (some (r, c + 1)) })
    | none =>
      match idx with
      | none => (.error .EISDIR, s)
      | some idx =>
        match cfg.a.entries[idx]? with
        | none => (.panic, s)
        | some r =>
          match EntryType.tryFrom r.variant with
          | none => (.panic, s)
          | some .dir => (.error .EISDIR, s)
          | some .link => (.error .ENOENT, s)
          | some .file =>
            match cfg.bytes r.content with
            | .err => (.error .EIO, s)
            | .missing => (.error .ENOMEDIUM, s)
            | .found b => (.opened, { s with region := setRegion s.region ino (some (b, 1)) })

/-- `read` (/repo/libarx/src/arx_fs.rs:583-601): the offset conversion, the `unwrap` of the cache lookup
and the subtraction can panic. -/
def FsState.read (s : FsState) (ino : Nat) (offset : Int) (size : Nat) : Reply × FsState :=
  if ino = 0 then (.panic, s) else
  if offset < 0 then (.panic, s) else
  match s.region ino with
  | none => (.panic, s)
  | some (b, _) =>
    let offset := offset.toNat
    if b.length < offset then (.panic, s)
    else (.data ((b.drop offset).take (min size (b.length - offset))), s)

/-- `release` (/repo/libarx/src/arx_fs.rs:603-625). -/
def FsState.release (s : FsState) (ino : Nat) : Reply × FsState :=
  if ino = 0 then (.panic, s) else
  match s.region ino with
  | some (b, c) =>
    if c = 0 then (.panic, s)
    else if c - 1 = 0 then (.ok, { s with region := setRegion s.region ino none })
    else (.ok, { s with region := setRegion s.region ino (some (b, c - 1)) })
  | none => (.error .ENOENT, s)

/-- `opendir` (/repo/libarx/src/arx_fs.rs:627-643). -/
def FsState.opendir (cfg : FsCfg) (s : FsState) (ino : Nat) : Reply × FsState :=
  match inoIdx ino with
  | none => (.panic, s)
  | some none => (.opened, s)
  | some (some idx) =>
    match cfg.a.entries[idx]? with
    | none => (.panic, s)
    | some r =>
      match EntryType.tryFrom r.variant with
      | none => (.panic, s)
      | some .dir => (.opened, s)
      | some _ => (.error .ENOTDIR, s)

/-- Size of a directory entry in the reply buffer (fuser 0.15 / kernel ABI, external): 24 bytes plus the
name, rounded up to 8. -/
def direntSize (name : Bytes) : Nat := (24 + name.length + 7) / 8 * 8

/-- `ReplyDirectory::add` (external): `true` and unchanged if the entry does not fit. -/
def replyAdd (bufSize : Nat) (l : List DirEnt) (e : DirEnt) : Bool × List DirEnt :=
  if (l.map (fun x => direntSize x.name)).sum + direntSize e.name > bufSize then (true, l) else (false, l ++ [e])

/-- Inode of `".."` (/repo/libarx/src/arx_fs.rs:670-682); `none`: panic. -/
def FsCfg.parentIno (cfg : FsCfg) (ino : Nat) : Option Nat :=
  match inoIdx ino with
  | none => none
  | some none => some ino
  | some (some idx) =>
    match cfg.a.entries[idx]? with
    | none => none
    | some r =>
      if r.parent = 0 then some 1
      else if asU32 r.parent = 0 then none        -- `parent as u32 - 1` underflows
      else some (idxIno (asU32 r.parent - 1))

/-- The loop of `readdir` (/repo/libarx/src/arx_fs.rs:664-708). `cur` is `ReadEntry`'s next row;
`none` is a panic. -/
def readdirLoop (cfg : FsCfg) (ino : Nat) (range : Range) (bufSize : Nat) :
    List Nat → Nat → List DirEnt → Lru (Nat × Bytes) (Option Nat) →
    Option (List DirEnt × Lru (Nat × Bytes) (Option Nat))
  | [], _, l, c => some (l, c)
  | i :: is, cur, l, c =>
    if i = 0 then
      match replyAdd bufSize l ⟨ino, i, .dir, CUR⟩ with
      | (true, l) => some (l, c)
      | (false, l) => readdirLoop cfg ino range bufSize is cur l c
    else if i = 1 then
      match cfg.parentIno ino with
      | none => none
      | some p =>
        match replyAdd bufSize l ⟨p, i, .dir, PARENT⟩ with
        | (true, l) => some (l, c)
        | (false, l) => readdirLoop cfg ino range bufSize is cur l c
    else if cur = range.offset + range.count then some (l, c)
    else
      match cfg.a.entries[cur]? with
      | none => none
      | some r =>
        match EntryType.tryFrom r.variant with
        | none => none
        | some kind =>
          let idx := range.offset + (asU32 i - 2)
          let c := c.put (ino, r.name) (some idx)
          match replyAdd bufSize l ⟨idxIno idx, i, kind, r.name⟩ with
          | (true, l) => some (l, c)
          | (false, l) => readdirLoop cfg ino range bufSize is (cur + 1) l c

/-- `readdir` (/repo/libarx/src/arx_fs.rs:645-710). -/
def FsState.readdir (cfg : FsCfg) (s : FsState) (ino offset bufSize : Nat) : Reply × FsState :=
  if ino = 0 then (.panic, s) else
  match cfg.entryRange ino with
  | none => (.panic, s)
  | some range =>
    if range.count + 2 ≥ 2 ^ 32 then (.panic, s) else
    let nb := range.count + 2
    let offset := if offset = 0 then 0 else offset + 1
    let cur := if offset > 2 then range.offset + asU32 (offset - 2) else range.offset
    match readdirLoop cfg ino range bufSize (List.range' offset (nb - offset)) cur [] s.resolve with
    | none => (.panic, s)
    | some (l, c) => (.dir l, { s with resolve := c })

/-- One request (/repo/libarx/src/arx_fs.rs:456-723). -/
def FsState.step (cfg : FsCfg) (s : FsState) : FReq → Reply × FsState
  | .lookup p n => s.lookup cfg p n
  | .getattr i => s.getattr cfg i
  | .readlink i => s.readlink cfg i
  | .open i => s.open cfg i
  | .read i o z => s.read i o z
  | .release i => s.release i
  | .opendir i => s.opendir cfg i
  | .readdir i o z => s.readdir cfg i o z
  | .releasedir _ => (.ok, s)

/-- A history of requests: the replies, and the state at the end. -/
def FsState.run (cfg : FsCfg) (s : FsState) : List FReq → List Reply × FsState
  | [] => ([], s)
  | r :: rs =>
    let (y, s1) := s.step cfg r
    let (ys, s2) := FsState.run cfg s1 rs
    (y :: ys, s2)

/-- `mount` with `--root-dir` (/repo/arx/src/mount.rs:122-133), after opening the archive: the mounted
range. Paths given on the command line go through `RelativePath::from_path`. -/
def mountRoot (a : Archive) (rootDir : Option Bytes) : Option Range :=
  match rootDir with
  | none => some a.root
  | some p =>
    match RPath.fromPathRef p with
    | .error _ => none
    | .ok rp =>
      match a.getEntry (F := Unit) (L := Unit) (D := Unit)
          ⟨fun _ _ => .ok (), fun _ _ => .ok (), fun _ _ => .ok ()⟩ rp with
      | .ok (.dir r _) => some r
      | _ => none

end Arx
