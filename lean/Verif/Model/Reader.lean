import Verif.Model.Layout
/-!
# Reading an archive

Model of /repo/libarx/src/common/builder.rs, /repo/libarx/src/common/mod.rs,
/repo/libarx/src/entry.rs and /repo/libarx/src/arx.rs.  The archive may be any table (also one not
produced by the creator).
-/
namespace Arx

/-- Failures of reading. `badIndex`: a row outside the table is read (jubako's behaviour there is not
modelled further); `panic`: a Rust panic. -/
inductive RErr where
  | notFound | invalidVariant | badIndex | notUtf8 | panic
  deriving DecidableEq, Repr

abbrev Res := Except RErr

/-- `as u32`. -/
def asU32 (n : Nat) : Nat := n % 2 ^ 32

/-- `FullBuilderTrait` (/repo/libarx/src/common/builder.rs:22-41): how files, links and directories are
built from their row. -/
structure Builder (F L D : Type) where
  file : Nat → RawEntry → Res F
  link : Nat → RawEntry → Res L
  dir : Nat → RawEntry → Res D

/-- `enum Entry` (/repo/libarx/src/common/entry.rs:13-17). -/
inductive Entry (F L D : Type) where
  | file (e : F)
  | link (e : L)
  | dir (range : Range) (e : D)
  deriving DecidableEq, Repr

/-- Range of a directory row: `EntryRange::new_from_size(first_child as u32, nb_children as u32)`
(/repo/libarx/src/common/builder.rs:126-130). -/
def rowRange (r : RawEntry) : Range := ⟨asU32 r.firstChild, asU32 r.nbChildren⟩

/-- `RealBuilder::create_entry` (/repo/libarx/src/common/builder.rs:113-135). -/
def Archive.create (a : Archive) {F L D : Type} (B : Builder F L D) (idx : Nat) : Res (Entry F L D) :=
  match a.entries[idx]? with
  | none => .error .badIndex
  | some r =>
    match EntryType.tryFrom r.variant with
    | none => .error .invalidVariant
    | some .file => (B.file idx r).map .file
    | some .link => (B.link idx r).map .link
    | some .dir => (B.dir idx r).map (.dir (rowRange r))

/-- `EntryCompare::compare_entry` (/repo/libarx/src/common/mod.rs:48-55): compare the name of row `idx`
with the searched name. -/
def Archive.compareName (a : Archive) (name : Bytes) (idx : Nat) : Res Ordering :=
  match a.entries[idx]? with
  | none => .error .badIndex
  | some r => .ok (cmpBytes r.name name)

/-- Binary search on relative positions `[l, r)` (jubako's `Range::find` for `ordered()`
comparators, external; /repo/libarx/src/common/mod.rs:56-58). The first argument bounds the rounds. -/
def bsearch (cmp : Nat → Res Ordering) : Nat → Nat → Nat → Res (Option Nat)
  | 0, _, _ => .ok none
  | f + 1, l, r =>
    if l < r then
      let mid := l + (r - l) / 2
      match cmp mid with
      | .error e => .error e
      | .ok .lt => bsearch cmp f (mid + 1) r
      | .ok .gt => bsearch cmp f l mid
      | .ok .eq => .ok (some mid)
    else .ok none

/-- `range.find(&comparator)`: position, relative to the range, of the row with this name. -/
def Archive.find (a : Archive) (range : Range) (name : Bytes) : Res (Option Nat) :=
  bsearch (fun i => a.compareName name (range.offset + i)) range.count 0 range.count

/-- The loop of `Arx::get_entry` (/repo/libarx/src/arx.rs:53-78). -/
def Archive.getLoop (a : Archive) {F L D : Type} (B : Builder F L D) (range : Range) :
    List Bytes → Res (Entry F L D)
  | [] => .error .panic                                   -- `unreachable!()` at line 77
  | c :: cs =>
    match a.find range c with
    | .error e => .error e
    | .ok none => .error .notFound
    | .ok (some idx) =>
      match a.create B (range.offset + idx) with
      | .error e => .error e
      | .ok entry =>
        match cs with
        | [] => .ok entry
        | _ :: _ =>
          match entry with
          | .dir r _ => Archive.getLoop a B r cs
          | _ => .error .notFound

/-- `Arx::get_entry` (/repo/libarx/src/arx.rs:47-78). -/
def Archive.getEntry (a : Archive) {F L D : Type} (B : Builder F L D) (path : RPath) : Res (Entry F L D) :=
  a.getLoop B a.root (comps path)

/-! ## The full builder (/repo/libarx/src/entry.rs) -/

/-- `CommonPart` (/repo/libarx/src/entry.rs:5-14). -/
structure CommonPart where
  idx : Nat
  path : Bytes
  parent : Option Nat
  owner : Nat
  group : Nat
  rights : Nat
  mtime : Nat
  deriving DecidableEq, Repr

/-- `CommonBuilder::create_entry` (/repo/libarx/src/entry.rs:122-141). `parent as u32 - 1` panics
(debug build) when the low 32 bits are zero. -/
def commonCreate (idx : Nat) (r : RawEntry) : Res CommonPart :=
  if r.parent = 0 then
    .ok { idx := idx, path := r.name, parent := none, owner := asU32 r.owner, group := asU32 r.group,
          rights := r.rights % 256, mtime := r.mtime }
  else if asU32 r.parent = 0 then .error .panic
  else
    .ok { idx := idx, path := r.name, parent := some (asU32 r.parent - 1), owner := asU32 r.owner,
          group := asU32 r.group, rights := r.rights % 256, mtime := r.mtime }

/-- `FileEntry` (/repo/libarx/src/entry.rs:42-46). -/
structure FileEntry where
  common : CommonPart
  content : ContentAddr
  size : Nat
  deriving DecidableEq, Repr

/-- `Link` (/repo/libarx/src/entry.rs:64-67). -/
structure LinkEntry where
  common : CommonPart
  target : Bytes
  deriving DecidableEq, Repr

/-- `Dir` (/repo/libarx/src/entry.rs:82-85). -/
structure DirEntry where
  common : CommonPart
  range : Range
  deriving DecidableEq, Repr

/-- `FullBuilder` (/repo/libarx/src/entry.rs:144-229). -/
def fullBuilder : Builder FileEntry LinkEntry DirEntry where
  file idx r := (commonCreate idx r).map (fun c => ⟨c, r.content, r.size⟩)
  link idx r := (commonCreate idx r).map (fun c => ⟨c, r.target⟩)
  dir idx r := (commonCreate idx r).map (fun c => ⟨c, rowRange r⟩)

/-- `Arx::get_entry_at_idx` (/repo/libarx/src/arx.rs:80-86). -/
def Archive.getEntryAt (a : Archive) {F L D : Type} (B : Builder F L D) (idx : Nat) : Res (Entry F L D) :=
  a.create B idx

/-- `ReadEntry` iterated to its end: rows `range.offset … range.offset+count-1` in order
(/repo/libarx/src/common/mod.rs:61-94). -/
def Archive.readRange (a : Archive) {F L D : Type} (B : Builder F L D) (range : Range) : List (Res (Entry F L D)) :=
  (List.range' range.offset range.count).map (a.create B)

end Arx
