import Verif.Model.Creator
/-!
# Finalization: numbering the entries and writing the table

Model of `EntryStoreCreator::finalize` (/repo/libarx/src/create/entry_store_creator.rs:322-345) and of
what it relies on in jubako: the schema's sort keys `[Parent, Name]`
(/repo/libarx/src/create/entry_store_creator.rs:288) make jubako sort the entries, where `Parent` is a
closure over the *position* of the parent (lines 65-73), so jubako renumbers and re-sorts until the
table is sorted with respect to the numbering it has.  jubako is external: `IsLayout` is the contract
used (the written order is a permutation, sorted w.r.t. its own numbering); `layoutLoop` is the
algorithm (sort, renumber, give up after `budget` rounds).
-/
namespace Arx

/-- `EntryType` (/repo/libarx/src/common/entry_type.rs:3-7). -/
inductive EntryType where
  | file | dir | link
  deriving DecidableEq, Repr

/-- Variant number given to an entry: position of its type in the schema's variant list
(/repo/libarx/src/create/entry_store_creator.rs:263-287: File, Dir, Link). -/
def EntryType.variantIdx : EntryType → Nat
  | .file => 0
  | .dir => 1
  | .link => 2

/-- `TryFrom<VariantIdx> for EntryType` (/repo/libarx/src/common/entry_type.rs:9-19). -/
def EntryType.tryFrom : Nat → Option EntryType
  | 0 => some .file
  | 1 => some .dir
  | 2 => some .link
  | _ => none

/-- One record of the entry store, as stored: common properties, variant id, and the variant
properties (those of the other variants are irrelevant and set to defaults). -/
structure RawEntry where
  name : Bytes
  parent : Nat
  owner : Nat
  group : Nat
  rights : Nat
  mtime : Nat
  variant : Nat
  content : ContentAddr := default
  size : Nat := 0
  firstChild : Nat := 0
  nbChildren : Nat := 0
  target : Bytes := []
  deriving DecidableEq, Repr

/-- `jbk::EntryRange` / an index: offset and count. -/
structure Range where
  offset : Nat
  count : Nat
  deriving DecidableEq, Repr

/-- A written archive: the entry store and the index `arx_root`. Pack contents are separate
(see `Contents`). -/
structure Archive where
  entries : List RawEntry
  root : Range
  deriving DecidableEq, Repr

/-- Position of an entry in the current numbering (`Vow`/`Bound<EntryIdx>`). -/
def posOf (order : List Nat) (id : Nat) : Nat := order.idxOf id

/-- `as_parent_idx_generator` (/repo/libarx/src/create/entry_store_creator.rs:65-73). -/
def parentKey (order : List Nat) (parent : Option Nat) : Nat :=
  match parent with
  | some p => posOf order p + 1
  | none => 0

/-- Comparison of two entries by the sort keys `[Parent, Name]`
(/repo/libarx/src/create/entry_store_creator.rs:288), under the numbering `order`. -/
def keyCmp (st : Creator) (order : List Nat) (a b : Nat) : Ordering :=
  match st.store[a]?, st.store[b]? with
  | some ea, some eb =>
    match compare (parentKey order ea.parent) (parentKey order eb.parent) with
    | .eq => cmpBytes ea.name eb.name
    | o => o
  | _, _ => .eq

/-- Structural insertion sort (stands for jubako's sort; its result does not depend on the
algorithm since keys are distinct). -/
def insertBy (le : Nat → Nat → Bool) (a : Nat) : List Nat → List Nat
  | [] => [a]
  | b :: l => if le a b then a :: b :: l else b :: insertBy le a l

def sortBy (le : Nat → Nat → Bool) : List Nat → List Nat
  | [] => []
  | a :: l => insertBy le a (sortBy le l)

/-- `is_sorted_by`. -/
def sortedBy (le : Nat → Nat → Bool) : List Nat → Bool
  | a :: b :: l => le a b && sortedBy le (b :: l)
  | _ => true

def keyLe (st : Creator) (order : List Nat) (a b : Nat) : Bool := keyCmp st order a b != .gt

/-- jubako's loop: until sorted under the current numbering, sort and renumber; `none` when the
budget is exhausted (jubako panics then). -/
def layoutLoop (st : Creator) : Nat → List Nat → Option (List Nat)
  | 0, order => if sortedBy (keyLe st order) order then some order else none
  | k + 1, order =>
    if sortedBy (keyLe st order) order then some order
    else layoutLoop st k (sortBy (keyLe st order) order)

/-- Contract of a successful jubako finalization: a numbering of all entries under which the table
is sorted by the keys computed with that same numbering. -/
def IsLayout (st : Creator) (order : List Nat) : Prop :=
  order.Perm (List.range st.store.length) ∧
  order.Pairwise (fun a b => keyCmp st order a b ≠ .gt)

/-- `first_entry_generator` (/repo/libarx/src/create/entry_store_creator.rs:44-58). -/
def firstEntry (st : Creator) (order : List Nat) (id : Nat) : Nat :=
  (((st.cache (some id)).map (fun x => posOf order x.2.id)).min?).getD 0

/-- `entry_count_generator` (/repo/libarx/src/create/entry_store_creator.rs:60-63). -/
def entryCountOf (st : Creator) (id : Nat) : Nat := (st.cache (some id)).length

/-- The record written for an entry (values of lines 103-124, 153-166, 181-188, 208-209, 226). -/
def rawOf (st : Creator) (order : List Nat) (id : Nat) (e : CEntry) : RawEntry :=
  match e.kind with
  | .dir =>
    { name := e.name, parent := parentKey order e.parent, owner := e.info.owner, group := e.info.group,
      rights := e.info.rights, mtime := e.info.mtime, variant := EntryType.variantIdx .dir,
      firstChild := firstEntry st order id, nbChildren := entryCountOf st id }
  | .file size content =>
    { name := e.name, parent := parentKey order e.parent, owner := e.info.owner, group := e.info.group,
      rights := e.info.rights, mtime := e.info.mtime, variant := EntryType.variantIdx .file,
      content := content, size := size }
  | .link target =>
    { name := e.name, parent := parentKey order e.parent, owner := e.info.owner, group := e.info.group,
      rights := e.info.rights, mtime := e.info.mtime, variant := EntryType.variantIdx .link,
      target := target }

/-- The table written for a given numbering, with the index `arx_root` (offset 0, `entry_count`;
/repo/libarx/src/create/entry_store_creator.rs:324-343). -/
def writeArchive (st : Creator) (order : List Nat) : Archive :=
  { entries := order.filterMap (fun id => (st.store[id]?).map (rawOf st order id)),
    root := { offset := 0, count := st.entryCount } }

/-- `finalize`: number (creation order first), sort, write. -/
def Creator.finalize (st : Creator) (budget : Nat) : Option Archive :=
  (layoutLoop st budget (List.range st.store.length)).map (writeArchive st)

end Arx
