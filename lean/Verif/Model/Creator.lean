import Verif.Model.Types
/-!
# The entry store creator

Model of /repo/libarx/src/create/entry_store_creator.rs.

The `DirEntry` tree (a `HashMap<String, DirOrFile>` behind an `Arc` for each directory, shared with
the closures stored in the entry store) is a heap: `cache none` is the map of the root `DirEntry`,
`cache (some i)` that of the directory that is the `i`-th created entry.  A `Bound<EntryIdx>` is
represented by the creation number of the entry it is bound to.  `HashMap` iteration order never
matters to the code (only `get`, `insert`, `len`, `min`), so a map is an association list.
-/
namespace Arx

/-- An entry in the store: its `Name`, the target of its `Parent` closure, the four metadata
properties, and its variant (/repo/libarx/src/create/entry_store_creator.rs:103-131, 153-166). -/
structure CEntry where
  name : Bytes
  parent : Option Nat
  info : Meta
  kind : Kind
  deriving DecidableEq, Repr

def CEntry.node (e : CEntry) : Node := ⟨e.info, e.kind⟩

/-- `enum DirOrFile` (/repo/libarx/src/create/entry_store_creator.rs:17-20). -/
structure Child where
  id : Nat
  isDir : Bool
  deriving DecidableEq, Repr

/-- `EntryStoreCreator` (/repo/libarx/src/create/entry_store_creator.rs:243-247): entries in creation
order, and the children map of every directory. -/
structure Creator where
  store : List CEntry
  cache : Option Nat → List (Bytes × Child)

/-- `HashMap::get`. -/
def lookupName (l : List (Bytes × Child)) (n : Bytes) : Option Child :=
  (l.find? (fun x => x.1 == n)).map (·.2)

/-- `EntryStoreCreator::new` (/repo/libarx/src/create/entry_store_creator.rs:250-300), without the
schema (see `Layout.lean`). -/
def Creator.new : Creator := { store := [], cache := fun _ => [] }

/-- Push an entry in the store and insert it in the children map of `cur`
(/repo/libarx/src/create/entry_store_creator.rs:126-133, 189-201, 210-219, 227-236). -/
def Creator.insertNew (st : Creator) (cur : Option Nat) (name : Bytes) (info : Meta) (kind : Kind) :
    Creator :=
  { store := st.store ++ [{ name := name, parent := cur, info := info, kind := kind }],
    cache := fun k => if k = cur then st.cache cur ++ [(name, ⟨st.store.length, kind.isDir⟩)]
                      else st.cache k }

/-- `DirEntry::ensure_dir` (/repo/libarx/src/create/entry_store_creator.rs:95-137). -/
def Creator.ensureDir (st : Creator) (cur : Option Nat) (name : Bytes) : Creator :=
  match lookupName (st.cache cur) name with
  | some _ => st
  | none => st.insertNew cur name defaultMeta .dir

/-- `DirEntry::add_entry` (/repo/libarx/src/create/entry_store_creator.rs:139-240). -/
def Creator.addFinal (st : Creator) (req : AddReq) (cur : Option Nat) : Creator × AddOut :=
  match req.kind with
  | .error _ => (st, .err .kind)                              -- 143 `?`
  | .ok none => (st, .ok)                                     -- 145-147
  | .ok (some kind) =>
    match RPath.fileName req.path with
    | none => (st, .panic)                                    -- 149-152
    | some name =>
      match kind with
      | .dir =>
        match lookupName (st.cache cur) name with
        | some ⟨_, true⟩ => (st, .ok)                         -- 171
        | some ⟨_, false⟩ => (st, .err .dirOverNonDir)        -- 172-174
        | none => (st.insertNew cur name req.info .dir, .ok)  -- 177-202
      | .file size content =>
        match lookupName (st.cache cur) name with
        | some _ => (st, .err .fileExists)                    -- 205-207
        | none => (st.insertNew cur name req.info (.file size content), .ok)
      | .link target =>
        match lookupName (st.cache cur) name with
        | some _ => (st, .err .linkExists)                    -- 223-225
        | none => (st.insertNew cur name req.info (.link target), .ok)

/-- `DirEntry::add` (/repo/libarx/src/create/entry_store_creator.rs:75-93). -/
def Creator.addLoop (st : Creator) (req : AddReq) (cur : Option Nat) :
    List Bytes → Creator × AddOut
  | [] => st.addFinal req cur
  | c :: cs =>
    let st1 := st.ensureDir cur c
    match lookupName (st1.cache cur) c with
    | none => (st1, .panic)                                   -- `unwrap` at 85
    | some ⟨id, true⟩ => Creator.addLoop st1 req (some id) cs
    | some ⟨_, false⟩ => (st1, .err .notADir)

/-- `EntryStoreCreator::add_entry` (/repo/libarx/src/create/entry_store_creator.rs:306-319), also
`SimpleCreator::add_entry` (/repo/libarx/src/create/creator.rs:50-52). -/
def Creator.addEntry (st : Creator) (req : AddReq) : Creator × AddOut :=
  match RPath.parent req.path with
  | none => st.addLoop req none []
  | some parent => st.addLoop req none (comps parent)

/-- A history of `add_entry` calls whose errors are ignored by the caller. A panic ends the
history: result `none`. (In `arx create`, `tar2arx` and `zip2arx` it ends the process. A Python program can catch it and
go on: `PyCreator` in Model/Python says what happens then.) -/
def Creator.run (st : Creator) : List AddReq → Option Creator
  | [] => some st
  | r :: rs =>
    match st.addEntry r with
    | (_, .panic) => none
    | (st', _) => Creator.run st' rs

/-- `EntryStoreCreator::entry_count` (/repo/libarx/src/create/entry_store_creator.rs:302-304): number
of top-level entries, cast to `u32`. -/
def Creator.entryCount (st : Creator) : Nat := (st.cache none).length % 2 ^ 32

end Arx
