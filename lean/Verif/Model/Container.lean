import Verif.Model.Reader
/-!
# The container: schema, named properties, opening

Models of `EntryStoreCreator::new` and `finalize` (/repo/libarx/src/create/entry_store_creator.rs:244-345), of
`AllProperties` (/repo/libarx/src/common/properties.rs) and of `Arx::new` (/repo/libarx/src/arx.rs:29-42): how the
values of an entry are stored by property name, and how a reader finds them again by name. `Archive` (Model/Layout)
is what a reader sees after that. jubako (external) stores rows by the schema they were declared with, and gives the
reader the schema; how integers, arrays and addresses become bytes is not modelled.
-/
namespace Arx

/-- The kinds of properties used (`schema::Property::new_uint`, `new_array`, `new_content_address`). -/
inductive PropKind where
  | uint | array | content
  deriving DecidableEq, Repr

/-- A stored value. -/
inductive Value where
  | uint (n : Nat)
  | array (b : Bytes)
  | content (c : ContentAddr)
  deriving DecidableEq, Repr

def Value.kind : Value → PropKind
  | .uint _ => .uint
  | .array _ => .array
  | .content _ => .content

/-- `Property` (/repo/libarx/src/common/properties.rs:1-14). -/
inductive PropName where
  | name | parent | owner | group | rights | mtime | content | size | firstChild | nbChildren | target
  deriving DecidableEq, Repr

/-- `Property::to_string` (/repo/libarx/src/common/properties.rs:16-33). -/
def PropName.text : PropName → String
  | .name => "name"
  | .parent => "parent"
  | .owner => "owner"
  | .group => "group"
  | .rights => "rights"
  | .mtime => "mtime"
  | .content => "content"
  | .size => "size"
  | .firstChild => "first_child"
  | .nbChildren => "nb_children"
  | .target => "target"

/-- `EntryType::to_string` (/repo/libarx/src/common/entry_type.rs:22-30). -/
def EntryType.text : EntryType → String
  | .file => "file"
  | .dir => "dir"
  | .link => "link"

/-- The schema of an entry store as it is stored: the properties all rows have, then (if there are variants) the name
and the properties of each variant. -/
structure Schema where
  common : List (String × PropKind)
  variants : Option (List (String × List (String × PropKind)))
  deriving DecidableEq, Repr

/-- A row: the values of the common properties, the number of its variant and the values of that variant's properties,
in the order of the schema. -/
structure StoreRow where
  common : List Value
  variant : Nat
  fields : List Value
  deriving DecidableEq, Repr

structure Store where
  schema : Schema
  rows : List StoreRow
  deriving DecidableEq, Repr

/-- An index: a name for a range of the rows of one store. -/
structure Index where
  name : String
  store : Nat
  range : Range
  deriving DecidableEq, Repr

/-- The directory pack of a container. -/
structure Container where
  stores : List Store
  indexes : List Index
  deriving DecidableEq, Repr

/-! ## Writing -/

/-- The schema, with properties as declared (/repo/libarx/src/create/entry_store_creator.rs:250-289). -/
def declCommon : List (PropName × PropKind) :=
  [(.name, .array), (.parent, .uint), (.owner, .uint), (.group, .uint), (.rights, .uint), (.mtime, .uint)]

def declVariants : List (EntryType × List (PropName × PropKind)) :=
  [(.file, [(.content, .content), (.size, .uint)]),
   (.dir, [(.firstChild, .uint), (.nbChildren, .uint)]),
   (.link, [(.target, .array)])]

/-- The schema as it is stored, by names. -/
def arxSchema : Schema :=
  { common := declCommon.map (fun x => (x.1.text, x.2)),
    variants := some (declVariants.map (fun v => (v.1.text, v.2.map (fun x => (x.1.text, x.2))))) }

/-- The values given for an entry, a `HashMap` from property to value
(/repo/libarx/src/create/entry_store_creator.rs:103-124, 153-166, 181-188, 208-209, 226). -/
def valuesOf (st : Creator) (order : List Nat) (id : Nat) (e : CEntry) : List (PropName × Value) :=
  [(.name, .array e.name), (.parent, .uint (parentKey order e.parent)), (.owner, .uint e.info.owner),
   (.group, .uint e.info.group), (.rights, .uint e.info.rights), (.mtime, .uint e.info.mtime)] ++
  match e.kind with
  | .dir => [(.firstChild, .uint (firstEntry st order id)), (.nbChildren, .uint (entryCountOf st id))]
  | .file size content => [(.content, .content content), (.size, .uint size)]
  | .link target => [(.target, .array target)]

/-- The variant an entry is added with (`Some(EntryType::…)`, lines 127-133, 189-195, 210-214, 227-231). -/
def typeOf (e : CEntry) : EntryType :=
  match e.kind with
  | .dir => .dir
  | .file .. => .file
  | .link _ => .link

/-- Values in the order of the declared properties; `none`: one is missing (jubako panics). -/
def pick (values : List (PropName × Value)) : List (PropName × PropKind) → Option (List Value)
  | [] => some []
  | (p, _) :: l =>
    match values.lookup p, pick values l with
    | some v, some vs => some (v :: vs)
    | _, _ => none

/-- `BasicEntry::new_from_schema` (jubako): the variant is found by its name in the schema. -/
def newFromSchema (t : EntryType) (values : List (PropName × Value)) : Option StoreRow :=
  match pick values declCommon, declVariants.findIdx? (fun v => v.1.text == t.text), declVariants.lookup t with
  | some cs, some i, some ps =>
    match pick values ps with
    | some fs => some ⟨cs, i, fs⟩
    | none => none
  | _, _, _ => none

/-- All rows in the order of the layout. -/
def rowsOf (st : Creator) (order : List Nat) : List Nat → Option (List StoreRow)
  | [] => some []
  | id :: l =>
    match st.store[id]? with
    | none => rowsOf st order l
    | some e =>
      match newFromSchema (typeOf e) (valuesOf st order id e), rowsOf st order l with
      | some r, some rs => some (r :: rs)
      | _, _ => none

/-- `EntryStoreCreator::finalize` (/repo/libarx/src/create/entry_store_creator.rs:322-345) for a given order of the
rows. -/
def writeContainer (st : Creator) (order : List Nat) : Option Container :=
  (rowsOf st order order).map fun rows =>
    { stores := [⟨arxSchema, rows⟩],
      indexes := [⟨"arx_entries", 0, ⟨0, asU32 st.store.length⟩⟩, ⟨"arx_root", 0, ⟨0, st.entryCount⟩⟩] }

/-! ## Opening -/

/-- `err`: an error is returned; `panic`: a Rust panic. -/
inductive OpenErr where
  | err | panic
  deriving DecidableEq, Repr

/-- Position of a property among properties; indexing a map by a missing name panics, a property of another kind is
an error (`try_into()?`). -/
def slot (ps : List (String × PropKind)) (name : String) (kind : PropKind) : Except OpenErr Nat :=
  match ps.findIdx? (fun x => x.1 == name) with
  | none => .error .panic
  | some i =>
    match ps[i]? with
    | some (_, k) => if k = kind then .ok i else .error .err
    | none => .error .panic

/-- The properties of the variant with this name (`variants[names[name] as usize]`). -/
def variantProps (vs : List (String × List (String × PropKind))) (name : String) :
    Except OpenErr (List (String × PropKind)) :=
  match vs.lookup name with
  | none => .error .panic
  | some ps => .ok ps

/-- `AllProperties` (/repo/libarx/src/common/properties.rs:37-51): where every property is. -/
structure AllProps where
  name : Nat
  parent : Nat
  owner : Nat
  group : Nat
  rights : Nat
  mtime : Nat
  content : Nat
  size : Nat
  firstChild : Nat
  nbChildren : Nat
  target : Nat
  deriving DecidableEq, Repr

/-- `AllProperties::new` (/repo/libarx/src/common/properties.rs:53-104): `unwrap` and `assert_eq` panic. -/
def AllProps.new (s : Schema) : Except OpenErr AllProps := do
  let vs ← (match s.variants with
    | none => .error .panic
    | some vs => if vs.length = 3 then .ok vs else .error .panic : Except OpenErr _)
  let name ← slot s.common "name" .array
  let parent ← slot s.common "parent" .uint
  let owner ← slot s.common "owner" .uint
  let group ← slot s.common "group" .uint
  let rights ← slot s.common "rights" .uint
  let mtime ← slot s.common "mtime" .uint
  let content ← slot (← variantProps vs "file") "content" .content
  let size ← slot (← variantProps vs "file") "size" .uint
  let firstChild ← slot (← variantProps vs "dir") "first_child" .uint
  let nbChildren ← slot (← variantProps vs "dir") "nb_children" .uint
  let target ← slot (← variantProps vs "link") "target" .array
  return { name, parent, owner, group, rights, mtime, content, size, firstChild, nbChildren, target }

/-- The value of a property in a row; a row has the values its schema says. -/
def uintAt (l : List Value) (i : Nat) : Nat :=
  match l[i]? with
  | some (.uint n) => n
  | _ => 0

def arrayAt (l : List Value) (i : Nat) : Bytes :=
  match l[i]? with
  | some (.array b) => b
  | _ => []

def contentAt (l : List Value) (i : Nat) : ContentAddr :=
  match l[i]? with
  | some (.content c) => c
  | _ => default

/-- What the builders read of a row (/repo/libarx/src/common/builder.rs:113-135, /repo/libarx/src/entry.rs): the common
properties, and those of the variant its number stands for, which is fixed (`EntryType::try_from`). Simplification:
a container in which these are not the variants of those names is read at the wrong place; here the positions are
used as they are. -/
def AllProps.row (p : AllProps) (r : StoreRow) : RawEntry :=
  let base : RawEntry :=
    { name := arrayAt r.common p.name, parent := uintAt r.common p.parent, owner := uintAt r.common p.owner,
      group := uintAt r.common p.group, rights := uintAt r.common p.rights, mtime := uintAt r.common p.mtime,
      variant := r.variant }
  match EntryType.tryFrom r.variant with
  | some .file => { base with content := contentAt r.fields p.content, size := uintAt r.fields p.size }
  | some .dir => { base with firstChild := uintAt r.fields p.firstChild, nbChildren := uintAt r.fields p.nbChildren }
  | some .link => { base with target := arrayAt r.fields p.target }
  | none => base

/-- `get_index_from_name`. -/
def Container.index (c : Container) (name : String) : Except OpenErr Index :=
  match c.indexes.find? (fun x => x.name == name) with
  | some i => .ok i
  | none => .error .err

/-- `Arx::new` (/repo/libarx/src/arx.rs:29-42), once the container is open. -/
def Container.openArx (c : Container) : Except OpenErr Archive := do
  let root ← c.index "arx_root"
  let store ← (match c.stores[root.store]? with
    | some s => .ok s
    | none => .error .err : Except OpenErr Store)
  let props ← AllProps.new store.schema
  return { entries := store.rows.map props.row, root := root.range }

/-- `ArxFs::new_with_stats` (/repo/libarx/src/arx_fs.rs:367-399): the mount reads the rows of the index
`arx_entries` (`Index::get_entry`: only those, counted from its start). -/
def Container.openMount (c : Container) : Except OpenErr Archive := do
  let a ← c.openArx
  let all ← c.index "arx_entries"
  let store ← (match c.stores[all.store]? with
    | some s => .ok s
    | none => .error .err : Except OpenErr Store)
  let props ← AllProps.new store.schema
  return { entries := ((store.rows.drop all.range.offset).take all.range.count).map props.row, root := a.root }

end Arx
