import Verif.Model.Container
/-!
# What makes a container an arx archive
-/
namespace Arx

/-- Among the properties `ps` there is one with this name, and the first of them has this kind. -/
def Has (ps : List (String × PropKind)) (name : String) (kind : PropKind) : Prop :=
  (ps.find? (fun x => x.1 == name)).map (·.2) = some kind

/-- Among the properties `ps` there is one with this name. -/
def Named (ps : List (String × PropKind)) (name : String) : Prop := ∃ k, (name, k) ∈ ps

/-- The properties all entries of an arx archive have, and those of the three kinds. -/
def commonNeeded : List (String × PropKind) :=
  [("name", .array), ("parent", .uint), ("owner", .uint), ("group", .uint), ("rights", .uint), ("mtime", .uint)]

def variantsNeeded : List (String × List (String × PropKind)) :=
  [("file", [("content", .content), ("size", .uint)]), ("dir", [("first_child", .uint), ("nb_children", .uint)]),
   ("link", [("target", .array)])]

/-- The schema is that of arx, up to the order of the properties and further common properties. -/
def HasSchema (s : Schema) : Prop :=
  (∀ x ∈ commonNeeded, Has s.common x.1 x.2) ∧
  ∃ vs, s.variants = some vs ∧ vs.length = 3 ∧ ∀ v ∈ variantsNeeded, ∃ ps, vs.lookup v.1 = some ps ∧ ∀ x ∈ v.2, Has ps x.1 x.2

/-- All names of the schema of arx are there (with any kind). -/
def HasNames (s : Schema) : Prop :=
  (∀ x ∈ commonNeeded, Named s.common x.1) ∧
  ∃ vs, s.variants = some vs ∧ vs.length = 3 ∧ ∀ v ∈ variantsNeeded, ∃ ps, vs.lookup v.1 = some ps ∧ ∀ x ∈ v.2, Named ps x.1

/-- The row has the values its schema says: of the kinds of the common properties, then of those of its variant (jubako panics when it
writes any other row). -/
def RowTyped (s : Schema) (r : StoreRow) : Prop :=
  r.common.map Value.kind = s.common.map (·.2) ∧
  ∃ vs name ps, s.variants = some vs ∧ vs[r.variant]? = some (name, ps) ∧ r.fields.map Value.kind = ps.map (·.2)

/-- The container has an index of this name, on a store with this schema. -/
def IndexOn (c : Container) (name : String) (i : Index) (s : Store) : Prop :=
  c.indexes.find? (fun x => x.name == name) = some i ∧ c.stores[i.store]? = some s

/-- The properties in the order in which a reader looks for them: that of a variant (or of all entries), its name and
kind. -/
def lookedFor : List (Option String × String × PropKind) :=
  commonNeeded.map (fun x => (none, x)) ++ variantsNeeded.flatMap (fun v => v.2.map (fun x => (some v.1, x)))

/-- The properties of a variant (or of all entries). -/
def Schema.propsOf (s : Schema) : Option String → Option (List (String × PropKind))
  | none => some s.common
  | some v => s.variants.bind (·.lookup v)

/-- A property is there; or at least its name. -/
def Schema.hasAt (s : Schema) (x : Option String × String × PropKind) : Prop := ∃ ps, s.propsOf x.1 = some ps ∧ Has ps x.2.1 x.2.2
def Schema.namedAt (s : Schema) (x : Option String × String × PropKind) : Prop := ∃ ps, s.propsOf x.1 = some ps ∧ Named ps x.2.1

/-- There are not three variants; or the first property that is not as it should be is missing (and not only of another
kind). -/
def Incomplete (s : Schema) : Prop :=
  (¬ ∃ vs, s.variants = some vs ∧ vs.length = 3) ∨
  ∃ pre x post, lookedFor = pre ++ x :: post ∧ (∀ y ∈ pre, s.hasAt y) ∧ ¬ s.namedAt x

end Arx
