import Verif.Spec.CreateOk
/-!
# Specification: when `arx create` crashes
-/
namespace Arx

/-- A path that leads to something which would be archived, but under a path that ends in `..`: there is no name to
store it with. -/
structure Nameless (s : Src) (cwd : List Bytes) (pre : RPath) (x : Bytes × Bool) (u : List Bytes × List Bytes) : Prop where
  relative : x.1.head? ≠ some SEP
  utf8 : ∀ c ∈ comps x.1, validUtf8 c = true
  offers : OffersOne s cwd pre x u
  archived : ¬ s.Special u.2
  nameless : u.1.getLast? = some PARENT

/-- The same for an input (a link is followed). -/
structure NamelessInput (s : Src) (cwd : List Bytes) (pre : RPath) (root : Bytes) (k : List Bytes) : Prop where
  relative : root.head? ≠ some SEP
  utf8 : ∀ c ∈ comps root, validUtf8 c = true
  stored : StoredAs root pre k
  archived : ∃ q, s.fs.resolve true (namesOf cwd root) = .ok (.found q) ∧ ¬ s.Special q
  nameless : k.getLast? = some PARENT

/-- The output names the root directory. -/
def OutputIsRoot (o : CreateOpts) (sys : CreateSys) : Prop := ∃ out, o.outfile = some out ∧ absNames sys.cwd out = []

end Arx
