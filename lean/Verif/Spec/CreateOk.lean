import Verif.Spec.Create
/-!
# Specification: when `arx create` succeeds

An offer is a pair: the names under which something would be stored, and the (canonical) path of the source entry.
-/
namespace Arx

/-- The entry at `q` is stored as something that cannot contain others: a file or a link. -/
def Src.Leaf (s : Src) (q : List Bytes) : Prop := (∀ t, s.fs.nodes q ≠ some (.dir t)) ∧ ¬ s.Special q

/-- Two offers cannot both be stored: the first is a file or link, and the second would be stored below it or (if it is
stored at all) in the same place. -/
def Clash (s : Src) (a b : List Bytes × List Bytes) : Prop :=
  s.Leaf a.2 ∧ ((a.1 <+: b.1 ∧ a.1 ≠ b.1) ∨ (a.1 = b.1 ∧ ¬ s.Special b.2))

/-- What a path (followed if it is a link, or not) offers: nothing if it is the prefix itself. -/
def OffersOne (s : Src) (cwd : List Bytes) (pre : RPath) (x : Bytes × Bool) (u : List Bytes × List Bytes) : Prop :=
  StoredAs x.1 pre u.1 ∧ u.1 ≠ [] ∧ s.fs.resolve x.2 (namesOf cwd x.1) = .ok (.found u.2)

/-- A path that can be archived: relative, UTF-8 and in the prefix; unless it is the prefix itself, it leads to
something, and what is stored has a name. -/
structure Archivable (s : Src) (cwd : List Bytes) (pre : RPath) (x : Bytes × Bool) : Prop where
  relative : x.1.head? ≠ some SEP
  utf8 : ∀ c ∈ comps x.1, validUtf8 c = true
  stored : ∃ k, StoredAs x.1 pre k ∧ (k ≠ [] → ∃ q, s.fs.resolve x.2 (namesOf cwd x.1) = .ok (.found q) ∧
    (s.Special q ∨ k.getLast? ≠ some PARENT))

/-- What an input offers: itself (a link is followed) and, with recursion, all that is below. -/
def OffersTree (s : Src) (cwd : List Bytes) (pre : RPath) (rc : Bool) (root : Bytes) (u : List Bytes × List Bytes) : Prop :=
  ∃ k q p, InputAt s cwd pre root k q ∧ s.Has q p ∧ (p = [] ∨ rc = true) ∧ u = (k ++ p, q ++ p) ∧ u.1 ≠ []

/-- An input that can be archived with all that is below (with recursion). -/
structure ArchivableTree (s : Src) (cwd : List Bytes) (pre : RPath) (rc : Bool) (root : Bytes) : Prop where
  notEmpty : root ≠ []
  relative : root.head? ≠ some SEP
  utf8 : ∀ c ∈ comps root, validUtf8 c = true
  stored : ∃ k q, InputAt s cwd pre root k q ∧ (k = [] ∨ s.Special q ∨ k.getLast? ≠ some PARENT) ∧
    (rc = true → ∀ p, s.Has q p → ∀ c ∈ p, validUtf8 c = true)

/-- The output can be written: it is a path in an existing directory; what is already there is to be replaced. -/
def OutputFree (o : CreateOpts) (sys : CreateSys) : Prop :=
  ∃ out, o.outfile = some out ∧ absNames sys.cwd out ≠ [] ∧ DirAt sys.atParent (absNames sys.cwd out).dropLast ∧
    (Present sys.atOut (namesOf sys.cwd out) → o.force = true)

/-- The threads of every walk run until `add_from_path` returns. -/
def Returns (o : CreateOpts) (sys : CreateSys) (s : Src) (cwd : List Bytes) : Prop :=
  ∀ i, ∀ f ∈ o.infiles, ∀ a : Adder,
    (Chan.run (sys.cenv cwd) (o.stripPrefix.getD []) f
      (Chan.start a (walkItems cwd s (sys.walks i).ls (sys.walks i).depth f o.recursion)) (sys.walks i).sched).result ≠ none

end Arx
