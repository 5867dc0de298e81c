import Verif.Spec.CreateOk
/-!
# Specification: exactly what `arx create` archives, and archives that differ only in where contents are stored
-/
namespace Arx

/-- Adding a path (followed if it is a link, or not) makes an entry at `z`, if there is none: the path is stored there and is no special
file, or it is stored below. -/
def Makes (s : Src) (cwd : List Bytes) (pre : RPath) (x : Bytes × Bool) (z : List Bytes) : Prop :=
  z ≠ [] ∧ ∃ u, OffersOne s cwd pre x u ∧ z <+: u.1 ∧ (z = u.1 → ¬ s.Special u.2)

/-- An input makes an entry at `z`, if there is none. -/
def TreeMakes (s : Src) (cwd : List Bytes) (pre : RPath) (rc : Bool) (f : Bytes) (z : List Bytes) : Prop :=
  z ≠ [] ∧ ∃ u, OffersTree s cwd pre rc f u ∧ z <+: u.1 ∧ (z = u.1 → ¬ s.Special u.2)

/-- The archive with map `m` holds at each path what the first of the paths `L` that makes an entry there stands for: the
source entry with its metadata if this path is stored there; a directory with the owner and group 1000, the mode 0755 and the time 0 if it is
stored below. -/
structure FirstPath (s : Src) (cwd : List Bytes) (pre : RPath) (bytes : ContentAddr → GetBytes) (L : List (Bytes × Bool)) (m : PathMap) : Prop where
  nothing : ∀ z, (∀ x ∈ L, ¬ Makes s cwd pre x z) → m z = none
  entry : ∀ A x B u, L = A ++ x :: B → OffersOne s cwd pre x u → ¬ s.Special u.2 → (∀ y ∈ A, ¬ Makes s cwd pre y u.1) →
    Archived s bytes u.2 (m u.1)
  above : ∀ A x B u z, L = A ++ x :: B → OffersOne s cwd pre x u → ProperAncestor z u.1 → (∀ y ∈ A, ¬ Makes s cwd pre y z) →
    m z = some ⟨⟨1000, 1000, 0o755, 0⟩, .dir⟩

/-- The same for inputs, with or without all that is below: what is there is the source entry if it is in the tree of the first
input that makes an entry there, and an implied directory if it is above that input. -/
structure FirstInput (s : Src) (cwd : List Bytes) (pre : RPath) (bytes : ContentAddr → GetBytes) (rc : Bool) (roots : List Bytes) (m : PathMap) : Prop where
  nothing : ∀ z, (∀ f ∈ roots, ¬ TreeMakes s cwd pre rc f z) → m z = none
  entry : ∀ A f B u, roots = A ++ f :: B → OffersTree s cwd pre rc f u → ¬ s.Special u.2 → (∀ g ∈ A, ¬ TreeMakes s cwd pre rc g u.1) →
    Archived s bytes u.2 (m u.1)
  above : ∀ A f B k q z, roots = A ++ f :: B → InputAt s cwd pre f k q → ProperAncestor z k → (∀ g ∈ A, ¬ TreeMakes s cwd pre rc g z) →
    m z = some ⟨⟨1000, 1000, 0o755, 0⟩, .dir⟩

/-- Two entries with the same metadata, kind, link target, size and content. -/
def EqualEntry (bytes bytes' : ContentAddr → GetBytes) (n n' : Node) : Prop :=
  n.info = n'.info ∧
  match n.kind, n'.kind with
  | .dir, .dir => True
  | .link t, .link t' => t = t'
  | .file size a, .file size' a' => size = size' ∧ ∃ b, bytes a = .found b ∧ bytes' a' = .found b
  | _, _ => False

/-- Two archives that are the same row by row, but for the numbers of the contents; these lead to the same bytes. -/
structure SameArchive (a a' : Archive) (bytes bytes' : ContentAddr → GetBytes) : Prop where
  root : a.root = a'.root
  length : a.entries.length = a'.entries.length
  rows : ∀ (i : Nat) (r r' : RawEntry), a.entries[i]? = some r → a'.entries[i]? = some r' → r = { r' with content := r.content } ∧
    (r.variant = 0 → ∃ b, bytes r.content = .found b ∧ bytes' r'.content = .found b) ∧ (r.variant ≠ 0 → r = r')

end Arx
