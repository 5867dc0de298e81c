import Verif.Spec.TripMount
import Verif.Spec.Reproduce
import Verif.Spec.Trip
/-!
# Specification: the attributes of the directories that the readers show
-/
namespace Arx

/-- A copied directory is the source directory at `q`, with its owner and group, permissions (without those for writing) and the
second of its modification. -/
def DirShown (s : Src) (q : List Bytes) (x : Copied) : Prop :=
  x.got = .dir ∧ ∃ t, s.fs.nodes q = some (.dir t) ∧ AttrsOf s q x.attr.size t x.attr

/-- A copied directory that was not asked for: the owner and group 1000, everyone may read and enter it, last modified in 1970. -/
def ImpliedDir (x : Copied) : Prop :=
  x.got = .dir ∧ x.attr.uid = 1000 ∧ x.attr.gid = 1000 ∧ x.attr.perm = 0o555 ∧ x.attr.mtime = 0

/-- In a copy `l` of what an archive of the inputs `roots` has below `d0`, a directory has the attributes of the first input that makes an entry
there: those of the source if the directory is in its tree, those of an implied directory if it is above. -/
structure ShowsDirs (s : Src) (cwd : List Bytes) (pre : RPath) (rc : Bool) (roots : List Bytes) (d0 : List Bytes) (l : List Copied) : Prop where
  first : ∀ A f B u z, roots = A ++ f :: B → OffersTree s cwd pre rc f u → s.DirAt u.2 → (∀ g ∈ A, ¬ TreeMakes s cwd pre rc g u.1) →
    u.1 = d0 ++ z → z ≠ [] → ∃ x ∈ l, x.path = z ∧ DirShown s u.2 x
  above : ∀ A f B k q y z, roots = A ++ f :: B → InputAt s cwd pre f k q → ProperAncestor y k → (∀ g ∈ A, ¬ TreeMakes s cwd pre rc g y) →
    y = d0 ++ z → z ≠ [] → ∃ x ∈ l, x.path = z ∧ ImpliedDir x

/-- The same for a list of paths, each followed if it is a link, or not. -/
structure ShowsListed (s : Src) (cwd : List Bytes) (pre : RPath) (L : List (Bytes × Bool)) (d0 : List Bytes) (l : List Copied) : Prop where
  first : ∀ A w B u z, L = A ++ w :: B → OffersOne s cwd pre w u → s.DirAt u.2 → (∀ y ∈ A, ¬ Makes s cwd pre y u.1) →
    u.1 = d0 ++ z → z ≠ [] → ∃ x ∈ l, x.path = z ∧ DirShown s u.2 x
  above : ∀ A w B u y z, L = A ++ w :: B → OffersOne s cwd pre w u → ProperAncestor y u.1 → (∀ v ∈ A, ¬ Makes s cwd pre v y) →
    y = d0 ++ z → z ≠ [] → ∃ x ∈ l, x.path = z ∧ ImpliedDir x

end Arx
