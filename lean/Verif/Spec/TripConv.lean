import Verif.Spec.Convert
import Verif.Spec.Extract
/-!
# Converting an archive and extracting the result
-/
namespace Arx

/-- Names, and for links a target, that a file system accepts. -/
structure TarMember.Placeable (e : TarMember) : Prop where
  names : ∀ c ∈ memberNames e.path, c ≠ PARENT ∧ (0 : UInt8) ∉ c
  target : e.type = .symlink → ∀ t, e.linkName = some t → LinkText t

/-- Below `base` is the tree of the tar members `ms`: each member (except those that only carry extensions) at its place with its
kind and its data or target; and nothing else, except directories on the way to a member. -/
structure TarTree (ms : List TarMember) (fs : FS) (base : List Bytes) : Prop where
  dirs : ∀ e ∈ ms, e.Directory → ∃ t, fs.nodes (base ++ memberNames e.path) = some (.dir t)
  links : ∀ e ∈ ms, e.type = .symlink → ∃ t u, e.linkName = some t ∧ fs.nodes (base ++ memberNames e.path) = some (.link t u)
  files : ∀ e ∈ ms, e.FileLike → ∃ d i, e.data = .ok d ∧ fs.nodes (base ++ memberNames e.path) = some (.file i) ∧ (fs.data i).bytes = d
  only : ∀ p x, p ≠ [] → fs.nodes (base ++ p) = some x → ∃ e ∈ ms, ¬ e.Ignored ∧ p <+: memberNames e.path ∧
    (p ≠ memberNames e.path → ∃ t, x = .dir t)

/-- The same for zip members. -/
structure ZipTree (ms : List ZipMember) (fs : FS) (base : List Bytes) : Prop where
  dirs : ∀ e ∈ ms, e.isDir = true → ∃ t, fs.nodes (base ++ memberNames e.name) = some (.dir t)
  files : ∀ e ∈ ms, e.isDir = false → ∃ d i, e.content = .ok d ∧ fs.nodes (base ++ memberNames e.name) = some (.file i) ∧ (fs.data i).bytes = d
  only : ∀ p x, p ≠ [] → fs.nodes (base ++ p) = some x → ∃ e ∈ ms, p <+: memberNames e.name ∧
    (p ≠ memberNames e.name → ∃ t, x = .dir t)

end Arx
