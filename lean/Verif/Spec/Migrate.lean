import Verif.Spec.Client
import Verif.Spec.CreateOk
/-!
# Specification: an archive is migrated by mounting it and archiving the mount (/repo/Changelog.md:31-32)
-/
namespace Arx

/-- The type in `st_mode`. -/
def typeBits : EntryType → Nat
  | .dir => 0o040000
  | .file => 0o100000
  | .link => 0o120000

/-- The source has at `q` what a program that copies the mount gets (`l`): the kernel passes on what the mount answers, a mode is the
type and the permissions, and the time of modification is in whole seconds. -/
structure ShowsMount (s : Src) (q : List Bytes) (l : List Copied) : Prop where
  dirs : ∀ x ∈ l, x.got = .dir → s.fs.nodes (q ++ x.path) = some (.dir (x.attr.mtime * 1000000000))
  links : ∀ x ∈ l, ∀ t, x.got = .link t → s.fs.nodes (q ++ x.path) = some (.link t (x.attr.mtime * 1000000000))
  files : ∀ x ∈ l, ∀ b, x.got = .file b → ∃ i, s.fs.nodes (q ++ x.path) = some (.file i) ∧ s.special i = false ∧ (s.fs.data i).bytes = b ∧
    (s.fs.data i).mtime = x.attr.mtime * 1000000000
  modes : ∀ x ∈ l, s.ids (q ++ x.path) = (x.attr.uid, x.attr.gid, typeBits x.attr.kind ||| x.attr.perm)
  only : ∀ p, p ≠ [] → s.Has q p → ∃ x ∈ l, x.path = p

/-- The new entry is the old one: the kind, link target, size, content and time; owner and group as far as they are numbers of 32 bits; the
lowest 16 bits of the rights without the rights to write, and the type. -/
structure MigratedNode (bytes bytes' : ContentAddr → GetBytes) (n n' : Node) : Prop where
  owner : n'.info.owner = n.info.owner % 2 ^ 32
  group : n'.info.group = n.info.group % 2 ^ 32
  mtime : n'.info.mtime = n.info.mtime
  rights : n'.info.rights = typeBits n.kind.etype ||| ((n.info.rights % 2 ^ 16) &&& 0b1111_1111_0110_1101)
  kind : match n.kind with
    | .dir => n'.kind = .dir
    | .link t => n'.kind = .link t
    | .file size c => ∃ c' b, n'.kind = .file size c' ∧ bytes c = .found b ∧ bytes' c' = .found b

/-- The archive with map `m'` holds under `k` what that with map `m` holds, and nothing else (but `k` and the directories above). -/
structure Migration (bytes bytes' : ContentAddr → GetBytes) (m : PathMap) (k : List Bytes) (m' : PathMap) : Prop where
  all : ∀ p n, m p = some n → ∃ n', m' (k ++ p) = some n' ∧ MigratedNode bytes bytes' n n'
  only : ∀ z n', m' z = some n' → (∃ p, p ≠ [] ∧ z = k ++ p ∧ m p ≠ none) ∨ (z <+: k ∧ n'.isDir = true)

end Arx
