import Verif.Spec.Reproduce
import Verif.Spec.Convert
/-!
# Specification: the items an archive is made of, whichever tool makes it
-/
namespace Arx

/-- What an item is: a directory, a symbolic link, or a file with its size as declared and its bytes. -/
inductive ItemIs where
  | dir
  | link (target : Bytes)
  | file (size : Nat) (bytes : Bytes)

/-- An item of an input: where it is stored, its owner, group, mode and time, and what it is. -/
structure PackItem where
  names : List Bytes
  info : Meta
  what : ItemIs

/-- The items of a tar archive: its members, except those that only carry extensions. -/
def TarItems (ms : List TarMember) (x : PackItem) : Prop :=
  ∃ e ∈ ms, ¬ e.Ignored ∧ x.names = memberNames e.path ∧ e.HasMeta x.info ∧
    ((e.Directory ∧ x.what = .dir) ∨
     (e.type = .symlink ∧ ∃ t, e.linkName = some t ∧ x.what = .link t) ∨
     (e.FileLike ∧ ∃ d, e.data = .ok d ∧ x.what = .file d.length d))

/-- The items of a zip archive: its members. -/
def ZipItems (ms : List ZipMember) (x : PackItem) : Prop :=
  ∃ e ∈ ms, x.names = memberNames e.name ∧ (∃ t, e.HasTime t ∧ x.info = ⟨0, 0, e.unixMode.getD 0o644, t⟩) ∧
    ((e.isDir = true ∧ x.what = .dir) ∨ (e.isDir = false ∧ ∃ d, e.content = .ok d ∧ x.what = .file e.size d))

/-- The items of an input of `arx create`: the file, directory or link target itself and, with recursion, all that is below; special
files are left out. -/
def SourceItems (s : Src) (cwd : List Bytes) (pre : RPath) (rc : Bool) (root : Bytes) (x : PackItem) : Prop :=
  ∃ q, OffersTree s cwd pre rc root (x.names, q) ∧ ¬ s.Special q ∧
    ((∃ t, s.fs.nodes q = some (.dir t) ∧ x.info = s.info q t ∧ x.what = .dir) ∨
     (∃ l t, s.fs.nodes q = some (.link l t) ∧ x.info = s.info q t ∧ x.what = .link l) ∨
     (∃ i, s.fs.nodes q = some (.file i) ∧ x.info = s.info q (s.fs.data i).mtime ∧
       x.what = .file (s.fs.data i).bytes.length (s.fs.data i).bytes))

/-- Each directory is before all that is at its path or below. -/
def TarMember.FoldersFirst (ms : List TarMember) : Prop :=
  ∀ A e B, ms = A ++ e :: B → e.Directory → ∀ e' ∈ A, ¬ e'.Ignored → ¬ memberNames e.path <+: memberNames e'.path

/-- The same for a zip archive. -/
def ZipMember.FoldersFirst (ms : List ZipMember) : Prop :=
  ∀ A e B, ms = A ++ e :: B → e.isDir = true → ∀ e' ∈ A, ¬ memberNames e.name <+: memberNames e'.name

/-- The entry `n` is the item. -/
def PackItem.Is (x : PackItem) (bytes : ContentAddr → GetBytes) (n : Node) : Prop :=
  n.info = x.info ∧
  match x.what, n.kind with
  | .dir, .dir => True
  | .link t, .link t' => t = t'
  | .file size b, .file size' a => size = size' ∧ bytes a = .found b
  | _, _ => False

/-- The archive with map `m` holds the items and the directories above them (with owner and group 1000, mode 0755 and time 0, if they are no
items), and nothing else. -/
structure HasItems (bytes : ContentAddr → GetBytes) (I : PackItem → Prop) (m : PathMap) : Prop where
  items : ∀ x, I x → ∃ n, m x.names = some n ∧ x.Is bytes n
  above : ∀ x p, I x → ProperAncestor p x.names → (∀ y, I y → y.names ≠ p) → m p = some ⟨⟨1000, 1000, 0o755, 0⟩, .dir⟩
  only : ∀ p n, m p = some n → ∃ x, I x ∧ (p = x.names ∨ ProperAncestor p x.names)

/-- What readers show of two archives is the same: row by row, but for the numbers of contents (which lead to the same bytes), and both
listings byte by byte, from any depth of the recursion that is enough. -/
structure ReadSame (st st' : Creator) (order order' : List Nat) (bytes bytes' : ContentAddr → GetBytes) : Prop where
  rows : SameArchive (writeArchive st order) (writeArchive st' order') bytes bytes'
  list : ∀ depth depth', st.store.length < depth → st'.store.length < depth' →
    listCmd (writeArchive st order) none depth = listCmd (writeArchive st' order') none depth' ∧
    listCmd (writeArchive st order) (some 1) depth = listCmd (writeArchive st' order') (some 1) depth'

end Arx
