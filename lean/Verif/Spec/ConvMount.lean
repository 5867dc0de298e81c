import Verif.Spec.TripConv
import Verif.Spec.TripMount
/-!
# Specification: what the readers show of a converted tar or zip archive
-/
namespace Arx

/-- The attributes of a member can be represented: names have at most 255 bytes and are not `..`, the modification time is below
2^63 seconds, sizes (rounded up to blocks) have 64 bits. -/
structure TarMember.Showable (e : TarMember) : Prop where
  names : ∀ c ∈ memberNames e.path, c ≠ PARENT ∧ c.length ≤ 255
  time : ∀ t, e.mtime = .ok t → t < 2 ^ 63
  target : ∀ t, e.linkName = some t → t.length ≤ 2 ^ 64 - 4096
  size : ∀ d, e.data = .ok d → d.length ≤ 2 ^ 64 - 4096

/-- The attributes are those of the member: the low 32 bits of owner and group, the permission bits without those for writing, the
modification time. -/
def TarMember.AttrsAre (e : TarMember) (a : Attr) : Prop :=
  ∃ u g p t, e.uid = .ok u ∧ e.gid = .ok g ∧ e.mode = .ok p ∧ e.mtime = .ok t ∧
    a.uid = u % 2 ^ 32 ∧ a.gid = g % 2 ^ 32 ∧ a.perm = (p % 2 ^ 16) &&& 0b1111_1111_0110_1101 ∧ a.mtime = t

/-- A copy `l` of what an archive has below `d0` shows the tar members `ms`: each member (except those that only carry extensions) once,
at its place, with its kind, its data or target, its size and its attributes (a directory: if no member before it is at or
below its path); and nothing else, except directories on the way to a member. -/
structure ShowsTar (ms : List TarMember) (d0 : List Bytes) (l : List Copied) : Prop where
  once : (l.map (fun x => x.path)).Nodup
  dirs : ∀ A e B, ms = A ++ e :: B → e.Directory → ∀ z, memberNames e.path = d0 ++ z → z ≠ [] → ∃ x ∈ l, x.path = z ∧ x.got = .dir ∧
    ((∀ e' ∈ A, ¬ e'.Ignored → ¬ memberNames e.path <+: memberNames e'.path) → e.AttrsAre x.attr)
  links : ∀ e ∈ ms, e.type = .symlink → ∀ z, memberNames e.path = d0 ++ z → z ≠ [] → ∃ t, e.linkName = some t ∧
    ∃ x ∈ l, x.path = z ∧ x.got = .link t ∧ x.attr.size = t.length ∧ e.AttrsAre x.attr
  files : ∀ e ∈ ms, e.FileLike → ∀ z, memberNames e.path = d0 ++ z → z ≠ [] → ∃ d, e.data = .ok d ∧
    ∃ x ∈ l, x.path = z ∧ x.got = .file d ∧ x.attr.size = d.length ∧ e.AttrsAre x.attr
  only : ∀ x ∈ l, x.path ≠ [] ∧ ∃ e ∈ ms, ¬ e.Ignored ∧ d0 ++ x.path <+: memberNames e.path ∧
    (d0 ++ x.path ≠ memberNames e.path → x.got = .dir)

/-- The same for a zip member; moreover its recorded size is that of its content. -/
structure ZipMember.Showable (e : ZipMember) : Prop where
  names : ∀ c ∈ memberNames e.name, c ≠ PARENT ∧ c.length ≤ 255
  time : ∀ t, e.HasTime t → t < 2 ^ 63
  size : e.isDir = false → ∀ d, e.content = .ok d → d.length = e.size ∧ d.length ≤ 2 ^ 64 - 4096

/-- The attributes are those of the zip member: owner and group 0, its permission bits (0644 if it has none) without those for
writing, its modification time. -/
def ZipMember.AttrsAre (e : ZipMember) (a : Attr) : Prop :=
  a.uid = 0 ∧ a.gid = 0 ∧ a.perm = ((e.unixMode.getD 0o644) % 2 ^ 16) &&& 0b1111_1111_0110_1101 ∧ e.HasTime a.mtime

/-- A copy shows the zip members. -/
structure ShowsZip (ms : List ZipMember) (d0 : List Bytes) (l : List Copied) : Prop where
  once : (l.map (fun x => x.path)).Nodup
  dirs : ∀ A e B, ms = A ++ e :: B → e.isDir = true → ∀ z, memberNames e.name = d0 ++ z → z ≠ [] → ∃ x ∈ l, x.path = z ∧ x.got = .dir ∧
    ((∀ e' ∈ A, ¬ memberNames e.name <+: memberNames e'.name) → e.AttrsAre x.attr)
  files : ∀ e ∈ ms, e.isDir = false → ∀ z, memberNames e.name = d0 ++ z → z ≠ [] → ∃ d, e.content = .ok d ∧
    ∃ x ∈ l, x.path = z ∧ x.got = .file d ∧ x.attr.size = d.length ∧ e.AttrsAre x.attr
  only : ∀ x ∈ l, x.path ≠ [] ∧ ∃ e ∈ ms, d0 ++ x.path <+: memberNames e.name ∧ (d0 ++ x.path ≠ memberNames e.name → x.got = .dir)

end Arx
