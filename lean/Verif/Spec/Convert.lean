import Verif.Model.Convert
import Verif.Spec.Adder
/-!
# Specification of conversions
-/
namespace Arx

/-- The names a member is stored under: those of its path without `"."`. -/
def memberNames (path : Bytes) : List Bytes := (comps path).filter (· ≠ CUR)

/-- Members that only carry extensions for others. -/
def TarMember.Ignored (e : TarMember) : Prop :=
  e.type = .longName ∨ e.type = .longLink ∨ e.type = .xHeader ∨ e.type = .xGlobalHeader

/-- A directory: by its type, or (old tar format) because its name ends with a separator. -/
def TarMember.Directory (e : TarMember) : Prop :=
  e.type = .directory ∨ ((e.type = .regular ∨ e.type = .hardLink ∨ e.type = .other) ∧ e.ustar = false ∧ e.headerPath.getLast? = some SEP)

/-- Everything else that is not a symbolic link. -/
def TarMember.FileLike (e : TarMember) : Prop :=
  (e.type = .regular ∨ e.type = .hardLink ∨ e.type = .other) ∧ ¬ (e.ustar = false ∧ e.headerPath.getLast? = some SEP)

/-- The metadata of a member. -/
def TarMember.HasMeta (e : TarMember) (i : Meta) : Prop :=
  e.uid = .ok i.owner ∧ e.gid = .ok i.group ∧ e.mode = .ok i.rights ∧ e.mtime = .ok i.mtime

/-- Nothing is wrong with a member. -/
structure TarMember.Valid (e : TarMember) : Prop where
  hasMeta : ∃ i, e.HasMeta i
  relative : e.path.head? ≠ some SEP
  utf8 : ∀ c ∈ comps e.path, validUtf8 c = true
  named : ¬ e.Ignored → memberNames e.path ≠ [] ∧ (memberNames e.path).getLast? ≠ some PARENT
  target : e.type = .symlink → ∃ t, e.linkName = some t
  data : e.FileLike → ∃ b, e.data = .ok b

/-- Two members whose paths are not in conflict: if one is not a directory, the other is neither at its path
nor below. -/
def TarMember.Compatible (e e' : TarMember) : Prop := e.Ignored ∨ e'.Ignored ∨
  ((¬ e.Directory → ¬ memberNames e.path <+: memberNames e'.path) ∧
   (¬ e'.Directory → ¬ memberNames e'.path <+: memberNames e.path))

/-- The modification time of a zip member: that of the last extended timestamp field, else the DOS time, else 0. -/
def ZipMember.HasTime (e : ZipMember) (t : Nat) : Prop :=
  e.extTimes.getLast? = some (some t) ∨
  ((∀ u, e.extTimes.getLast? ≠ some (some u)) ∧ (e.dosTime = some (.ok t) ∨ (e.dosTime = none ∧ t = 0)))

/-- The content of a zip member. -/
def ZipMember.content (e : ZipMember) : Except Unit Bytes := if e.stored = true then e.raw else e.data

/-- At no point does the path lead above where it starts. -/
def StaysInside (p : List Bytes) : Prop := ∀ q, q <+: p → 2 * q.count PARENT ≤ q.length

/-- Nothing is wrong with a zip member. -/
structure ZipMember.Valid (e : ZipMember) : Prop where
  time : ∃ t, e.HasTime t
  noNul : (0 : UInt8) ∉ e.name
  relative : e.name.head? ≠ some SEP
  inside : StaysInside (memberNames e.name)
  utf8 : ∀ c ∈ comps e.name, validUtf8 c = true
  named : memberNames e.name ≠ [] ∧ (memberNames e.name).getLast? ≠ some PARENT
  data : e.isDir = false → ∃ b, e.content = .ok b

/-- Two members whose paths are not in conflict. -/
def ZipMember.Compatible (e e' : ZipMember) : Prop :=
  (e.isDir = false → ¬ memberNames e.name <+: memberNames e'.name) ∧
  (e'.isDir = false → ¬ memberNames e'.name <+: memberNames e.name)

end Arx
