import Verif.Model.Reader
import Verif.Spec.Encodes
/-!
# Vocabulary of the property theorems about created archives
-/
namespace Arx

/-- `a` is an archive that can result from performing the adds `rs` on a new creator (errors ignored,
no crash) and finalizing. `IsLayout` is jubako's contract. Archives have fewer than 2^32 entries
(row numbers are 32-bit in the format). -/
def Written (rs : List AddReq) (a : Archive) : Prop :=
  ∃ st o, Creator.new.run rs = some st ∧ IsLayout st o ∧ a = writeArchive st o ∧ st.store.length < 2 ^ 32

/-- Name and metadata of a read entry, whatever its kind. -/
def Entry.common : Entry FileEntry LinkEntry DirEntry → CommonPart
  | .file e => e.common
  | .link e => e.common
  | .dir _ e => e.common

/-- The read entry `e` is the node `n`: kind, size, content address, link target, modification time,
and owner and group (stored exactly, read as 32-bit numbers). -/
def EntryIs (e : Entry FileEntry LinkEntry DirEntry) (n : Node) : Prop :=
  e.common.mtime = n.info.mtime ∧
  e.common.owner = asU32 n.info.owner ∧ e.common.group = asU32 n.info.group ∧
  match n.kind with
  | .dir => ∃ r d, e = .dir r d
  | .file size content => ∃ f, e = .file f ∧ f.size = size ∧ f.content = content
  | .link target => ∃ l, e = .link l ∧ l.target = target

/-- Follow `parent()` from row `i` to the top, collecting names; at most `fuel` steps. -/
def pathUp (a : Archive) : Nat → Nat → Option (List Bytes)
  | 0, _ => none
  | fuel + 1, i =>
    match a.getEntryAt fullBuilder i with
    | .error _ => none
    | .ok e =>
      match e.common.parent with
      | none => some [e.common.path]
      | some p => (pathUp a fuel p).map (· ++ [e.common.path])

end Arx
