import Verif.Spec.CreateOk
import Verif.Spec.Client
import Verif.Spec.Views
import Verif.Model.MountCmd
import Verif.Model.Output
import Verif.Model.Cmd
/-!
# Specification: what the readers show of the source of an archive
-/
namespace Arx

/-- The attributes of a source entry can be represented: times are not before 1970 and below 2^63 seconds, owners and groups
have 32 bits, sizes (rounded up to blocks) 64; names have at most 255 bytes. -/
structure Src.Fits (s : Src) : Prop where
  dirTimes : ∀ q t, s.fs.nodes q = some (.dir t) → 0 ≤ t ∧ t < 2 ^ 63 * 1000000000
  linkTimes : ∀ q x t, s.fs.nodes q = some (.link x t) → 0 ≤ t ∧ t < 2 ^ 63 * 1000000000 ∧ x.length ≤ 2 ^ 64 - 4096
  fileTimes : ∀ q i, s.fs.nodes q = some (.file i) →
    0 ≤ (s.fs.data i).mtime ∧ (s.fs.data i).mtime < 2 ^ 63 * 1000000000 ∧ (s.fs.data i).bytes.length ≤ 2 ^ 64 - 4096
  ids : ∀ q, (s.ids q).1 < 2 ^ 32 ∧ (s.ids q).2.1 < 2 ^ 32
  names : ∀ q x, s.fs.nodes q = some x → ∀ c ∈ q, c.length ≤ 255

/-- The attributes are those of the source entry at `q`, which was last modified at `t` (nanoseconds): size, owner and group, the
second of the modification, and the permission bits without those for writing. -/
def AttrsOf (s : Src) (q : List Bytes) (size : Nat) (t : Int) (a : Attr) : Prop :=
  a.size = size ∧ a.uid = (s.ids q).1 ∧ a.gid = (s.ids q).2.1 ∧
  a.perm = ((s.ids q).2.2 % 2 ^ 16) &&& 0b1111_1111_0110_1101 ∧
  (a.mtime : Int) * 1000000000 ≤ t ∧ t < ((a.mtime : Int) + 1) * 1000000000

/-- What was copied is the source entry at `q`: a directory; a file with its content, or a link with its target, and their
attributes. -/
def ShownAs (s : Src) (q : List Bytes) (x : Copied) : Prop :=
  match s.fs.nodes q with
  | none => False
  | some (.dir _) => x.got = .dir
  | some (.link target t) => x.got = .link target ∧ AttrsOf s q target.length t x.attr
  | some (.file i) => x.got = .file (s.fs.data i).bytes ∧ AttrsOf s q (s.fs.data i).bytes.length (s.fs.data i).mtime x.attr

/-- A copy `l` of what an archive has below `d0` shows what was offered (pairs of the stored path and the source path) and is
not a special file, each path once; and nothing else but the directories above. -/
structure ShowsSource (s : Src) (offered : List Bytes × List Bytes → Prop) (d0 : List Bytes) (l : List Copied) : Prop where
  once : (l.map (fun x => x.path)).Nodup
  all : ∀ u, offered u → ¬ s.Special u.2 → ∀ z, u.1 = d0 ++ z → z ≠ [] → ∃ x ∈ l, x.path = z ∧ ShownAs s u.2 x
  only : ∀ x ∈ l, x.path ≠ [] ∧ ∃ u, offered u ∧ d0 ++ x.path <+: u.1 ∧ (d0 ++ x.path = u.1 → ¬ s.Special u.2)

/-- What the copying program may rely on: others release only what they opened; buffers hold any name of at most 255
bytes; files are read at least one byte at a time. -/
structure Client.Served (cl : Client) (before : List FReq) : Prop where
  others : ∀ t, NoSteal (cl.others before t)
  buf : ∀ t, 280 ≤ cl.buf t
  chunk : ∀ t, 1 ≤ cl.chunk t

/-- The directory of the archive that `arx mount` shows. -/
def MountOpts.shown (o : MountOpts) : List Bytes := (o.rootDir.map comps).getD []

/-- Every other way of reading the archive shows what was copied: `arx list` (both formats), `get_entry` of the Python module
and `arx dump` to an output that accepts everything. -/
structure OtherReaders (a : Archive) (bytes : ContentAddr → GetBytes) (l : List Copied) : Prop where
  list : ∀ depth, a.entries.length < depth →
    listCmd a none depth = (l.flatMap (fun x => joinPath x.path ++ [10]), true) ∧
    listCmd a (some 1) depth = (l.flatMap Copied.line, true)
  python : ∀ x ∈ l, ∃ e, pyGetEntry a (joinPath x.path) = .ok e ∧ PySame bytes x e
  pythonNone : ∀ p : List Bytes, p ≠ [] → (∀ c ∈ p, ValidName c ∧ c ≠ CUR ∧ validUtf8 c = true) → (∀ x ∈ l, x.path ≠ p) →
    pyGetEntry a (joinPath p) = .error .value
  dump : ∀ (o : OutEnv) (ns : List Nat) (d : DumpSys), o.Healthy 1024 →
    (∀ x ∈ l, dump o ns a bytes (joinPath x.path) none d =
      match x.got with
      | .file b => ({ d with stdout := d.stdout ++ b }, .ok)
      | _ => (d, .err)) ∧
    ∀ p : List Bytes, p ≠ [] → (∀ c ∈ p, ValidName c) → (∀ x ∈ l, x.path ≠ p) → dump o ns a bytes (joinPath p) none d = (d, .err)

end Arx
