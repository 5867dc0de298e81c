import Verif.Model.FsAdder
import Verif.Spec.Extract
/-!
# Specification of adding from the file system
-/
namespace Arx

/-- A source file system as Unix has them: a tree; names are not empty, without separator and NUL, and not
`"."` or `".."`; link targets are not empty and without NUL. -/
structure Src.WF (s : Src) : Prop extends FS.WF s.fs where
  names : ∀ q x, s.fs.nodes q = some x → ∀ c ∈ q, ValidName c ∧ PlainName c
  targets : ∀ q t u, s.fs.nodes q = some (.link t u) → t ≠ [] ∧ (0 : UInt8) ∉ t

/-- Nothing changes the source while it is archived, and no call fails for an external reason. -/
structure Quiet (env : CEnv) (s : Src) : Prop where
  src : ∀ t, env.src t = s
  fault : ∀ t, env.fault t = false

/-- `readdir` lists every directory completely and without error, in any order. -/
def FullListing (s : Src) (ls : ReadDir) : Prop :=
  ∀ d t, s.fs.nodes d = some (.dir t) → ∃ ns : List Bytes, ls d = ns.map .ok ∧ ns.Nodup ∧
    ∀ n, n ∈ ns ↔ s.fs.nodes (d ++ [n]) ≠ none

/-- The path `root`, relative to `cwd`, leads to the directory at `q` (symbolic links are followed). -/
def LeadsTo (s : Src) (cwd : List Bytes) (root : Bytes) (q : List Bytes) : Prop :=
  root ≠ [] ∧ s.fs.resolve true (namesOf cwd root) = .ok (.found q) ∧ ∃ t, s.fs.nodes q = some (.dir t)

/-- The metadata archived for the entry at `q` with modification time `t` (nanoseconds). -/
def Src.info (s : Src) (q : List Bytes) (t : Int) : Meta :=
  ⟨(s.ids q).1, (s.ids q).2.1, (s.ids q).2.2, asU64 (seconds t)⟩

/-- `o` is what an archive shall hold for the source entry at `q`: nothing for a special file. -/
def Archived (s : Src) (bytes : ContentAddr → GetBytes) (q : List Bytes) (o : Option Node) : Prop :=
  match s.fs.nodes q with
  | none => False
  | some (.dir t) => o = some ⟨s.info q t, .dir⟩
  | some (.link target t) => o = some ⟨s.info q t, .link target⟩
  | some (.file i) =>
    if s.special i then o = none
    else ∃ a, o = some ⟨s.info q (s.fs.data i).mtime, .file (s.fs.data i).bytes.length a⟩ ∧
      bytes a = .found (s.fs.data i).bytes

/-- The names `cs` a root is archived under are in `p` without `"."` and after removal of the prefix. -/
def StoredAs (path stripPrefix : Bytes) (k : List Bytes) : Prop :=
  (comps path).filter (· ≠ CUR) = comps stripPrefix ++ k

/-- The tree of the source at `q` is the tree of `after` at `base` (special files excepted, which are not
archived). -/
structure SameTree (s : Src) (q : List Bytes) (after : FS) (base : List Bytes) : Prop where
  dirs : ∀ p t, s.fs.nodes (q ++ p) = some (.dir t) → ∃ u, after.nodes (base ++ p) = some (.dir u)
  files : ∀ p i, s.fs.nodes (q ++ p) = some (.file i) → s.special i = false →
    ∃ j, after.nodes (base ++ p) = some (.file j) ∧ (after.data j).bytes = (s.fs.data i).bytes
  links : ∀ p target t, s.fs.nodes (q ++ p) = some (.link target t) → ∃ u, after.nodes (base ++ p) = some (.link target u)
  special : ∀ p i, s.fs.nodes (q ++ p) = some (.file i) → s.special i = true → after.nodes (base ++ p) = none
  nothing : ∀ p, s.fs.nodes (q ++ p) = none → after.nodes (base ++ p) = none

/-- The states a new creator can reach by adding any entries from the file system (refused ones included). -/
inductive Adder.Reached (env : CEnv) : Adder → Prop
  | new : Adder.Reached env Adder.new
  | step {a a' : Adder} {o : AOut} (pre : RPath) (path : Bytes) (follow : Bool) : Adder.Reached env a →
      a.addEntryFromPath env pre path follow = (a', o) → o ≠ .panic → Adder.Reached env a'

/-- The source may change, but not while one entry is looked at (each entry takes four calls at most). -/
def SteadyPerEntry (env : CEnv) : Prop := ∀ j i, i < 4 → env.src (4 * j + i) = env.src (4 * j)

end Arx
