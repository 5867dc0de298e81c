import Verif.Model.Types
/-!
# Specification: an archive is a finite map from paths to nodes

Independent of the creator's data structures.  A path is its list of names.
-/
namespace Arx

/-- The content of an archive as a user sees it. -/
abbrev PathMap := List Bytes → Option Node

def PathMap.empty : PathMap := fun _ => none

/-- The path (list of names) an entry is to be stored under: the components of its text, without
trailing `"."`. -/
def entryPath (p : RPath) : List Bytes := dropTrailingCur (comps p)

/-- `q` is a proper ancestor of `p`, i.e. one of the directories `p` lies in (the root, written `[]`,
excluded). -/
def ProperAncestor (q p : List Bytes) : Prop := q ≠ [] ∧ q ≠ p ∧ q <+: p

instance (q p : List Bytes) : Decidable (ProperAncestor q p) := by
  unfold ProperAncestor; infer_instance

/-- Some proper ancestor of `p` exists and is not a directory. -/
def Blocked (m : PathMap) (p : List Bytes) : Prop :=
  ∃ q n, ProperAncestor q p ∧ m q = some n ∧ n.isDir = false

/-- `m` plus the missing ancestors of `p`, as default directories. -/
def withParents (m : PathMap) (p : List Bytes) : PathMap := fun q =>
  match m q with
  | some n => some n
  | none => if ProperAncestor q p then some defaultDir else none

def setNode (m : PathMap) (p : List Bytes) (n : Node) : PathMap := fun q =>
  if q = p then some n else m q

/-- Specification of one accepted-or-refused add, as a relation between the map before, the request,
the map after and the outcome. -/
inductive SpecAdd (m : PathMap) (r : AddReq) : PathMap → AddOut → Prop
  /-- an ancestor is a file or a link: refused, nothing changes -/
  | blocked : Blocked m (entryPath r.path) → SpecAdd m r m (.err .notADir)
  /-- the entry's kind cannot be determined: refused (but the ancestors now exist) -/
  | kindErr (u : Unit) : ¬ Blocked m (entryPath r.path) → r.kind = .error u →
      SpecAdd m r (withParents m (entryPath r.path)) (.err .kind)
  /-- entry of an unsupported kind: ignored (but the ancestors now exist) -/
  | ignored : ¬ Blocked m (entryPath r.path) → r.kind = .ok none →
      SpecAdd m r (withParents m (entryPath r.path)) .ok
  /-- the path has no usable last name (empty path, or last component `..`) -/
  | noName (m' : PathMap) (k : Kind) : ¬ Blocked m (entryPath r.path) → r.kind = .ok (some k) →
      (entryPath r.path = [] ∨ (entryPath r.path).getLast? = some PARENT) → SpecAdd m r m' .panic
  /-- a directory that already exists as a directory: accepted, nothing changes -/
  | sameDir (n : Node) : ¬ Blocked m (entryPath r.path) → entryPath r.path ≠ [] →
      (entryPath r.path).getLast? ≠ some PARENT → r.kind = .ok (some .dir) →
      m (entryPath r.path) = some n → n.isDir = true → SpecAdd m r m .ok
  /-- the path already exists otherwise: refused, nothing changes -/
  | exists (k : Kind) (n : Node) (e : AddErr) : ¬ Blocked m (entryPath r.path) → entryPath r.path ≠ [] →
      (entryPath r.path).getLast? ≠ some PARENT → r.kind = .ok (some k) →
      m (entryPath r.path) = some n → (k.isDir && n.isDir) = false → SpecAdd m r m (.err e)
  /-- the path is new: it is added, with its missing ancestors -/
  | added (k : Kind) : ¬ Blocked m (entryPath r.path) → entryPath r.path ≠ [] →
      (entryPath r.path).getLast? ≠ some PARENT → r.kind = .ok (some k) → m (entryPath r.path) = none →
      SpecAdd m r (setNode (withParents m (entryPath r.path)) (entryPath r.path) ⟨r.info, k⟩) .ok

/-- The maps a history of adds can lead to; a crash ends the history. -/
inductive SpecRun : PathMap → List AddReq → PathMap → Prop
  | nil (m : PathMap) : SpecRun m [] m
  | cons {m m1 m2 : PathMap} {r : AddReq} {rs : List AddReq} {o : AddOut} :
      SpecAdd m r m1 o → o ≠ .panic → SpecRun m1 rs m2 → SpecRun m (r :: rs) m2

/-- Maps with the shape of a tree: no entry at the empty path, names are valid components, and every
ancestor of an entry is a directory. -/
structure PathMap.WF (m : PathMap) : Prop where
  root : m [] = none
  names : ∀ p n, m p = some n → ∀ c ∈ p, ValidName c
  ancestors : ∀ p n q, m p = some n → ProperAncestor q p → ∃ d, m q = some d ∧ d.isDir = true

end Arx
