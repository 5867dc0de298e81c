import Verif.Model.Layout
import Verif.Spec.PathMap
import Verif.Spec.Order
/-!
# When an entry table encodes a path map (specification)

`P` lists the path of every table row.
-/
namespace Arx

/-- Rows `first, …, first+nb-1` are exactly the rows of the children of `d`. -/
def RangeIs (P : List (List Bytes)) (d : List Bytes) (first nb : Nat) : Prop :=
  ∀ j, (first ≤ j ∧ j < first + nb) ↔ ∃ n, P[j]? = some (d ++ [n])

/-- Row content for a path and a node. -/
def RowOK (P : List (List Bytes)) (p : List Bytes) (n : Node) (r : RawEntry) : Prop :=
  p.getLast? = some r.name ∧
  r.parent = (if p.length ≤ 1 then 0 else P.idxOf p.dropLast + 1) ∧
  r.owner = n.info.owner ∧ r.group = n.info.group ∧ r.rights = n.info.rights ∧ r.mtime = n.info.mtime ∧
  match n.kind with
  | .dir => r.variant = 1 ∧ RangeIs P p r.firstChild r.nbChildren ∧ (r.nbChildren = 0 → r.firstChild = 0) ∧
      r.content = default ∧ r.size = 0 ∧ r.target = []
  | .file size content => r.variant = 0 ∧ r.size = size ∧ r.content = content ∧
      r.firstChild = 0 ∧ r.nbChildren = 0 ∧ r.target = []
  | .link target => r.variant = 2 ∧ r.target = target ∧
      r.content = default ∧ r.size = 0 ∧ r.firstChild = 0 ∧ r.nbChildren = 0

/-- The table `a` holds exactly the entries of `m`, row `i` being the entry at path `P[i]`, rows in
increasing order (shallow first, then by names), each directory row designating exactly the rows of
its children. -/
structure Encodes (a : Archive) (m : PathMap) (P : List (List Bytes)) : Prop where
  len : a.entries.length = P.length
  sorted : P.Pairwise canonLt
  dom : ∀ p, p ∈ P ↔ ∃ n, m p = some n
  row : ∀ (i : Nat) (p : List Bytes) (r : RawEntry), P[i]? = some p → a.entries[i]? = some r →
    ∃ n, m p = some n ∧ RowOK P p n r
  root : a.root.offset = 0 ∧ RangeIs P [] 0 a.root.count
  wf : m.WF

end Arx
