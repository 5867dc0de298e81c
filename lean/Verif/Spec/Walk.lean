import Verif.Spec.PathMap
import Verif.Model.Walk
import Verif.Spec.Written
import Verif.Spec.Order
/-!
# Specification of a walk
-/
namespace Arx

/-- `ns` are the names of the children of directory `d`, in increasing byte order. -/
def KidsOf (m : PathMap) (d : List Bytes) (ns : List Bytes) : Prop :=
  ns.Pairwise ltBytes ∧ ∀ c, c ∈ ns ↔ ∃ n, m (d ++ [c]) = some n

/-- `V` lists every path of `m` at or below (strictly below) `d` exactly once, directories before
their content, siblings in increasing byte order. -/
def Listing (m : PathMap) (d : List Bytes) (V : List (List Bytes)) : Prop :=
  V.Pairwise lexLt ∧ ∀ p, p ∈ V ↔ (∃ n, m p = some n) ∧ d <+: p ∧ d ≠ p

/-- What happens during a walk, in terms of paths. -/
inductive Ev where
  | enter (p : List Bytes)
  | exit (p : List Bytes)
  | leaf (p : List Bytes)
  deriving DecidableEq, Repr

/-- the entry this event is the first contact with -/
def Ev.visited : Ev → Option (List Bytes)
  | .enter p => some p
  | .leaf p => some p
  | .exit _ => none

/-- The complete walk of the children `ns` of directory `d`, in that order: a file or link is one
event; a directory is entered, then its children are walked, then it is left. -/
inductive TraceOf (m : PathMap) : List Bytes → List Bytes → List Ev → Prop
  | nil (d : List Bytes) : TraceOf m d [] []
  | leaf {d c cs T n} : m (d ++ [c]) = some n → n.isDir = false → TraceOf m d cs T →
      TraceOf m d (c :: cs) (.leaf (d ++ [c]) :: T)
  | dir {d c cs ks T1 T2 n} : m (d ++ [c]) = some n → n.isDir = true → KidsOf m (d ++ [c]) ks →
      TraceOf m (d ++ [c]) ks T1 → TraceOf m d cs T2 →
      TraceOf m d (c :: cs) (.enter (d ++ [c]) :: (T1 ++ .exit (d ++ [c]) :: T2))

/-- `R` holds of the elements of two lists at equal positions, and the lists have equal length. -/
inductive All2 {α β : Type} (R : α → β → Prop) : List α → List β → Prop
  | nil : All2 R [] []
  | cons {a b l k} : R a b → All2 R l k → All2 R (a :: l) (b :: k)

/-! ## The calls an operator receives -/

inductive Call (F L D : Type) where
  | start
  | stop
  | enter (d : D)
  | exit (d : D)
  | file (f : F)
  | link (l : L)

/-- the context after one call (its verdict dropped) -/
def Operator.call {E C F L D : Type} (op : Operator E C F L D) (c : C) : Call F L D → C
  | .start => (op.onStart c).1
  | .stop => (op.onStop c).1
  | .enter d => (op.onEnter c d).1
  | .exit d => (op.onExit c d).1
  | .file f => (op.onFile c f).1
  | .link l => (op.onLink c l).1

/-- An operator that never fails and enters every directory. -/
structure Operator.Plain {E C F L D : Type} (op : Operator E C F L D) : Prop where
  start : ∀ c, (op.onStart c).2 = .ok ()
  stop : ∀ c, (op.onStop c).2 = .ok ()
  enter : ∀ c d, (op.onEnter c d).2 = .ok true
  exit : ∀ c d, (op.onExit c d).2 = .ok ()
  file : ∀ c f, (op.onFile c f).2 = .ok ()
  link : ∀ c l, (op.onLink c l).2 = .ok ()

/-- The operator that records every call it receives. -/
def recorder (F L D : Type) : Operator Unit (List (Call F L D)) F L D where
  onStart c := (c ++ [.start], .ok ())
  onStop c := (c ++ [.stop], .ok ())
  onEnter c d := (c ++ [.enter d], .ok true)
  onExit c d := (c ++ [.exit d], .ok ())
  onFile c f := (c ++ [.file f], .ok ())
  onLink c l := (c ++ [.link l], .ok ())

/-- the read entry is the entry of `m` at path `p` -/
def EntryAt (a : Archive) (m : PathMap) (p : List Bytes) (e : Entry FileEntry LinkEntry DirEntry) : Prop :=
  ∃ n, m p = some n ∧ EntryIs e n ∧ pathUp a a.entries.length e.common.idx = some p ∧
    p.getLast? = some e.common.path

/-- The call is the one event `ev` stands for. -/
inductive CallFor (a : Archive) (m : PathMap) : Call FileEntry LinkEntry DirEntry → Ev → Prop
  | enter {e p} : EntryAt a m p (.dir e.range e) → CallFor a m (.enter e) (.enter p)
  | exit {e p} : EntryAt a m p (.dir e.range e) → CallFor a m (.exit e) (.exit p)
  | file {e p} : EntryAt a m p (.file e) → CallFor a m (.file e) (.leaf p)
  | link {e p} : EntryAt a m p (.link e) → CallFor a m (.link e) (.leaf p)

end Arx
