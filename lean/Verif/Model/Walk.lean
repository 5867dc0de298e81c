import Verif.Model.Reader
/-!
# Walking an archive

Model of /repo/libarx/src/walk.rs.  The context `C` of an operator stands for everything the operator
can change: the `&mut Context` argument and the outside world (output, file system).
-/
namespace Arx

/-- `trait Operator` (/repo/libarx/src/walk.rs:5-28). Each call returns the new context and the
`jbk::Result`; the context keeps its changes also when the call fails. -/
structure Operator (E C F L D : Type) where
  onStart : C → C × Except E Unit
  onStop : C → C × Except E Unit
  onEnter : C → D → C × Except E Bool
  onExit : C → D → C × Except E Unit
  onFile : C → F → C × Except E Unit
  onLink : C → L → C × Except E Unit

/-- How a walk fails: reading an entry failed, the operator failed, or the recursion is deeper than
the bound (only possible for a table with a cyclic directory, where the program overflows its stack). -/
inductive WErr (E : Type) where
  | read (e : RErr)
  | op (e : E)
  | depth
  deriving DecidableEq, Repr

/-- `?` on an operator call. -/
def liftOp {E C α : Type} : C × Except E α → C × Except (WErr E) α
  | (c, .ok x) => (c, .ok x)
  | (c, .error e) => (c, .error (.op e))

/-- A `for` loop whose body may return early with an error. -/
def forEach {C X E : Type} (body : C → X → C × Except E Unit) : C → List X → C × Except E Unit
  | c, [] => (c, .ok ())
  | c, x :: xs =>
    match body c x with
    | (c', .error e) => (c', .error e)
    | (c', .ok ()) => forEach body c' xs

/-- The body of the loop of `_run` for one read entry (/repo/libarx/src/walk.rs:76-85). `sub` is the
recursive call. -/
def walkEntry {E C F L D : Type} (op : Operator E C F L D) (sub : Range → C → C × Except (WErr E) Unit)
    (c : C) (e : Res (Entry F L D)) : C × Except (WErr E) Unit :=
  match e with
  | .error x => (c, .error (.read x))
  | .ok (.file f) => liftOp (op.onFile c f)
  | .ok (.link l) => liftOp (op.onLink c l)
  | .ok (.dir r d) =>
    match op.onEnter c d with
    | (c1, .error x) => (c1, .error (.op x))
    | (c1, .ok enter) =>
      match (if enter then sub r c1 else (c1, .ok ())) with
      | (c2, .error x) => (c2, .error x)
      | (c2, .ok ()) => liftOp (op.onExit c2 d)

/-- `Walker::_run` (/repo/libarx/src/walk.rs:66-89). The first argument bounds the recursion depth. -/
def Archive.walkRange (a : Archive) {E C F L D : Type} (B : Builder F L D) (op : Operator E C F L D) :
    Nat → Range → C → C × Except (WErr E) Unit
  | 0, _, c => (c, .error .depth)
  | f + 1, range, c =>
    forEach (walkEntry op (Archive.walkRange a B op f)) c (a.readRange B range)

/-- `Walker::run_from_range` (/repo/libarx/src/walk.rs:51-64). -/
def Archive.walkFrom (a : Archive) {E C F L D : Type} (B : Builder F L D) (op : Operator E C F L D)
    (depth : Nat) (range : Range) (c : C) : C × Except (WErr E) Unit :=
  match op.onStart c with
  | (c1, .error x) => (c1, .error (.op x))
  | (c1, .ok ()) =>
    match a.walkRange B op depth range c1 with
    | (c2, .error x) => (c2, .error x)
    | (c2, .ok ()) => liftOp (op.onStop c2)

/-- `Walker::run` (/repo/libarx/src/walk.rs:40-49). -/
def Archive.walk (a : Archive) {E C F L D : Type} (B : Builder F L D) (op : Operator E C F L D)
    (depth : Nat) (c : C) : C × Except (WErr E) Unit :=
  a.walkFrom B op depth a.root c

end Arx
