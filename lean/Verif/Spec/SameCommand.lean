import Verif.Spec.Reproduce
/-!
# Specification: commands that ask for the same archive
-/
namespace Arx

/-- What `find` prints for some paths (that are no symbolic links), one path per line: for each of them the path itself and, with recursion,
all that is below it, named from it; what is below a directory comes after it, else in any order. -/
inductive FindPrints (s : Src) (cwd : List Bytes) (rc : Bool) : List Bytes → List Bytes → Prop
  | nil : FindPrints s cwd rc [] []
  | cons {root : Bytes} {q : List Bytes} {order : List (List Bytes)} {roots lines : List Bytes} : root ≠ [] →
      s.fs.resolve false (namesOf cwd root) = .ok (.found q) → (∀ target t, s.fs.nodes q ≠ some (.link target t)) →
      order.head? = some [] → order.Pairwise (fun p p' => ¬ p' <+: p) → (∀ p, p ∈ order ↔ s.Has q p ∧ (p = [] ∨ rc = true)) →
      FindPrints s cwd rc roots lines → FindPrints s cwd rc (root :: roots) (order.map (fun p => p.foldl joinChild root) ++ lines)

end Arx
