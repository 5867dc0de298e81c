import Verif.Spec.Create
/-!
# Specification of the round trip through the commands `arx create` and `arx extract`
-/
namespace Arx

/-- The source entry at `q` is a directory. -/
def Src.DirAt (s : Src) (q : List Bytes) : Prop := ∃ t, s.fs.nodes q = some (.dir t)

/-- What is at `z` of `after` is what the source has at `q`: a directory; a file with the same content; a link with the same
target. (Special files are not archived, nothing is said of them.) -/
def SameAt (s : Src) (q : List Bytes) (after : FS) (z : List Bytes) : Prop :=
  match s.fs.nodes q with
  | none => False
  | some (.dir _) => ∃ u, after.nodes z = some (.dir u)
  | some (.link target _) => ∃ u, after.nodes z = some (.link target u)
  | some (.file i) => s.special i = false → ∃ j, after.nodes z = some (.file j) ∧ (after.data j).bytes = (s.fs.data i).bytes

/-- The inputs `roots` of `arx create` (with or without recursion) are brought back to the directory `base` of `after` by an
`arx extract` that takes what is below `d0` in the archive, as far as it is wanted: each entry of the inputs, at the path it
is stored at; and below `base` is nothing else, but for the directories above. -/
structure BroughtBack (s : Src) (cwd : List Bytes) (pre : RPath) (roots : List Bytes) (recurse : Prop) (d0 : List Bytes)
    (wanted : List Bytes → Bool → Prop) (after : FS) (base : List Bytes) : Prop where
  all : ∀ root ∈ roots, ∃ k q, InputAt s cwd pre root k q ∧ ∀ p, s.Has q p → (p = [] ∨ recurse) →
    ∀ z b, k ++ p = d0 ++ z → z ≠ [] → (b = true ↔ s.DirAt (q ++ p)) → wanted z b → SameAt s (q ++ p) after (base ++ z)
  only : ∀ z x, z ≠ [] → after.nodes (base ++ z) = some x → ∃ root ∈ roots, ∃ k q p, InputAt s cwd pre root k q ∧ s.Has q p ∧
    (p = [] ∨ recurse) ∧ d0 ++ z <+: k ++ p ∧ (d0 ++ z = k ++ p → ¬ s.Special (q ++ p)) ∧
    ∃ b, (b = true ↔ ∃ t, x = .dir t) ∧ wanted z b

/-- The same for anything that was offered (pairs of the path it is stored at and the path of the source entry). -/
structure Restores (s : Src) (offered : List Bytes × List Bytes → Prop) (d0 : List Bytes)
    (wanted : List Bytes → Bool → Prop) (after : FS) (base : List Bytes) : Prop where
  all : ∀ u, offered u → ∀ z b, u.1 = d0 ++ z → z ≠ [] → (b = true ↔ s.DirAt u.2) → wanted z b → SameAt s u.2 after (base ++ z)
  only : ∀ z x, z ≠ [] → after.nodes (base ++ z) = some x → ∃ u, offered u ∧ d0 ++ z <+: u.1 ∧ (d0 ++ z = u.1 → ¬ s.Special u.2) ∧
    ∃ b, (b = true ↔ ∃ t, x = .dir t) ∧ wanted z b

end Arx
