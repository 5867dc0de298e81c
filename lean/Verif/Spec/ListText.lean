import Verif.Spec.PathMap
/-!
# Specification: what the text of a listing tells

Used by C86: when two archives can be told apart by the text `arx list` prints.
-/
namespace Arx

/-- Two nodes the stable listing is meant to show as the same: equal modification times, and equal kinds with,
for files, equal sizes and, for links, equal targets. -/
def SameListed (n n' : Node) : Prop :=
  n.info.mtime = n'.info.mtime ∧
  match n.kind, n'.kind with
  | .dir, .dir => True
  | .file s _, .file s' _ => s = s'
  | .link t, .link t' => t = t'
  | _, _ => False

/-- Both archives have the same paths, and at each path nodes that are `SameListed`. -/
def SameListing (m m' : PathMap) : Prop :=
  ∀ p, match m p, m' p with
    | none, none => True
    | some n, some n' => SameListed n n'
    | _, _ => False

/-- No name contains a newline. -/
def NoNewline (m : PathMap) : Prop := ∀ p n, m p = some n → ∀ c ∈ p, (10 : UInt8) ∉ c

/-- The links do not get in the way either: no path of a link contains the text `->`, and the targets are text
(UTF-8) without a newline. -/
def ClearLinks (m : PathMap) : Prop :=
  ∀ p n t, m p = some n → n.kind = .link t →
    ¬ ascii "->" <:+: joinPath p ∧ validUtf8 t = true ∧ (10 : UInt8) ∉ t

end Arx
