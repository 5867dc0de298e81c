import Verif.Spec.Adder
/-!
# Specification of the round trip archive → directory → archive
-/
namespace Arx

/-- Two archives hold the same at a path, but for the metadata: nothing; a directory; a link with the same
target; a file with the same content (whose size is its length). -/
def SameEntry (bytes bytes' : ContentAddr → GetBytes) : Option Node → Option Node → Prop
  | none, none => True
  | some n, some n' =>
    match n.kind, n'.kind with
    | .dir, .dir => True
    | .link t, .link t' => t = t'
    | .file _ c, .file s' c' => ∃ b, bytes c = .found b ∧ bytes' c' = .found b ∧ s' = b.length
    | _, _ => False
  | _, _ => False

end Arx
