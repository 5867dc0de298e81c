import Verif.Spec.Extract
import Verif.Spec.Hostile
import Verif.Spec.Convert
/-!
# Specification: entries that stay in the directory they are extracted to
-/
namespace Arx

/-- One name of a path: `".."` leads back, `"."` nowhere. -/
def leadStep (cur : List Bytes) (c : Bytes) : List Bytes :=
  if c = CUR then cur else if c = PARENT then cur.dropLast else cur ++ [c]

/-- Where a path leads to from the directory `cur`, if there is no symbolic link on the way. -/
def leadsFrom (cur p : List Bytes) : List Bytes := p.foldl leadStep cur

/-- The entries `m` can be extracted safely: they have no name `"."`, never lead above where they start, and no path
leads through the place of a symbolic link, nor does that of a directory or file end there. -/
structure TreeInside (m : PathMap) : Prop where
  cur : ∀ p n, m p = some n → CUR ∉ p
  inside : ∀ p n, m p = some n → StaysInside p
  links : ∀ p n t, m p = some n → n.kind = .link t → ∀ q n', m q = some n' → ∀ q', q' <+: q →
    (q' ≠ q ∨ ∀ t', n'.kind ≠ .link t') → leadsFrom [] q' ≠ leadsFrom [] p

end Arx
