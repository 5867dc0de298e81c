import Verif.Spec.Steps

/-! Extracting a new version of an archive over an old one (C97). -/
namespace Arx

/-- An entry of kind `new` can take the place of one of kind `old`: a directory stays one; a file is replaced by a file or a link, a link by a
link. -/
def KindReplaces : Kind → Kind → Prop
  | .dir, .dir => True
  | .file _ _, .file _ _ => True
  | .file _ _, .link _ => True
  | .link _, .link _ => True
  | _, _ => False

/-- The entries of the old archive that were extracted, by runs with the selections `sels`. -/
def OldEntry (old : PathMap) (sels : List Selection) (p : List Bytes) (n : Node) : Prop := old p = some n ∧ SelectedIn sels p n.isDir

/-- The entries of the new archive that are to be extracted. -/
def NewEntry (new : PathMap) (sel : Selection) (p : List Bytes) (n : Node) : Prop := new p = some n ∧ Selected sel.1 sel.2 p n.isDir

/-- The directory `base` of `after` is what the extraction of a new archive with the given mode makes of the extracted old one (in `mid`). -/
structure Upgraded (mid after : FS) (base : List Bytes) (mode : Overwrite) (old new : List Bytes → Node → Prop)
    (oldBytes newBytes : ContentAddr → GetBytes) : Prop where
  /-- what is new is there -/
  added : ∀ p n, new p n → (∀ n', ¬ old p n') → IsEntry newBytes after (base ++ p) n
  /-- what is in both is replaced, if the mode says so -/
  replaced : ∀ p n n' x, old p n → new p n' → mid.nodes (base ++ p) = some x → Replaces mode n'.info.mtime (mid.timeOf x) →
    IsEntry newBytes after (base ++ p) n'
  kept : ∀ p n n' x, old p n → new p n' → mid.nodes (base ++ p) = some x → ¬ Replaces mode n'.info.mtime (mid.timeOf x) →
    IsEntry oldBytes after (base ++ p) n
  /-- what is not in the new archive stays -/
  stays : ∀ p n, old p n → (∀ n', ¬ new p n') → IsEntry oldBytes after (base ++ p) n
  nothing : ∀ p, p ≠ [] → (∀ n, ¬ old p n) → (∀ n, ¬ new p n) → after.nodes (base ++ p) = none

end Arx
