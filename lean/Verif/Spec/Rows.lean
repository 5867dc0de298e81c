import Verif.Model.ArxFs
import Verif.Spec.Walk

/-!
# How much of an archive is read
-/
namespace Arx

/-- What is computed from the archive is determined by at most `k` rows of its table: another archive that has the same rows there (and
the same range as root) gives the same result, whatever the rest is. -/
def RowsRead {α : Type} (k : Nat) (f : Archive → α) (a : Archive) : Prop :=
  ∃ L : List Nat, L.length ≤ k ∧ ∀ a' : Archive, a'.root = a.root → (∀ i ∈ L, a'.entries[i]? = a.entries[i]?) → f a' = f a

/-- No directory of the archive (as it is stored) has more than `n` children. -/
def DirsUpTo (n : Nat) (a : Archive) : Prop := a.root.count ≤ n ∧ ∀ r ∈ a.entries, EntryType.tryFrom r.variant = some .dir → (rowRange r).count ≤ n

/-- The number of rounds of a binary search among `n`. -/
def rounds (n : Nat) : Nat := if n = 0 then 0 else Nat.log2 n + 1

/-- No directory of the tree has more than `n` children. -/
def PathMap.KidsUpTo (m : PathMap) (n : Nat) : Prop := ∀ (d : List Bytes) (ns : List Bytes), KidsOf m d ns → ns.length ≤ n

/-- The same mount of another archive. -/
def FsCfg.on (cfg : FsCfg) (a : Archive) : FsCfg := { cfg with a := a }

/-- How many rows a request may read, in an archive whose directories have at most `n` children: a lookup those of a search, the directory and
the entry; a page of a directory as many as fit, one more, and the directory. -/
def FReq.mayRead (n : Nat) : FReq → Nat
  | .lookup _ _ => rounds n + 2
  | .getattr _ => 1
  | .readlink _ => 1
  | .open _ => 1
  | .opendir _ => 1
  | .read _ _ _ => 0
  | .release _ => 0
  | .releasedir _ => 0
  | .readdir _ _ bufSize => bufSize / 24 + 2

end Arx
