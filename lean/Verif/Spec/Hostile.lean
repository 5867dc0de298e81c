import Verif.Model.Walk
import Verif.Model.Extract
/-!
# Archives not made by the creator: any table

Vocabulary that only looks at the rows.
-/
namespace Arx

/-- Row `i` exists and lies in the range. -/
def Archive.RowIn (a : Archive) (range : Range) (i : Nat) (r : RawEntry) : Prop :=
  range.offset ≤ i ∧ i < range.offset + range.count ∧ a.entries[i]? = some r

/-- Row `i` is a directory, whose children are the rows of `range`. -/
def RawEntry.IsDirOf (r : RawEntry) (range : Range) : Prop := r.variant = 1 ∧ range = rowRange r

/-- Row `i` can be reached from the range by these names: a row of the range has the first name and, if there
are more, is a directory from whose children the others lead to row `i`. -/
inductive Archive.RowAt (a : Archive) : Range → List Bytes → Nat → Prop
  | last {range i r} : a.RowIn range i r → Archive.RowAt a range [r.name] i
  | inner {range range' i r c cs j} : a.RowIn range i r → r.IsDirOf range' → Archive.RowAt a range' (c :: cs) j →
      Archive.RowAt a range (r.name :: c :: cs) j

/-- The children of every directory that has some come after it (true of created archives). -/
def Archive.Forward (a : Archive) : Prop :=
  ∀ (i : Nat) (r : RawEntry) (range : Range), a.entries[i]? = some r → r.IsDirOf range → range.count = 0 ∨ i < range.offset

/-- Row `i` is a directory and row `j` is in it, directly or not. -/
inductive Archive.Contains (a : Archive) : Nat → Nat → Prop
  | child {i j r r' range} : a.entries[i]? = some r → r.IsDirOf range → a.RowIn range j r' → Archive.Contains a i j
  | deep {i j k r r' range} : a.entries[i]? = some r → r.IsDirOf range → a.RowIn range j r' → Archive.Contains a j k → Archive.Contains a i k

/-- The number `i` is in `range`, or in the range of a directory in `range`, and so on. -/
inductive Archive.Met (a : Archive) : Range → Nat → Prop
  | here {range i} : range.offset ≤ i → i < range.offset + range.count → Archive.Met a range i
  | deeper {range range' j i r} : a.RowIn range j r → r.IsDirOf range' → Archive.Met a range' i → Archive.Met a range i

/-- No directory in the rows of `range`, or in one of these directories, and so on, contains itself. -/
def Archive.NoLoop (a : Archive) (range : Range) : Prop :=
  ∀ (j i : Nat) (r : RawEntry), a.RowIn range j r → j = i ∨ a.Contains j i → ¬ a.Contains i i

/-- `p` leads from the root along `base`, or on below it. -/
def Along (base p : List Bytes) : Prop := p <+: base ∨ base <+: p

/-- No symbolic link on the way to `base`, at it or below it. -/
def NoLinks (base : List Bytes) (fs : FS) : Prop := ∀ q, Along base q → ∀ t s, fs.nodes q ≠ some (.link t s)

/-- `base` is a place for untrusted archives: it has no `"."` or `".."`, no symbolic links are on the way to it
or below it, and no file below it has a hard link elsewhere (for instance: it is empty or does not exist). -/
structure SafeTarget (fs : FS) (base : List Bytes) : Prop where
  names : ∀ c ∈ base, c ≠ CUR ∧ c ≠ PARENT
  links : NoLinks base fs
  alias : ∀ q q' i, base <+: q → ¬ base <+: q' → fs.nodes q = some (.file i) → fs.nodes q' ≠ some (.file i)
  inos : ∀ q i, fs.nodes q = some (.file i) → i < fs.next

/-- Only `base` has changed: what is at every other path is still there, missing directories on the way to
`base` may have been made, and the content of every file elsewhere is the same. -/
structure OnlyBelow (base : List Bytes) (before after : FS) : Prop where
  nodes : ∀ q, ¬ base <+: q → after.nodes q = before.nodes q ∨
    (q <+: base ∧ before.nodes q = none ∧ ∃ t, after.nodes q = some (.dir t))
  data : ∀ q i, ¬ base <+: q → before.nodes q = some (.file i) → after.data i = before.data i

/-- A table with no `".."` in any name and no symbolic links. -/
def Archive.Tame (a : Archive) : Prop :=
  ∀ (i : Nat) (r : RawEntry), a.entries[i]? = some r → PARENT ∉ comps r.name ∧ r.variant ≠ 2

end Arx
