import Verif.Spec.Walk
import Verif.Base.Utf8
import Verif.Spec.Words
/-!
# What `arx list --stable-output 1` prints, whatever the names are

(C12.) The command keeps the path of the current directory, to which it appends the name of each entry; when it leaves a directory it removes
the last name, but a name `.` is removed together with the name before it.
-/
namespace Arx

/-- The path after the last name was removed: names `.` at the end do not count. -/
def leaveDir (ns : List Bytes) : List Bytes := ((ns.reverse.dropWhile (fun c => c = CUR)).drop 1).reverse

/-- The line of the entry at `p`, with the path `q` in it. -/
def lineAs (m : PathMap) (p q : List Bytes) : Bytes :=
  match m p with
  | none => []
  | some n =>
    match n.kind with
    | .dir => ascii "d " ++ decimal n.info.mtime ++ ascii " " ++ joinPath q ++ [10]
    | .file size _ => ascii "f " ++ decimal n.info.mtime ++ ascii " " ++ decimal size ++ ascii " " ++ joinPath q ++ [10]
    | .link target => ascii "l " ++ decimal n.info.mtime ++ ascii " " ++ joinPath q ++ ascii "->" ++ lossy target ++ [10]

/-- The lines of a walk that begins with the path `c`. -/
def shownFrom (m : PathMap) : List Bytes → List Ev → Bytes
  | _, [] => []
  | c, .enter p :: T => lineAs m p (c ++ p.drop (p.length - 1)) ++ shownFrom m (c ++ p.drop (p.length - 1)) T
  | c, .leaf p :: T => lineAs m p (c ++ p.drop (p.length - 1)) ++ shownFrom m (leaveDir (c ++ p.drop (p.length - 1))) T
  | c, .exit _ :: T => shownFrom m (leaveDir c) T

/-- The entry `r` comes after an entry named `.`, not below it, but in the same top-level directory. -/
def AfterDot (m : PathMap) (r : List Bytes) : Prop :=
  ∃ d, d ≠ [] ∧ m (d ++ [CUR]) ≠ none ∧ lexLt (d ++ [CUR]) r ∧ ¬ d ++ [CUR] <+: r ∧ r.head? = d.head?

end Arx
