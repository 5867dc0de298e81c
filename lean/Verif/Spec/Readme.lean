import Verif.Spec.CmdLine
import Verif.Spec.CreateOk
import Verif.Spec.Trip
import Verif.Spec.Adder
import Verif.Spec.Written
/-!
# Specification: the command lines of the README (/repo/README.md:36-119)

`A`, `D`, … stand for the names used there (`my_archive.arx`, `my_directory`, …): any words that are not empty and do not begin with a dash.
-/
namespace Arx

/-- A name as it is written on a command line. -/
def WordName (w : Bytes) : Prop := w ≠ [] ∧ w.head? ≠ some 45

def readmeCreate (A D : Bytes) : List Bytes := [ascii "create", ascii "-o", A, ascii "-r", D]
def readmeFlat (A D : Bytes) : List Bytes := [ascii "create", ascii "-o", A, D]
def readmeStrip (A P D : Bytes) : List Bytes := [ascii "create", ascii "-o", A, ascii "-r", ascii "--strip-prefix", P, D]
def readmeExtract (A O : Bytes) : List Bytes := [ascii "extract", A, ascii "-C", O]
def readmeList (A : Bytes) : List Bytes := [ascii "list", A]
def readmeStable (A : Bytes) : List Bytes := [ascii "list", ascii "--stable-output", A]
def readmeDump (A f : Bytes) : List Bytes := [ascii "dump", A, f]
def readmeDumpTo (A f O : Bytes) : List Bytes := [ascii "dump", A, f, O]
def readmeMount (A M : Bytes) : List Bytes := [ascii "mount", A, M]
def readmeConvert (A T : Bytes) : List Bytes := [ascii "-o", A, T]

/-- The options of `arx create -o A -r D`. -/
def readmeCreateOpts (A D : Bytes) (r : Bool) : CreateOpts := ⟨some A, none, none, [D], none, r, false, false, false, false⟩
def readmeExtractOpts (O : Bytes) : ExtractOpts := ⟨some O, [], none, none, false, false, .warn⟩

/-- `arx create -o A -r D` wrote the archive `a` (its rows in the order `order`): with the default compression in the build, from a
source `s` that does not change meanwhile and whose directories can be listed, with any interleaving of the threads. -/
structure ReadmeRun (ft : Features) (A D : Bytes) (p : ProgSys) (s : Src) (a : Adder) (order : List Nat) : Prop where
  zstd : ft.zstd = true
  archiveName : WordName A
  dirName : WordName D
  quiet : Quiet (p.main.create.cenv p.main.create.cwd) s
  tree : s.WF
  check : p.main.create.atCheck = s
  walks : ∀ i, (p.main.create.walks i).src = s ∧ FullListing s (p.main.create.walks i).ls ∧
    ∀ q, s.fs.nodes q ≠ none → q.length ≤ (p.main.create.walks i).depth
  wrote : ∃ evs e N, arxProgram ft (readmeCreate A D) p = (.create evs, e) ∧ CreateEv.written N a ∈ evs
  layout : IsLayout a.creator order
  size : a.creator.store.length + 2 < 2 ^ 32

/-- `arx` can open this archive as `A`. -/
def FoundAs (A : Bytes) (a : Adder) (order : List Nat) (p : ProgSys) : Prop :=
  p.archives A = some (writeArchive a.creator order, packBytes a.contents)

/-- The paths of the entries of `D`: what is at or below it and no special file, and the directories above. -/
def InTree (s : Src) (cwd : List Bytes) (D : Bytes) (z : List Bytes) : Prop :=
  ∃ k q p, InputAt s cwd [] D k q ∧ s.Has q p ∧ ¬ s.Special (q ++ p) ∧ z ≠ [] ∧ z <+: k ++ p

end Arx
