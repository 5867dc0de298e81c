import Verif.Model.Cmd
import Verif.Spec.Extract
/-!
# Specification of the commands
-/
namespace Arx

/-- `text` is a file with one path per line: each line ends with `\n` or `\r\n`; the last may not. -/
inductive TextOf : List Bytes → Bytes → Prop
  | empty : TextOf [] []
  | last {l : Bytes} : l ≠ [] → (10 : UInt8) ∉ l → TextOf [l] l
  | line {l t : Bytes} {ls : List Bytes} : (10 : UInt8) ∉ l → l.getLast? ≠ some 13 → TextOf ls t → TextOf (l :: ls) (l ++ 10 :: t)
  | crlf {l t : Bytes} {ls : List Bytes} : (10 : UInt8) ∉ l → TextOf ls t → TextOf (l :: ls) (l ++ 13 :: 10 :: t)

/-- The entry at path `p` is asked for by one of the given paths: it is the entry named, or (with `recurse`)
lies in the directory named, or is a directory on the way to the entry named. -/
def AskedBy (files : List Bytes) (recurse : Bool) (p : List Bytes) (isDir : Bool) : Prop :=
  ∃ f ∈ files,
    comps f = p ∨
    (recurse = true ∧ comps f <+: p ∧ comps f ≠ p) ∨
    (isDir = true ∧ ∃ c t, comps f = p ++ c :: t ∧ c ≠ CUR)

/-- What the options of `arx extract` ask for: with a file list, what its lines name, and what is below only
with `--recurse`; with paths, what they name and, unless `--no-recurse`, what is below; everything with
neither. -/
def Wanted (o : ExtractOpts) (lines : List Bytes) (p : List Bytes) (isDir : Bool) : Prop :=
  match o.fileList with
  | some _ => AskedBy lines o.recurse p isDir
  | none => o.files = [] ∨ AskedBy o.files (!o.noRecurse) p isDir

/-- Options clap accepts. -/
def ExtractOpts.Accepted (o : ExtractOpts) : Prop :=
  ¬ (o.recurse = true ∧ o.noRecurse = true) ∧ (o.fileList ≠ none → o.files = [])

/-- The output directory. -/
def ExtractOpts.target (o : ExtractOpts) (cwd : List Bytes) : List Bytes :=
  match o.outdir with
  | some d => baseNames cwd d
  | none => cwd

/-- The directory of the archive to extract. -/
def ExtractOpts.rootOf (o : ExtractOpts) : List Bytes := (o.rootDir.map comps).getD []

/-- Every write to standard output succeeds and, in the end, what the buffers hold (at most `cap` bytes) is
delivered. -/
def OutEnv.Healthy (o : OutEnv) (cap : Nat) : Prop := (∀ t, ∃ k, o.ev t = .accept k) ∧ cap ≤ o.last

/-- `got` is what was delivered of `want`: the beginning. -/
def Delivered (got want : Bytes) : Prop := got <+: want

/-- At most `n` bytes of `want` were not delivered. -/
def AllBut (n : Nat) (got want : Bytes) : Prop := ∃ rest, want = got ++ rest ∧ rest.length ≤ n

end Arx
