import Verif.Model.Create
import Verif.Spec.Adder
import Verif.Spec.Cmd
/-!
# Specification of `arx create`
-/
namespace Arx

/-- Options clap accepts. -/
def CreateOpts.Accepted (o : CreateOpts) : Prop :=
  ¬ (o.recurse = true ∧ o.noRecurse = true) ∧ (o.fileList ≠ none → o.infiles = []) ∧
  (o.outfile = none → o.listCompressions = true)

/-- There is something at `p` (symbolic links are followed). -/
def Present (s : Src) (p : List Bytes) : Prop := ∃ q, s.fs.resolve true p = .ok (.found q)

/-- There is a directory at `p`. -/
def DirAt (s : Src) (p : List Bytes) : Prop :=
  ∃ q t, s.fs.resolve true p = .ok (.found q) ∧ s.fs.nodes q = some (.dir t)

/-- Recursion is in effect: by default for input files, with `--recurse` for a file list. -/
def CreateOpts.Recurses (o : CreateOpts) : Prop :=
  match o.fileList with
  | some _ => o.recurse = true
  | none => o.noRecurse = false

def CreateEv.isWritten : CreateEv → Bool
  | .written _ _ => true
  | _ => false

/-- The effect touches or reads something: everything but the message. -/
def CreateEv.isPrinted : CreateEv → Bool
  | .printed => true
  | _ => false

/-- `p` is a path below or at the source entry at `q` (`p = []`: the entry itself). -/
def Src.Has (s : Src) (q p : List Bytes) : Prop := s.fs.nodes (q ++ p) ≠ none

/-- The entry at `q` is a special file (which is not archived). -/
def Src.Special (s : Src) (q : List Bytes) : Prop := ∃ i, s.fs.nodes q = some (.file i) ∧ s.special i = true

/-- `o` is what the archive holds for the source entry at `q`; the directory may have been added before with
other metadata. -/
def Held (s : Src) (bytes : ContentAddr → GetBytes) (q : List Bytes) (o : Option Node) : Prop :=
  Archived s bytes q o ∨ ∃ t n, s.fs.nodes q = some (.dir t) ∧ o = some n ∧ n.isDir = true

/-- What is in the archive after adding the paths of `L` to an archive with `m`. -/
structure AfterAdding (s : Src) (cwd : List Bytes) (pre : RPath) (bytes : ContentAddr → GetBytes) (L : List (Bytes × Bool)) (m m' : PathMap) : Prop where
  keeps : ∀ z n, m z = some n → m' z = some n
  /-- each path is there, with its ancestors, unless it is a special file -/
  held : ∀ x ∈ L, ∃ k, StoredAs x.1 pre k ∧ (k ≠ [] → ∃ q, s.fs.resolve x.2 (namesOf cwd x.1) = .ok (.found q) ∧ s.Has q [] ∧
    (¬ s.Special q → Held s bytes q (m' k)) ∧ ∀ z, ProperAncestor z k → ∃ n, m' z = some n ∧ n.isDir = true)
  /-- nothing else is -/
  only : ∀ z n, m' z = some n → m z = some n ∨ ∃ x ∈ L, ∃ k q, StoredAs x.1 pre k ∧ s.fs.resolve x.2 (namesOf cwd x.1) = .ok (.found q) ∧
    (ProperAncestor z k ∨ (z = k ∧ k ≠ [] ∧ ¬ s.Special q))

/-- What an input stands for: the path it is stored at and the source entry it leads to. -/
def InputAt (s : Src) (cwd : List Bytes) (pre : RPath) (root : Bytes) (k q : List Bytes) : Prop :=
  StoredAs root pre k ∧ s.fs.resolve true (namesOf cwd root) = .ok (.found q) ∧ s.Has q []

/-- What an archive with map `m` holds for the inputs `roots`: what they lead to and, with recursion, all that
is below; with the directories above them; and nothing else. -/
structure HoldsInputs (s : Src) (cwd : List Bytes) (pre : RPath) (bytes : ContentAddr → GetBytes) (roots : List Bytes) (recurse : Prop)
    (m : PathMap) : Prop where
  all : ∀ root ∈ roots, ∃ k q, InputAt s cwd pre root k q ∧
    ∀ p, s.Has q p → (p = [] ∨ recurse) → k ++ p ≠ [] → ¬ s.Special (q ++ p) → Held s bytes (q ++ p) (m (k ++ p))
  only : ∀ z n, m z = some n → ∃ root ∈ roots, ∃ k q p, InputAt s cwd pre root k q ∧ s.Has q p ∧ (p = [] ∨ recurse) ∧ z ≠ [] ∧
    z <+: k ++ p ∧ (z = k ++ p → ¬ s.Special (q ++ p))

/-- Inputs are relative to the directory `cwd`: the one `-C` leads to, or else the current one. -/
def StartsIn (o : CreateOpts) (sys : CreateSys) (cwd : List Bytes) : Prop :=
  match o.baseDir with
  | none => cwd = sys.cwd
  | some d => LeadsTo sys.atChdir sys.cwd d cwd

end Arx
