import Verif.Spec.Extract
/-!
# Extracting an archive in several steps
-/
namespace Arx

/-- What one run of `arx extract` is asked to extract: paths, and whether directories are taken with their content. -/
abbrev Selection := List RPath × Bool

/-- One of the selections takes the entry at `p`. -/
def SelectedIn (sels : List Selection) (p : List Bytes) (isDir : Bool) : Prop := ∃ s ∈ sels, Selected s.1 s.2 p isDir

/-- Runs of extraction, one after the other, of the same part of the same archive to the same directory, each with its own
selection, overwrite mode and schedule of the threads; each of them ended with success, no system call failed; time passes
between them. `sels` are their selections. -/
inductive Runs (a : Archive) (bytes : ContentAddr → GetBytes) (base : List Bytes) (rg : Range) (before : FS) : List Selection → FS → Prop
  | none : Runs a bytes base rg before [] before
  | wait {after : FS} {sels : List Selection} (t : Int) : Runs a bytes base rg before sels after →
      Runs a bytes base rg before sels { after with now := t }
  | run {fs after : FS} {sels : List Selection} (cfg : XCfg) : Runs a bytes base rg before sels fs →
      cfg.a = a → cfg.bytes = bytes → cfg.base = base → CleanExtraction cfg rg fs after .ok →
      Runs a bytes base rg before ((cfg.files, cfg.recurse) :: sels) after

/-- The file system has at `q` what the entry `n` describes. -/
def IsEntry (bytes : ContentAddr → GetBytes) (fs : FS) (q : List Bytes) (n : Node) : Prop :=
  match n.kind with
  | .dir => ∃ t, fs.nodes q = some (.dir t)
  | .file _ c => ∃ i, fs.nodes q = some (.file i) ∧ bytes c = .found (fs.data i).bytes
  | .link target => ∃ t, fs.nodes q = some (.link target t)

/-- Below `base` is exactly the part of `m` that the selections take, complete. -/
structure PartAt (fs : FS) (base : List Bytes) (m : PathMap) (bytes : ContentAddr → GetBytes) (sels : List Selection) : Prop where
  there : ∀ p n, m p = some n → SelectedIn sels p n.isDir → IsEntry bytes fs (base ++ p) n
  unselected : ∀ p n, m p = some n → ¬ SelectedIn sels p n.isDir → fs.nodes (base ++ p) = none
  nothing : ∀ p, p ≠ [] → m p = none → fs.nodes (base ++ p) = none

end Arx
