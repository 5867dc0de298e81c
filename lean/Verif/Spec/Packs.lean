import Verif.Spec.Steps
import Verif.Model.ArxFs
/-!
# Archives some of whose content packs are missing
-/
namespace Arx

/-- What is read of the contents `content` if only the packs with those of `there` are found. -/
def contentsThere (content : ContentAddr → Bytes) (there : ContentAddr → Bool) (c : ContentAddr) : GetBytes :=
  if there c then .found (content c) else .missing

/-- A run of `arx extract`: what it was asked for, and which contents were there then. -/
structure PackRun where
  asked : Selection
  there : ContentAddr → Bool

/-- Runs of extraction, one after the other, of the same part of the same archive to the same directory, as in `Runs`; but the content packs
that are found may be others each time. The newest run is first. -/
inductive PackRuns (a : Archive) (content : ContentAddr → Bytes) (base : List Bytes) (rg : Range) (before : FS) : List PackRun → FS → Prop
  | none : PackRuns a content base rg before [] before
  | wait {after : FS} {runs : List PackRun} (t : Int) : PackRuns a content base rg before runs after →
      PackRuns a content base rg before runs { after with now := t }
  | run {fs after : FS} {runs : List PackRun} (cfg : XCfg) (there : ContentAddr → Bool) : PackRuns a content base rg before runs fs →
      cfg.a = a → cfg.bytes = contentsThere content there → cfg.base = base → CleanExtraction cfg rg fs after .ok →
      PackRuns a content base rg before (⟨(cfg.files, cfg.recurse), there⟩ :: runs) after

/-- The run was asked for the entry `n` at `p` and could read it. -/
def PackRun.Gives (r : PackRun) (p : List Bytes) (n : Node) : Prop :=
  Selected r.asked.1 r.asked.2 p n.isDir ∧ ∀ s c, n.kind = .file s c → r.there c = true

/-- Below `base` is exactly what one of the runs could give, complete. -/
structure GivenAt (fs : FS) (base : List Bytes) (m : PathMap) (content : ContentAddr → Bytes) (runs : List PackRun) : Prop where
  there : ∀ p n, m p = some n → (∃ r ∈ runs, r.Gives p n) → IsEntry (fun c => .found (content c)) fs (base ++ p) n
  absent : ∀ p n, m p = some n → (∀ r ∈ runs, ¬ r.Gives p n) → fs.nodes (base ++ p) = none
  nothing : ∀ p, p ≠ [] → m p = none → fs.nodes (base ++ p) = none

/-- The same mount, other contents being found. -/
def FsCfg.finding (cfg : FsCfg) (bytes : ContentAddr → GetBytes) : FsCfg := { cfg with bytes := bytes }

end Arx
