import Verif.Model.PyReadme
import Verif.Spec.Walk
import Verif.Spec.PyCreate
import Verif.Spec.Trip

/-! The programs of the Python README (C98). -/
namespace Arx

/-- What is to be printed for the entry at path `p`: its path after a slash, and the size and at most 100 bytes of its content, its number of
children or its target. -/
def Printed (m : PathMap) (bytes : ContentAddr → GetBytes) (p : List Bytes) (l : List PyLine) : Prop :=
  ∃ n, m p = some n ∧
    match n.kind with
    | .file _ c => ∃ b, bytes c = .found b ∧ l = [.entry (SEP :: joinPath p), .content b.length (b.take 100)]
    | .dir => ∃ ns, KidsOf m p ns ∧ l = [.entry (SEP :: joinPath p), .children ns.length]
    | .link t => l = [.entry (SEP :: joinPath p), .link t]

/-- What the programs of the README do with the archive of the entries offered (pairs of the path it is stored at and the path of the source entry), `files` being
the paths given to `add` that lead to regular files. -/
structure ReadmeShows (s : Src) (offered : List Bytes × List Bytes → Prop) (files : Bytes → List Bytes → Nat → Prop) (a : Archive)
    (bytes : ContentAddr → GetBytes) (depth : Nat) (m : PathMap) : Prop where
  /-- the archive is that of the source -/
  all : ∀ u, offered u → ¬ s.Special u.2 → Held s bytes u.2 (m u.1)
  only : ∀ z n, m z = some n → ∃ u, offered u ∧ z <+: u.1 ∧ (z = u.1 → ¬ s.Special u.2)
  /-- the loop prints every entry -/
  read : ∃ (V : List (List Bytes)) (f : List Bytes → List PyLine), Listing m [] V ∧ (∀ p ∈ V, Printed m bytes p (f p)) ∧
    pyReadArchive a bytes depth = (V.flatMap f, true)
  /-- `get_entry`, with the content and the names along `parent` -/
  get : ∀ text k i, files text k i → ∃ e, pyGetEntry a text = .ok e ∧ pyContent bytes e = .stream ⟨(s.fs.data i).bytes, 0⟩ ∧
    (∀ (j : Nat) c, k.reverse[j]? = some c → ∃ d, pyUp a j e = some (some d) ∧ pyPath d = .ok c) ∧ pyUp a k.length e = some none
  /-- `extract` -/
  extract : ∀ (env : Env) (cwd : List Bytes) (path : Bytes) (before : FS) (last : List (Nat × WriteRes)) (w : World) (res : XResult),
    EmptyTarget before (baseNames cwd path) → (∀ n, env.fault n = false) → (∀ n, NoErr (env.sched n)) → NoErr last →
    pyExtract a bytes env cwd path depth before last = (w, res) → w.finished →
    res = .ok ∧ (∀ u, offered u → SameAt s u.2 w.fs (baseNames cwd path ++ u.1)) ∧
    ∀ z x, z ≠ [] → w.fs.nodes (baseNames cwd path ++ z) = some x → ∃ u, offered u ∧ z <+: u.1 ∧ (z = u.1 → ¬ s.Special u.2)

end Arx
