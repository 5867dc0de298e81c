import Verif.Spec.CreateOk
import Verif.Model.Python
/-!
# Specification: what a Python program archives
-/
namespace Arx

/-- A call of `Creator.add`: the path, `recursive`, and how the walk and its threads proceed. -/
structure PyAdd where
  path : Bytes
  recursive : Bool
  walk : WalkRun

/-- `with Creator(…) as c: c.add(…); c.add(…); …`, where the body catches the exceptions of `add`, or does not and ends there. -/
def pyWith (adds : List PyAdd) (exc writeOk : Bool) : List PyCall :=
  .enter :: adds.map (fun x => .add x.path x.recursive x.walk) ++ [.exit exc writeOk]

/-- The path leads to something (links are followed). -/
def PyAdd.Exists (s : Src) (cwd : List Bytes) (x : PyAdd) : Prop := x.path ≠ [] ∧ Present s (namesOf cwd x.path)

/-- What the call stands for: what its path leads to and, if it is recursive, all that is below. -/
def PyAdd.Offers (s : Src) (cwd : List Bytes) (x : PyAdd) (u : List Bytes × List Bytes) : Prop :=
  x.path ≠ [] ∧ OffersTree s cwd [] x.recursive x.path u

/-- The walk of the call sees the source `s`, all directories can be listed, and the threads run until the call returns. -/
structure PyAdd.Fair (env : CEnv) (s : Src) (x : PyAdd) : Prop where
  src : x.walk.src = s
  listing : FullListing s x.walk.ls
  depth : ∀ q, s.fs.nodes q ≠ none → q.length ≤ x.walk.depth
  returns : ∀ a : Adder, (Chan.run env [] x.path
    (Chan.start a (walkItems env.cwd s x.walk.ls x.walk.depth x.path x.recursive)) x.walk.sched).result ≠ none

/-- What the archive holds, given how each call ended (`None` is `ok`): all that the calls without exception stand for, except
for special files; and nothing but what the calls stand for, and the directories above. -/
structure HoldsAdded (s : Src) (cwd : List Bytes) (bytes : ContentAddr → GetBytes) (ended : List (PyAdd × PyRes)) (m : PathMap) : Prop where
  all : ∀ x, (x, PyRes.ok) ∈ ended → ∀ u, x.Offers s cwd u → ¬ s.Special u.2 → Held s bytes u.2 (m u.1)
  only : ∀ z n, m z = some n → ∃ y ∈ ended, ∃ u, y.1.Offers s cwd u ∧ z <+: u.1 ∧ (z = u.1 → ¬ s.Special u.2)

/-- A call makes an entry at `z`, if there is none. -/
def PyAdd.Makes (s : Src) (cwd : List Bytes) (x : PyAdd) (z : List Bytes) : Prop :=
  z ≠ [] ∧ ∃ u, x.Offers s cwd u ∧ z <+: u.1 ∧ (z = u.1 → ¬ s.Special u.2)

/-- Exactly what the archive holds if no call raised: at each path what the first call that makes an entry there stands for: the source entry
if it is what the path of this call leads to or below, and an implied directory if it is above. -/
structure FirstAdd (s : Src) (cwd : List Bytes) (bytes : ContentAddr → GetBytes) (adds : List PyAdd) (m : PathMap) : Prop where
  nothing : ∀ z, (∀ x ∈ adds, ¬ x.Makes s cwd z) → m z = none
  entry : ∀ A x B u, adds = A ++ x :: B → x.Offers s cwd u → ¬ s.Special u.2 → (∀ y ∈ A, ¬ y.Makes s cwd u.1) → Archived s bytes u.2 (m u.1)
  above : ∀ A x B k q z, adds = A ++ x :: B → x.path ≠ [] → InputAt s cwd [] x.path k q → ProperAncestor z k →
    (∀ y ∈ A, ¬ y.Makes s cwd z) → m z = some ⟨⟨1000, 1000, 0o755, 0⟩, .dir⟩

/-- The same calls, whatever their walks -/
def SameCalls (adds adds' : List PyAdd) : Prop :=
  adds.map (fun x => (x.path, x.recursive)) = adds'.map (fun x => (x.path, x.recursive))

end Arx
