import Verif.Model.Create
import Verif.Spec.Extract
/-!
# Specification: fair schedules
-/
namespace Arx

/-- The first `n` steps of a schedule that goes on for ever. -/
def firstSteps {α : Type} (σ : Nat → α) (n : Nat) : List α := (List.range n).map σ

/-- Both threads are given steps again and again. -/
def BothRun (σ : Nat → Bool) : Prop := ∀ b n, ∃ k, n ≤ k ∧ σ k = b

/-- Every writer is given steps again and again in which its `write` takes at least one byte, or fails. -/
def WritersRun (τ : Nat → Nat × WriteRes) : Prop := ∀ i n, ∃ k, n ≤ k ∧ (τ k).1 = i ∧ (τ k).2 ≠ .wrote 0

/-- The command's system with the schedule `σ i` for walk number `i`, of which the first `len i` steps are done. -/
def CreateSys.under (sys : CreateSys) (σ : Nat → Nat → Bool) (len : Nat → Nat) : CreateSys :=
  { sys with walks := fun i => { sys.walks i with sched := firstSteps (σ i) (len i) } }

/-- The call of `add_from_path` for each input of the command, started in `cwd`, returns, and its walking thread has ended. -/
def CallsReturn (o : CreateOpts) (sys : CreateSys) (cwd : List Bytes) : Prop :=
  ∀ (i : Nat) (f : Bytes), o.infiles[i]? = some f → ∀ a : Adder,
    let c := Chan.run (sys.cenv cwd) (o.stripPrefix.getD []) f
      (Chan.start a (walkItems cwd (sys.walks i).src (sys.walks i).ls (sys.walks i).depth f o.recursion)) (sys.walks i).sched
    c.result ≠ none ∧ c.alive = false

end Arx
