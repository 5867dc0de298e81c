import Verif.Model.Main
import Verif.Spec.Cmd
import Verif.Spec.Create
/-!
# Specification of the program `arx`
-/
namespace Arx

/-- `arx <command>`, without the options that print a manual or completions. -/
def command (c : Command) : Parsed := .args ⟨none, false, some c⟩

/-- The reader of standard output does not stay: it does not take all bytes (of which at most `cap` are taken at the end). -/
def OutEnv.Leaves (o : OutEnv) (cap : Nat) : Prop := (∃ t k j, o.ev t = .fail k j) ∨ o.last < cap

end Arx
