import Verif.Model.ContentRead
/-!
# Specification for contents that cannot be read (C106)
-/
namespace Arx

/-- One of the calls fails, or gives nothing although something was asked for and is there. -/
def Faulty (evs : List ReadEv) : Prop := ReadEv.fail ∈ evs ∨ ReadEv.got 0 ∈ evs

/-- What a program that reads a content in pieces, and goes on after an exception, gets: `ReadTrace content pos reads
results pos'` — at position `pos`, each result is the next bytes, as many as asked for or as there are, and the position
moves behind them; or an exception, only if a call failed, and the position is then before the end of what was asked for. -/
inductive ReadTrace (content : Bytes) : Nat → List (Nat × List ReadEv) → List (Option Bytes) → Nat → Prop
  | nil (pos : Nat) : ReadTrace content pos [] [] pos
  | ok {pos pos' n : Nat} {evs : List ReadEv} {b : Bytes} {rest : List (Nat × List ReadEv)} {res : List (Option Bytes)} :
      b = (content.drop pos).take n → ReadTrace content (pos + b.length) rest res pos' →
      ReadTrace content pos ((n, evs) :: rest) (some b :: res) pos'
  | raised {pos mid pos' n : Nat} {evs : List ReadEv} {rest : List (Nat × List ReadEv)} {res : List (Option Bytes)} :
      Faulty evs → pos ≤ mid → mid < pos + n → mid < content.length → ReadTrace content mid rest res pos' →
      ReadTrace content pos ((n, evs) :: rest) (none :: res) pos'

/-- the bytes the calls give together -/
def gotten : List ReadEv → Nat
  | [] => 0
  | .got k :: evs => k + gotten evs
  | _ :: evs => gotten evs

/-- A call fails when less than `size` bytes have been read. -/
def FailsBefore (size : Nat) (evs : List ReadEv) : Prop :=
  ∃ pre post, evs = pre ++ .fail :: post ∧ gotten pre < size

end Arx
