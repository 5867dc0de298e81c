import Verif.Spec.Cmd
import Verif.Spec.Steps

/-! The output of `arx list` used as a list of files (C96). -/
namespace Arx

/-- The path is one line of a file list: no newline in a name, no carriage return at the end (it would be taken for a part of the end of the
line). -/
def OneLine (p : List Bytes) : Prop := (∀ c ∈ p, (10 : UInt8) ∉ c) ∧ ∀ c, p.getLast? = some c → c.getLast? ≠ some 13

/-- An entry at the path written `path` is what the lines `kept` stand for: its line is kept, or it is a directory on the way to one. -/
def LineKept (kept : List Bytes) (path : Bytes) (isDir : Bool) : Prop :=
  path ∈ kept ∨ (isDir = true ∧ ∃ rest, path ++ SEP :: rest ∈ kept)

end Arx
