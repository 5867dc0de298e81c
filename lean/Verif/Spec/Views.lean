import Verif.Spec.Client
import Verif.Model.List
import Verif.Spec.Words
import Verif.Model.Python
/-!
# The same entry, as other commands show it

A copied entry (Spec/Client) is what a program saw of it through the mount.
-/
namespace Arx

/-- the line of `arx list --stable-output 1` for what was seen through the mount -/
def Copied.line (x : Copied) : Bytes :=
  match x.got with
  | .dir => ascii "d " ++ decimal x.attr.mtime ++ ascii " " ++ joinPath x.path ++ [10]
  | .file b => ascii "f " ++ decimal x.attr.mtime ++ ascii " " ++ decimal b.length ++ ascii " " ++ joinPath x.path ++ [10]
  | .link t => ascii "l " ++ decimal x.attr.mtime ++ ascii " " ++ joinPath x.path ++ ascii "->" ++ lossy t ++ [10]

/-- an entry of the Python module is what was seen through the mount: same name, owner, group and time; content of a
file, target of a link -/
def PySame (bytes : ContentAddr → GetBytes) (x : Copied) (e : FullEntry) : Prop :=
  x.path.getLast? = some (pyCommon e).path ∧ (pyCommon e).owner = x.attr.uid ∧ (pyCommon e).group = x.attr.gid ∧
  (pyCommon e).mtime = x.attr.mtime ∧
  match x.got with
  | .dir => pyContent bytes e = .typeError ∧ pyTarget e = none
  | .file b => pyContent bytes e = .stream ⟨b, 0⟩ ∧ pyTarget e = none
  | .link t => pyContent bytes e = .typeError ∧ pyTarget e = some t

end Arx
