import Verif.Model.Walk
import Verif.Base.Utf8
/-!
# `arx list`

Model of /repo/arx/src/list.rs and /repo/arx/src/light_path.rs.  Writing to standard output is assumed
not to fail; the output is the byte string written.
-/
namespace Arx

/-- `LightPath` (/repo/arx/src/light_path.rs:4-17): the stack of directory names. `push` appends,
`pop` drops the last. -/
abbrev LightPath := List Bytes

/-- `LightPath::push` (/repo/arx/src/light_path.rs:11-13). -/
def LightPath.push (p : LightPath) (c : Bytes) : LightPath := p ++ [c]
/-- `LightPath::pop` (/repo/arx/src/light_path.rs:15-17). -/
def LightPath.pop (p : LightPath) : LightPath := p.dropLast

/-- `LightPath::println2` (/repo/arx/src/light_path.rs:19-34). -/
def LightPath.println2 (p : LightPath) (component : Bytes) : Bytes :=
  (match p with
   | [] => []
   | part :: parts =>
     part ++ parts.flatMap (fun x => SEP :: x) ++ (if component.isEmpty then [] else [SEP])) ++
  component ++ [10]

/-- `LightPath::println` (/repo/arx/src/light_path.rs:36-38). -/
def LightPath.println (p : LightPath) : Bytes := p.println2 []

/-- `LightBuilder` (/repo/arx/src/list.rs:14-37): only the name is read. -/
def lightBuilder : Builder Bytes Bytes Bytes where
  file _ r := .ok r.name
  link _ r := .ok r.name
  dir _ r := .ok r.name

/-- `Lister` (/repo/arx/src/list.rs:39-71). Context: current path and output. -/
def lister : Operator Unit (LightPath × Bytes) Bytes Bytes Bytes where
  onStart c := (c, .ok ())
  onStop c := (c, .ok ())
  onEnter c path := ((c.1.push path, c.2 ++ (c.1.push path).println), .ok true)
  onExit c _ := ((c.1.pop, c.2), .ok ())
  onFile c path := ((c.1, c.2 ++ c.1.println2 path), .ok ())
  onLink c path := ((c.1, c.2 ++ c.1.println2 path), .ok ())

/-- `Display` of an unsigned integer. External (std). -/
def dec (n : Nat) : Bytes := ascii (toString n)

/-- `StableLister` (/repo/arx/src/list.rs:73-137). -/
def stableLister : Operator Unit (RPath × Bytes) FileEntry LinkEntry DirEntry where
  onStart c := (c, .ok ())
  onStop c := (c, .ok ())
  onEnter c d :=
    let cur := RPath.push c.1 (lossy d.common.path)
    ((cur, c.2 ++ (ascii "d " ++ dec d.common.mtime ++ ascii " " ++ cur ++ [10])), .ok true)
  onExit c _ := ((RPath.pop c.1, c.2), .ok ())
  onFile c f :=
    let cur := RPath.push c.1 (lossy f.common.path)
    ((RPath.pop cur,
      c.2 ++ (ascii "f " ++ dec f.common.mtime ++ ascii " " ++ dec f.size ++ ascii " " ++ cur ++ [10])), .ok ())
  onLink c l :=
    let cur := RPath.push c.1 (lossy l.common.path)
    ((RPath.pop cur,
      c.2 ++ (ascii "l " ++ dec l.common.mtime ++ ascii " " ++ cur ++ ascii "->" ++ lossy l.target ++ [10])), .ok ())

/-- `list` (/repo/arx/src/list.rs:154-177) on an opened archive: what is written to standard output and
whether the command succeeds. `depth` bounds the recursion. -/
def listCmd (a : Archive) (stable : Option Nat) (depth : Nat) : Bytes × Bool :=
  match stable with
  | some version =>
    if version = 1 then
      let r := a.walk fullBuilder stableLister depth ([], [])
      (r.1.2, r.2.isOk)
    else ([], false)
  | none =>
    let r := a.walk lightBuilder lister depth ([], [])
    (r.1.2, r.2.isOk)

end Arx
