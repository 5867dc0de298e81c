import Verif.Model.List
/-!
# Standard output, with its buffers

`arx list` writes through a `BufWriter` (8192 bytes) around standard output, which `std` buffers itself
(`LineWriter`, 1024 bytes); `arx dump` writes to standard output. A write is accepted when its bytes are in a
buffer. When the writers are dropped, and at the end of the process, what is left in the buffers is
written, and a failure is ignored (`impl Drop for BufWriter`, `std::io::cleanup`; external).

The buffers of `std` are not modelled one by one: at each write the environment says how much of what is
held goes to the device, and whether the write fails. Bytes are delivered in order, and never more than the
capacity is held.
-/
namespace Arx

/-- What happens at a write: it succeeds and `k` bytes (or more, if the buffers are full) of those held so far
and of the new ones are delivered; or it fails, `k` bytes are delivered and the next `j` stay in the buffers. -/
inductive WriteEv where
  | accept (k : Nat)
  | fail (k j : Nat)
  deriving DecidableEq, Repr

/-- The environment of the writes: what happens at each write, and how many of the bytes left in the buffers
can be delivered in the end. -/
structure OutEnv where
  ev : Nat → WriteEv
  last : Nat

/-- Standard output: what was delivered, what the buffers hold, number of writes. -/
structure Sink where
  out : Bytes
  held : Bytes
  tick : Nat
  deriving DecidableEq, Repr

/-- at the start of the process -/
def Sink.new : Sink := ⟨[], [], 0⟩

/-- `Write::write_all` (external). -/
def Sink.write (cap : Nat) (o : OutEnv) (s : Sink) (b : Bytes) : Sink × Bool :=
  let all := s.held ++ b
  match o.ev s.tick with
  | .accept k =>
    let k := max k (all.length - cap)
    (⟨s.out ++ all.take k, all.drop k, s.tick + 1⟩, true)
  | .fail k j => (⟨s.out ++ all.take k, (all.drop k).take j, s.tick + 1⟩, false)

/-- Several writes; the first failure ends them (`?`). -/
def Sink.writes (cap : Nat) (o : OutEnv) : Sink → List Bytes → Sink × Bool
  | s, [] => (s, true)
  | s, b :: bs =>
    match s.write cap o b with
    | (s', false) => (s', false)
    | (s', true) => Sink.writes cap o s' bs

/-- The end of the process: what was delivered in all. -/
def Sink.close (o : OutEnv) (s : Sink) : Bytes := s.out ++ s.held.take o.last

/-- What can be held by the buffers when listing: `BufWriter::new` (/repo/arx/src/list.rs:160) and the one of
standard output. -/
def listCap : Nat := 8192 + 1024

/-- `LightPath::println2` (/repo/arx/src/light_path.rs:19-34): the writes it makes. -/
def LightPath.pieces (p : LightPath) (component : Bytes) : List Bytes :=
  (match p with
   | [] => []
   | part :: parts => part :: parts.flatMap (fun x => [[SEP], x]) ++ (if component.isEmpty then [] else [[SEP]])) ++
  [component, [10]]

/-- the writes with `?` in an operator -/
def emit {P : Type} (o : OutEnv) (p : P) (s : Sink) (pieces : List Bytes) : (P × Sink) × Except Unit Unit :=
  match s.writes listCap o pieces with
  | (s', true) => ((p, s'), .ok ())
  | (s', false) => ((p, s'), .error ())

/-- `Lister` (/repo/arx/src/list.rs:39-71), with output that can fail. -/
def sinkLister (o : OutEnv) : Operator Unit (LightPath × Sink) Bytes Bytes Bytes where
  onStart c := (c, .ok ())
  onStop c := (c, .ok ())
  onEnter c path :=
    match emit o (c.1.push path) c.2 ((c.1.push path).pieces []) with
    | (c', .ok ()) => (c', .ok true)
    | (c', .error e) => (c', .error e)
  onExit c _ := ((c.1.pop, c.2), .ok ())
  onFile c path := emit o c.1 c.2 (c.1.pieces path)
  onLink c path := emit o c.1 c.2 (c.1.pieces path)

/-- `StableLister` (/repo/arx/src/list.rs:73-137), with output that can fail: `writeln!` writes the pieces of
the format one by one. If it fails the name stays on the path, which nothing reads afterwards. -/
def sinkStableLister (o : OutEnv) : Operator Unit (RPath × Sink) FileEntry LinkEntry DirEntry where
  onStart c := (c, .ok ())
  onStop c := (c, .ok ())
  onEnter c d :=
    let cur := RPath.push c.1 (lossy d.common.path)
    match emit o cur c.2 [ascii "d ", dec d.common.mtime, ascii " ", cur, [10]] with
    | (c', .ok ()) => (c', .ok true)
    | (c', .error e) => (c', .error e)
  onExit c _ := ((RPath.pop c.1, c.2), .ok ())
  onFile c f :=
    let cur := RPath.push c.1 (lossy f.common.path)
    match emit o cur c.2 [ascii "f ", dec f.common.mtime, ascii " ", dec f.size, ascii " ", cur, [10]] with
    | (c', .ok ()) => ((RPath.pop c'.1, c'.2), .ok ())
    | (c', .error e) => (c', .error e)
  onLink c l :=
    let cur := RPath.push c.1 (lossy l.common.path)
    match emit o cur c.2 [ascii "l ", dec l.common.mtime, ascii " ", cur, ascii "->", lossy l.target, [10]] with
    | (c', .ok ()) => ((RPath.pop c'.1, c'.2), .ok ())
    | (c', .error e) => (c', .error e)

/-- `list` (/repo/arx/src/list.rs:154-177) on an opened archive, with output that can fail: what is delivered
to standard output and whether the command succeeds. -/
def listCmdOut (o : OutEnv) (a : Archive) (stable : Option Nat) (depth : Nat) : Bytes × Bool :=
  match stable with
  | some version =>
    if version = 1 then
      let r := a.walk fullBuilder (sinkStableLister o) depth ([], Sink.new)
      (r.1.2.close o, r.2.isOk)
    else ([], false)
  | none =>
    let r := a.walk lightBuilder (sinkLister o) depth ([], Sink.new)
    (r.1.2.close o, r.2.isOk)

/-- The pieces in which `io::copy` writes a content (external): of the sizes `ns` (plus one), the rest as one. -/
def chop : List Nat → Bytes → List Bytes
  | _, [] => []
  | [], b => [b]
  | n :: ns, b => b.take (n + 1) :: chop ns (b.drop (n + 1))

end Arx
