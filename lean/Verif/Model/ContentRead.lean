import Verif.Model.Python
import Verif.Model.Cmd
/-!
# Reading a content that cannot be read

A content is read when it is asked for: its cluster can be damaged (it does not decompress), or the device can fail.
The other models take the content for granted; here every call to read it can fail, give less than asked for, or be
interrupted.

* `Stream.read` of the Python module: /repo/python/src/stream.rs:13-24,
* `dump_entry` of `arx dump`: /repo/arx/src/dump.rs:27-51,
* `read` of the mounted file system: /repo/libarx/src/arx_fs.rs:583-601.

(`extract` has this in its own model: a failing `get_slice` is a `WriteRes.err`.)
-/
namespace Arx

/-- What one call `Read::read` on a `ByteStream` does (external): it gives bytes, at most `k`; it is interrupted; or it fails. -/
inductive ReadEv where
  | got (k : Nat)
  | interrupted
  | fail
  deriving DecidableEq, Repr

/-- `Read::read_exact` (external, `std::io::default_read_exact`) of `n` bytes from a `ByteStream`: calls `read` until the
buffer is full; an interrupted call is repeated; a call that gives nothing is an error (`UnexpectedEof`). The events are
those of the calls made; after the last of them a call gives all that is asked for. `none`: an error. The position moves
with every call that gives bytes. -/
def PyStream.readExact : List ReadEv → PyStream → Nat → Option Bytes × PyStream
  | _, s, 0 => (some [], s)
  | [], s, n + 1 =>
    let k := min (n + 1) s.sizeLeft
    (if k = n + 1 then some ((s.content.drop s.offset).take k) else none, { s with offset := s.offset + k })
  | .interrupted :: evs, s, n + 1 => PyStream.readExact evs s (n + 1)
  | .fail :: _, s, _ + 1 => (none, s)
  | .got k :: evs, s, n + 1 =>
    let k := min k (min (n + 1) s.sizeLeft)
    if k = 0 then (none, s)
    else
      let r := PyStream.readExact evs { s with offset := s.offset + k } (n + 1 - k)
      (r.1.map ((s.content.drop s.offset).take k ++ ·), r.2)

/-- `Stream.read` (/repo/python/src/stream.rs:13-24), with reads that can fail: `none` is the `unwrap` of line 20, a
`PanicException`. -/
def PyStream.tryRead (evs : List ReadEv) (s : PyStream) (size : Nat) : Option Bytes × PyStream :=
  let size := min size s.sizeLeft
  s.readExact evs size

/-- Several reads, by a program that catches the exceptions; each with the events of its calls. -/
def PyStream.tryReads (s : PyStream) : List (Nat × List ReadEv) → List (Option Bytes) × PyStream
  | [] => ([], s)
  | (n, evs) :: ns =>
    let r := s.tryRead evs n
    let q := PyStream.tryReads r.2 ns
    (r.1 :: q.1, q.2)

/-- The pieces `io::copy` (external) reads from a content and writes, and whether its reads succeed: it reads until a call
gives nothing, repeats interrupted calls, and ends with an error when a call fails. After the last event a call gives all
that is left. -/
def copyReads : List ReadEv → Bytes → List Bytes × Bool
  | _, [] => ([], true)
  | [], b => ([b], true)
  | .interrupted :: evs, b => copyReads evs b
  | .fail :: _, _ => ([], false)
  | .got k :: evs, b =>
    if k = 0 then ([], true)
    else
      let r := copyReads evs (b.drop k)
      (b.take k :: r.1, r.2)

/-- `io::copy` of a content that may not be readable to standard output, until the end of the process. (The writes and the
reads alternate; a failing write ends the copy with an error like a failing read, so which of them was first does not
matter.) -/
def DumpSys.copyStdout (o : OutEnv) (evs : List ReadEv) (d : DumpSys) (b : Bytes) : DumpSys × CmdRes :=
  let p := copyReads evs b
  match Sink.new.writes dumpCap o p.1 with
  | (s, ok) => ({ d with stdout := d.stdout ++ s.close o }, if ok && p.2 then .ok else .err)

/-- `dump` (/repo/arx/src/dump.rs:72-89) to standard output, after opening the archive, with reads that can fail. -/
def dumpReads (o : OutEnv) (evs : List ReadEv) (a : Archive) (bytes : ContentAddr → GetBytes) (path : RPath) (d : DumpSys) :
    DumpSys × CmdRes :=
  match a.getEntry dumpBuilder path with
  | .error .panic => (d, .panic)
  | .error _ => (d, .err)
  | .ok e => dumpEntry bytes e (d.copyStdout o evs) d

/-- `read` (/repo/libarx/src/arx_fs.rs:583-601), with a `get_slice` that can fail (`readable = false`): line 599 unwraps it. -/
def FsState.readSlice (readable : Bool) (s : FsState) (ino : Nat) (offset : Int) (size : Nat) : Reply × FsState :=
  if ino = 0 then (.panic, s) else
  if offset < 0 then (.panic, s) else
  match s.region ino with
  | none => (.panic, s)
  | some (b, _) =>
    let offset := offset.toNat
    if b.length < offset then (.panic, s)
    else if readable then (.data ((b.drop offset).take (min size (b.length - offset))), s)
    else (.panic, s)

end Arx
