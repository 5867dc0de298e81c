import Verif.Model.Create
import Verif.Model.Cmd
import Verif.Model.MountCmd
/-!
# The program `arx`: exit status, and standard output that is a pipe

Model of /repo/arx/src/main.rs (Unix, feature `fuse`), over the functions of the commands.  The arguments have been parsed by clap
(external).  Lines 140-143 give SIGPIPE its default action back: a write to a pipe without reader does not fail, it ends the process.
-/
namespace Arx

/-- How a process ends: with a status, or by a signal. -/
inductive Exit where
  | code (n : Nat)
  | signal (n : Nat)
  deriving DecidableEq, Repr

/-- `SIGPIPE` and `SIGABRT`, the end of a program whose stack overflows (external). -/
def SIGPIPE : Nat := 13
def SIGABRT : Nat := 6

/-- `main` (/repo/arx/src/main.rs:133-152) and the status of a program that panics (external). -/
def CmdRes.exit : CmdRes → Exit
  | .ok => .code 0
  | .err => .code 1
  | .panic => .code 101

/-! ## Standard output that is a pipe

`OutEnv` is read as follows: `accept k` as before; `fail k j`: the reader takes `k` more bytes and goes away while the write is
under way; `last`: how many of the bytes left in the buffers the reader takes before it goes away. -/

/-- The buffers are written when they are dropped; the process ends as `e`, unless the reader has gone. -/
def Sink.atEnd (o : OutEnv) (s : Sink) (e : Exit) : Bytes × Exit :=
  if s.held.length ≤ o.last then (s.out ++ s.held, e) else (s.out ++ s.held.take o.last, .signal SIGPIPE)

/-- The end of a listing with the given result; the listers fail only when they write. What the buffers hold is lost when the
process is ended by a signal. -/
def finishPipe {P : Type} (o : OutEnv) (r : (P × Sink) × Except (WErr Unit) Unit) : Bytes × Exit :=
  match r.2 with
  | .ok () => r.1.2.atEnd o (.code 0)
  | .error (.read .panic) => r.1.2.atEnd o (.code 101)
  | .error (.read _) => r.1.2.atEnd o (.code 1)
  | .error (.op ()) => (r.1.2.out, .signal SIGPIPE)
  | .error .depth => (r.1.2.out, .signal SIGABRT)

/-- `arx list` (/repo/arx/src/list.rs:154-177, main.rs:124) to a pipe: what the reader gets, and how the process ends. -/
def listPipe (o : OutEnv) (archive : Option Archive) (stable : Option Nat) (depth : Nat) : Bytes × Exit :=
  match archive with
  | none => ([], .code 1)
  | some a =>
    match stable with
    | some version =>
      if version = 1 then finishPipe o (a.walk fullBuilder (sinkStableLister o) depth ([], Sink.new)) else ([], .code 1)
    | none => finishPipe o (a.walk lightBuilder (sinkLister o) depth ([], Sink.new))

/-- `io::copy` of a content to a pipe, until the end of the process. -/
def copyPipe (o : OutEnv) (ns : List Nat) (b : Bytes) : Bytes × Exit :=
  match Sink.new.writes dumpCap o (chop ns b) with
  | (s, true) => s.atEnd o (.code 0)
  | (s, false) => (s.out, .signal SIGPIPE)

/-- `arx dump` (/repo/arx/src/dump.rs:27-89, main.rs:125) to standard output that is a pipe (`output` is `None` or `-`). -/
def dumpPipe (o : OutEnv) (ns : List Nat) (archive : Option (Archive × (ContentAddr → GetBytes))) (path : RPath) : Bytes × Exit :=
  match archive with
  | none => ([], .code 1)
  | some (a, bytes) =>
    match a.getEntry dumpBuilder path with
    | .error .panic => ([], .code 101)
    | .error _ => ([], .code 1)
    | .ok (.dir _ _) => ([], .code 1)
    | .ok (.link _) => ([], .code 1)
    | .ok (.file c) =>
      match bytes c with
      | .err => ([], .code 1)
      | .missing => ([], .code 0)
      | .found b => copyPipe o ns b

/-! ## The program -/

/-- The end of `arx extract` (/repo/arx/src/main.rs:126) with the result of the extraction; `none`: refused before. -/
def XResult.exit : XResult → Exit
  | .ok => .code 0
  | .writes => .code 1
  | .walk .depth => .signal SIGABRT
  | .walk (.read .panic) => .code 101
  | .walk (.op .panic) => .code 101
  | .walk _ => .code 1

/-- The end of `arx extract`: with `--root-dir` and a path without names it crashes (/repo/arx/src/extract.rs:118). -/
def ExtractOpts.exit (o : ExtractOpts) (sys : CmdSys) (r : Option (World × XResult)) : Exit :=
  match r with
  | some (_, res) => res.exit
  | none =>
    match o.toExtract sys, sys.archive with
    | some _, some (a, _) =>
      match mountRootCmd a o.rootDir with
      | .error e => e.exit
      | .ok _ => .code 1
    | _, _ => .code 1

/-- `Commands` (/repo/arx/src/main.rs:55-72). -/
inductive Command where
  | create (o : CreateOpts)
  | list (stable : Option Nat)
  | dump (path : RPath)
  | extract (o : ExtractOpts)
  | mount (o : MountOpts)

/-- `Cli` (/repo/arx/src/main.rs:25-53). -/
structure Args where
  manPage : Option Bytes
  complete : Bool
  command : Option Command

/-- What clap makes of the command line (external): an error, a request for help or the version, or arguments. -/
inductive Parsed where
  | usage
  | help
  | args (a : Args)

/-- What `arx` finds: what its commands find, and whether help, manual or completions can be printed. -/
structure MainSys where
  create : CreateSys
  cmd : CmdSys
  mount : MountSys
  out : OutEnv
  sizes : List Nat
  depth : Nat
  fs : FS
  last : List (Nat × WriteRes)
  printOk : Bool

/-- What a run of `arx` has done: nothing, printed help (or manual, completions), or what its command does (`dumped`: a dump to a
file). -/
inductive Effect where
  | none
  | help
  | man (what : Bytes)
  | complete
  | create (evs : List CreateEv)
  | stdout (b : Bytes)
  | extract (w : Option World)
  | mount (evs : List MountEv)
  | dumped (d : DumpSys)

/-- `run` and `main` (/repo/arx/src/main.rs:93-152), with standard output a pipe. The completions generator panics when it cannot write (external). -/
def arxMain (p : Parsed) (sys : MainSys) : Effect × Exit :=
  match p with
  | .usage => (.none, .code 2)
  | .help => (.help, .code 0)
  | .args a =>
    match a.manPage with
    | some what => (.man what, if sys.printOk then .code 0 else .code 1)
    | none =>
      if a.complete then (.complete, if sys.printOk then .code 0 else .code 101)
      else
        match a.command with
        | none => (.help, if sys.printOk then .code 0 else .code 1)
        | some (.create o) => (.create (o.run sys.create).1, (o.run sys.create).2.exit)
        | some (.list stable) =>
          let r := listPipe sys.out (sys.cmd.archive.map (·.1)) stable sys.depth
          (.stdout r.1, r.2)
        | some (.dump path) =>
          let r := dumpPipe sys.out sys.sizes sys.cmd.archive path
          (.stdout r.1, r.2)
        | some (.extract o) =>
          let r := o.run sys.cmd sys.depth sys.fs sys.last
          (.extract (r.map (·.1)), o.exit sys.cmd r)
        | some (.mount o) => (.mount (mountCmd o sys.mount).1, (mountCmd o sys.mount).2.exit)

end Arx
