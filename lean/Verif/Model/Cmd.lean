import Verif.Model.Output
import Verif.Model.Extract
import Verif.Model.FsAdder
/-!
# The commands `arx extract` and `arx dump`

Model of /repo/arx/src/extract.rs and /repo/arx/src/dump.rs.  The archive has been opened (`Arx::new`,
external) or could not be.  Options are those that clap accepts: `recurse` and `noRecurse` are not both given,
nor are paths and a file list.
-/
namespace Arx

/-! ## Lists of paths -/

/-- Remove one trailing carriage return. -/
def stripCr (l : Bytes) : Bytes := if l.getLast? = some 13 then l.dropLast else l

/-- `BufRead::lines` (external), with the beginning of the current line: a line ends at `\n`, which is removed
with a `\r` before it; the text after the last `\n` is a line if not empty. -/
def linesFrom (acc : Bytes) : Bytes → List Bytes
  | [] => if acc = [] then [] else [acc]
  | b :: t => if b = 10 then stripCr acc :: linesFrom [] t else linesFrom (acc ++ [b]) t

/-- The lines of a file; `none`: it cannot be read, or a line is not UTF-8
(/repo/arx/src/extract.rs:80-84, /repo/arx/src/create.rs:316-321). -/
def readLines (text : Option Bytes) : Option (List Bytes) :=
  match text with
  | none => none
  | some t => if (linesFrom [] t).all validUtf8 then some (linesFrom [] t) else none

/-! ## `arx extract` -/

/-- `extract::Options` (/repo/arx/src/extract.rs:10-76), without progress and verbosity. -/
structure ExtractOpts where
  outdir : Option Bytes
  files : List Bytes
  rootDir : Option Bytes
  fileList : Option Bytes
  recurse : Bool
  noRecurse : Bool
  overwrite : Overwrite

/-- Value of the flag `recurse` after clap has applied the defaults (/repo/arx/src/extract.rs:44-63). -/
def ExtractOpts.recursion (o : ExtractOpts) : Bool :=
  if o.recurse then true else if o.noRecurse then false else !o.files.isEmpty

/-- What the command finds: the current directory, the text of the files, and the archive (`none`: it cannot
be opened) with its content. -/
structure CmdSys where
  cwd : List Bytes
  text : Bytes → Option Bytes
  archive : Option (Archive × (ContentAddr → GetBytes))
  env : Env

/-- `get_files_to_extract` (/repo/arx/src/extract.rs:78-89). -/
def ExtractOpts.toExtract (o : ExtractOpts) (sys : CmdSys) : Option (List RPath) :=
  match o.fileList with
  | some l => readLines (sys.text l)
  | none => some o.files

/-- `extract` (/repo/arx/src/extract.rs:93-134). `none`: an error before anything is extracted. -/
def ExtractOpts.run (o : ExtractOpts) (sys : CmdSys) (depth : Nat) (fs : FS) (last : List (Nat × WriteRes)) :
    Option (World × XResult) :=
  match o.toExtract sys with
  | none => none
  | some files =>
    let outdir := match o.outdir with
      | some d => baseNames sys.cwd d
      | none => sys.cwd
    match sys.archive with
    | none => none
    | some (a, bytes) =>
      let cfg : XCfg := { a := a, bytes := bytes, files := files, recurse := o.recursion, base := outdir,
                          mode := o.overwrite, env := sys.env }
      match o.rootDir with
      | none => some (cfg.extract depth fs last)
      | some p => cfg.extractRoot depth p fs last

/-! ## `arx dump` -/

/-- `FullBuilder` of /repo/arx/src/dump.rs:7-25. -/
def dumpBuilder : Builder ContentAddr Unit Unit := ⟨fun _ r => .ok r.content, fun _ _ => .ok (), fun _ _ => .ok ()⟩

/-- What a command reports. -/
inductive CmdRes where
  | ok | err | panic
  deriving DecidableEq, Repr

/-- The two places `dump` can write to: what was delivered to standard output, and the content of the files. -/
structure DumpSys where
  stdout : Bytes
  files : Bytes → Option Bytes

/-- What can be held by the buffer of standard output (external). -/
def dumpCap : Nat := 1024

/-- `io::copy` to standard output (external), until the end of the process: the content is written in pieces of
sizes `ns`. -/
def DumpSys.toStdout (o : OutEnv) (ns : List Nat) (d : DumpSys) (b : Bytes) : DumpSys × CmdRes :=
  match Sink.new.writes dumpCap o (chop ns b) with
  | (s, ok) => ({ d with stdout := d.stdout ++ s.close o }, if ok then .ok else .err)

/-- `io::copy` to a file opened with `File::open`, that is for reading: every write fails (EBADF); no write
is done for an empty content (external). -/
def DumpSys.toReadOnly (d : DumpSys) (b : Bytes) : DumpSys × CmdRes := if b = [] then (d, .ok) else (d, .err)

/-- `dump_entry` (/repo/arx/src/dump.rs:27-51). -/
def dumpEntry (bytes : ContentAddr → GetBytes) (e : Entry ContentAddr Unit Unit) (copy : Bytes → DumpSys × CmdRes)
    (d : DumpSys) : DumpSys × CmdRes :=
  match e with
  | .dir _ _ => (d, .err)
  | .link _ => (d, .err)
  | .file c =>
    match bytes c with
    | .err => (d, .err)
    | .missing => (d, .ok)
    | .found b => copy b

/-- `dump` (/repo/arx/src/dump.rs:72-89), after opening the archive; `o` and `ns`: how the
writes to standard output end and are cut. -/
def dump (o : OutEnv) (ns : List Nat) (a : Archive) (bytes : ContentAddr → GetBytes) (path : RPath) (output : Option Bytes) (d : DumpSys) :
    DumpSys × CmdRes :=
  match a.getEntry dumpBuilder path with
  | .error .panic => (d, .panic)
  | .error _ => (d, .err)
  | .ok e =>
    match output with
    | none => dumpEntry bytes e (d.toStdout o ns) d
    | some out =>
      if out = [45] then dumpEntry bytes e (d.toStdout o ns) d
      else
        match d.files out with
        | none => (d, .err)
        | some _ => dumpEntry bytes e d.toReadOnly d

end Arx
