import Verif.Model.Cmd
import Verif.Model.Python
/-!
# The command `arx create`

Model of /repo/arx/src/create.rs.  Options are those clap accepts: `recurse` and `noRecurse` are not both given,
nor are input files and a file list, and there is an output file unless the compressions are to be listed.  Not
modelled: compression, concat mode, progress and log messages.
-/
namespace Arx

/-- `create::Options` (/repo/arx/src/create.rs:76-179). -/
structure CreateOpts where
  outfile : Option Bytes
  stripPrefix : Option RPath
  baseDir : Option Bytes
  infiles : List Bytes
  fileList : Option Bytes
  recurse : Bool
  noRecurse : Bool
  listCompressions : Bool
  force : Bool
  followSymlink : Bool

/-- Value of the flag `recurse` after clap has applied the defaults (lines 130-146). -/
def CreateOpts.recursion (o : CreateOpts) : Bool :=
  if o.recurse then true else if o.noRecurse then false else !o.infiles.isEmpty

/-- `Path::exists`: follows symbolic links; an error counts as `false`. -/
def Src.exists (s : Src) (p : List Bytes) : Bool :=
  match s.fs.resolve true p with
  | .ok (.found _) => true
  | _ => false

/-- `Path::is_dir`. -/
def Src.isDir (s : Src) (p : List Bytes) : Bool :=
  match s.fs.resolve true p with
  | .ok (.found q) =>
    match s.fs.nodes q with
    | some (.dir _) => true
    | _ => false
  | _ => false

/-- What the command finds: the current directory; the file system when the parent of the output, then the
output itself, are looked at, when the directory is changed, when the existence of the inputs is checked, and
while they are added; the text of the files; the walks; and whether jubako can open and write the archive. -/
structure CreateSys where
  cwd : List Bytes
  atParent : Src
  atOut : Src
  atChdir : Src
  atCheck : Src
  src : Nat → Src
  fault : Nat → Bool
  text : List Bytes → Option Bytes
  walks : Nat → WalkRun
  openOk : Bool
  writeOk : Bool

/-- What the command does to the outside world, in order: prints the list of compressions; prepares the
archive (jubako's `BasicCreator::new`, external: a temporary file); reads the file list; adds an input path
(for a list, its lines are noted even if an error stops the adding before); moves the finished archive to the output path (external). -/
inductive CreateEv where
  | printed
  | opened (out : List Bytes)
  | listRead (list : List Bytes)
  | input (path : Bytes)
  | written (out : List Bytes) (a : Adder)

/-- The components of an absolute path: `.` is removed. -/
def absNames (cwd : List Bytes) (p : Bytes) : List Bytes := (baseNames cwd p).filter (· ≠ CUR)

/-- `std::path::absolute` (external): the components; a trailing separator is kept. -/
def absFile (cwd : List Bytes) (p : Bytes) : List Bytes := absNames cwd p ++ trailing p

/-- `check_output_path_writable` (/repo/arx/src/create.rs:194-208): `Path::parent` of the root is `None`. -/
def checkOutput (sys : CreateSys) (out : Bytes) (force : Bool) : CmdRes :=
  if absNames sys.cwd out = [] then .panic
  else if !sys.atParent.isDir (absNames sys.cwd out).dropLast then .err
  else if sys.atOut.exists (namesOf sys.cwd out) && !force then .err
  else .ok

/-- `check_input_paths_exist` (/repo/arx/src/create.rs:181-192). -/
def checkInputs (sys : CreateSys) (cwd : List Bytes) (files : List Bytes) : Bool :=
  files.all (fun f => decide (f ≠ []) && sys.atCheck.exists (namesOf cwd f))

/-- Environment of the adding functions after the change of directory. -/
def CreateSys.cenv (sys : CreateSys) (cwd : List Bytes) : CEnv := ⟨sys.src, sys.fault, cwd⟩

/-- The loop on the input files (lines 338-341); `i` numbers the walks. -/
def addInputs (sys : CreateSys) (cwd : List Bytes) (pre : RPath) (recurse : Bool) (a : Adder) :
    Nat → List Bytes → List CreateEv × Adder × AOut
  | _, [] => ([], a, .ok)
  | i, f :: fs =>
    match addFromPath (sys.cenv cwd) pre a f recurse (sys.walks i) with
    | (a, .ok) =>
      let r := addInputs sys cwd pre recurse a (i + 1) fs
      (.input f :: r.1, r.2)
    | (a, e) => ([.input f], a, e)

/-- Result of a command from that of the adding functions. -/
def AOut.toCmd : AOut → CmdRes
  | .ok => .ok
  | .panic => .panic
  | _ => .err

/-- `set_current_dir` (lines 294-296). -/
def CreateSys.chdir (sys : CreateSys) (baseDir : Option Bytes) : Option (List Bytes) :=
  match baseDir with
  | none => some sys.cwd
  | some d =>
    if d = [] then none
    else
      match sys.atChdir.fs.resolve true (namesOf sys.cwd d) with
      | .ok (.found q) =>
        match sys.atChdir.fs.nodes q with
        | some (.dir _) => some q
        | _ => none
      | _ => none

/-- The part of `create` that adds (lines 315-342): with a file list, its lines, one by one; otherwise the
input files, which must be relative and exist. -/
def CreateOpts.addAll (o : CreateOpts) (sys : CreateSys) (cwd : List Bytes) : List CreateEv × Adder × CmdRes :=
  let pre := o.stripPrefix.getD []
  match o.fileList with
  | some l =>
    let list := absFile sys.cwd l
    match readLines (sys.text list) with
    | none => ([.listRead list], Adder.new, .err)
    | some lines =>
      let r := Adder.new.addFromList (sys.cenv cwd) pre lines o.followSymlink
      (.listRead list :: lines.map .input, r.1, r.2.toCmd)
  | none =>
    if o.infiles.any (fun f => decide (f.head? = some SEP)) then ([], Adder.new, .err)
    else if !checkInputs sys cwd o.infiles then ([], Adder.new, .err)
    else
      let r := addInputs sys cwd pre o.recursion Adder.new 0 o.infiles
      (r.1, r.2.1, r.2.2.toCmd)

/-- `create` (/repo/arx/src/create.rs:271-347): the effects and the result. -/
def CreateOpts.run (o : CreateOpts) (sys : CreateSys) : List CreateEv × CmdRes :=
  if o.listCompressions then ([.printed], .ok)
  else
    match o.outfile with
    | none => ([], .panic)
    | some outfile =>
      let out := namesOf sys.cwd outfile
      match checkOutput sys outfile o.force with
      | .panic => ([], .panic)
      | .err => ([], .err)
      | .ok =>
        if o.fileList = some [] then ([], .err)
        else
          match sys.chdir o.baseDir with
          | none => ([], .err)
          | some cwd =>
            if !sys.openOk then ([.opened out], .err)
            else
              match o.addAll sys cwd with
              | (evs, a, .ok) => (.opened out :: evs ++ [.written out a], if sys.writeOk then .ok else .err)
              | (evs, _, r) => (.opened out :: evs, r)

end Arx
