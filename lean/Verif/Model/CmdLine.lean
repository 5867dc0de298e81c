import Verif.Model.Main
import Verif.Model.ConvertMain
import Verif.Model.CmdUtils
/-!
# Command lines

Model of the argument definitions of the programs (/repo/arx/src/main.rs:25-72, create.rs:75-179, list.rs:140-152, dump.rs:54-70,
extract.rs:10-76, mount.rs:95-115, bin/mount_fuse_arx.rs:5-16, bin/auto_mount.rs:9-17, /repo/tar2arx/src/main.rs:25-63,
/repo/zip2arx/src/main.rs:21-68) and of what clap 4.5 (external) makes of a command line with them: the loop over the words, as far as
these definitions need it (no abbreviations, no values that begin with a dash unless attached), then the checks for required and
conflicting arguments and the defaults.  Texts of messages are not modelled; the number of `-v` neither.
-/
namespace Arx

/-- The arguments with a dash of all programs. -/
inductive Arg where
  | verbose | help | version | manPage | complete
  | outfile | stripPrefix | baseDir | fileList | recurse | noRecurse | oneFile | twoFiles | multipleFiles
  | compression | listCompressions | progress | force | followSymlink
  | stableOutput | outdir | rootDir | infileOld | overwrite | foreground | option
  deriving DecidableEq, Repr

/-- What an argument takes (clap's `ArgAction` and `num_args`): nothing, once (`flag`) or any number of times (`count`); nothing, and
the program prints something and ends (`stop`); a value, once (`value`) or any number of times (`values`); at most one value, nothing
meaning the empty text (`maybe`). -/
inductive Takes where
  | flag | count | stop | value | values | maybe
  deriving DecidableEq, Repr

/-- An argument with a dash: `-x`, `--name` or both, and which values it accepts. -/
structure OptDef where
  arg : Arg
  short : Option UInt8
  long : Option Bytes
  takes : Takes
  check : Bytes → Bool

/-- The arguments of a (sub)command: those with a dash, the words in turn, the words after these, and the subcommands. -/
structure CmdDef where
  opts : List OptDef
  words : List (Bytes → Bool)
  rest : Option (Bytes → Bool)
  subs : List Bytes

/-- One use of an argument. -/
inductive Use where
  | flag (a : Arg)
  | value (a : Arg) (v : Bytes)
  | word (v : Bytes)
  deriving DecidableEq, Repr

/-! ## The loop of clap -/

/-- What a command line is read as: uses of arguments; with a subcommand and what follows it; a request for help or the version; an
error (status 2). -/
inductive Read where
  | uses (l : List Use)
  | sub (l : List Use) (name : Bytes) (rest : List Bytes)
  | help
  | usage
  deriving DecidableEq, Repr

/-- The argument was used. -/
def usedIn (l : List Use) (a : Arg) : Bool :=
  l.any (fun u => match u with | .flag b => b = a | .value b _ => b = a | .word _ => false)

/-- The words. -/
def wordsOf (l : List Use) : List Bytes := l.filterMap (fun u => match u with | .word v => some v | _ => none)

/-- The value, if the use is one of the argument. -/
def Use.valueFor (a : Arg) : Use → Option Bytes
  | .value b v => if b = a then some v else none
  | _ => none

/-- The first value of an argument. -/
def valueOf (l : List Use) (a : Arg) : Option Bytes := l.findSome? (Use.valueFor a)

/-- All values of an argument. -/
def optValues (l : List Use) (a : Arg) : List Bytes := l.filterMap (Use.valueFor a)

/-- clap's `react`: an argument is used again only if it may be. -/
def OptDef.again (o : OptDef) (acc : List Use) : Bool := o.takes = .count || o.takes = .values || !usedIn acc o.arg

/-- clap's `react` with a value. -/
def OptDef.fits (o : OptDef) (acc : List Use) (v : Bytes) : Bool := o.check v && o.again acc

/-- clap's positional arguments: the next word is the next argument that takes one. -/
def CmdDef.wordFits (c : CmdDef) (acc : List Use) (v : Bytes) : Bool :=
  match c.words[(wordsOf acc).length]? with
  | some f => f v
  | none => match c.rest with
    | some f => f v
    | none => false

def CmdDef.byLong (c : CmdDef) (name : Bytes) : Option OptDef := c.opts.find? (fun o => o.long = some name)
def CmdDef.byShort (c : CmdDef) (x : UInt8) : Option OptDef := c.opts.find? (fun o => o.short = some x)

/-- A word that is no option: not beginning with a dash, or only a dash (clap's `to_short`, `to_long` and `is_escape` say no). -/
def isPlain (w : Bytes) : Bool := w.head? != some 45 || w == [45]

/-- What a word with one dash is read as. -/
inductive Shorts where
  | done (l : List Use)
  | pending (l : List Use) (o : OptDef)
  | help
  | usage

/-- What follows the letter of an argument that takes a value: nothing (the value is the next word), the value, or `=` and the value. -/
def OptDef.attached (o : OptDef) (acc : List Use) : Bytes → Shorts
  | [] => .pending acc o
  | y :: t =>
    if o.fits acc (if y = 61 then t else y :: t) then .done (acc ++ [.value o.arg (if y = 61 then t else y :: t)]) else .usage

/-- clap's `parse_short_arg`: letters of flags, the last may be of an argument that takes a value, attached or not. -/
def CmdDef.shorts (c : CmdDef) (acc : List Use) : Bytes → Shorts
  | [] => .done acc
  | x :: t =>
    match c.byShort x with
    | none => .usage
    | some o =>
      match o.takes with
      | .stop => .help
      | .flag | .count => if o.again acc then c.shorts (acc ++ [.flag o.arg]) t else .usage
      | .value | .values | .maybe => o.attached acc t

/-- clap after `--`: only words. -/
def CmdDef.trailing (c : CmdDef) (acc : List Use) : List Bytes → Read
  | [] => .uses acc
  | w :: ws => if c.wordFits acc w then c.trailing (acc ++ [.word w]) ws else .usage

/-- An argument without the value that was awaited: the empty text, if it may be without (clap's `resolve_pending`). -/
def OptDef.flush (p : Option OptDef) (acc : List Use) : Option (List Use) :=
  match p with
  | none => some acc
  | some o => if o.takes = .maybe ∧ o.fits acc [] then some (acc ++ [.value o.arg []]) else none

/-- clap's `get_matches_with`: the words of a command line in turn; `p`: the argument that awaits a value (clap's `ParseState::Opt`). -/
def CmdDef.read (c : CmdDef) (acc : List Use) (p : Option OptDef) : List Bytes → Read
  | [] => match OptDef.flush p acc with
    | some acc => .uses acc
    | none => .usage
  | w :: ws =>
    match p, isPlain w with
    | some o, true => if o.fits acc w then c.read (acc ++ [.value o.arg w]) none ws else .usage
    | _, _ =>
    if p.isNone ∧ w ∈ c.subs then .sub acc w ws
    else if p.isNone ∧ c.subs ≠ [] ∧ w = ascii "help" then
      match ws with
      | [] => .help
      | [n] => if n ∈ c.subs ∨ n = ascii "help" then .help else .usage
      | _ => .usage
    else
      match OptDef.flush p acc with
      | none => .usage
      | some acc =>
        match w with
        | [45, 45] => c.trailing acc ws
        | 45 :: 45 :: t =>
          match c.byLong (splitEq t).1 with
          | none => .usage
          | some o =>
            match o.takes, (splitEq t).2 with
            | .stop, none => .help
            | .flag, none | .count, none => if o.again acc then c.read (acc ++ [.flag o.arg]) none ws else .usage
            | .stop, some _ | .flag, some _ | .count, some _ => .usage
            | _, some v => if o.fits acc v then c.read (acc ++ [.value o.arg v]) none ws else .usage
            | _, none => c.read acc (some o) ws
        | 45 :: x :: t =>
          match c.shorts acc (x :: t) with
          | .done acc' => c.read acc' none ws
          | .pending acc' o => c.read acc' (some o) ws
          | .help => .help
          | .usage => .usage
        | w => if c.wordFits acc w then c.read (acc ++ [.word w]) none ws else .usage

/-! ## The programs' arguments -/

/-- `PathBuf`: any text but the empty one. -/
def pathValue (v : Bytes) : Bool := v != []

/-- `String` and `RelativePathBuf` (made from a `String`): UTF-8. -/
def textValue (v : Bytes) : Bool := validUtf8 v

/-- `u8`. -/
def u8Value (v : Bytes) : Option Nat :=
  match parseInt true (-(2 ^ 63)) (2 ^ 63 - 1) v with
  | some n => if 0 ≤ n ∧ n ≤ 255 then some n.toNat else none
  | none => none

/-- `arx::Overwrite` (/repo/libarx/src/tools.rs:118-126, `ValueEnum`). -/
def overwriteValue (v : Bytes) : Option Overwrite :=
  if v = ascii "skip" then some .skip
  else if v = ascii "warn" then some .warn
  else if v = ascii "newer" then some .newer
  else if v = ascii "overwrite" then some .overwrite
  else if v = ascii "error" then some .error
  else none

/-- `clap_complete::Shell` (external). -/
def shellValue (v : Bytes) : Bool := v ∈ [ascii "bash", ascii "elvish", ascii "fish", ascii "powershell", ascii "zsh"]

/-- `compression_arg_parser` (/repo/libarx/src/cmd_utils.rs:16-48) as a value parser. -/
def compressionValue (ft : Features) (v : Bytes) : Option Compression :=
  if validUtf8 v then match compressionArg ft v with | .ok c => some c | .error _ => none else none

def noValue : Bytes → Bool := fun _ => false

/-- `-h`, `--help` (clap) and the global `-v` (/repo/arx/src/main.rs:28-29). -/
def helpOpt : OptDef := ⟨.help, some 104, some (ascii "help"), .stop, noValue⟩
def versionOpt : OptDef := ⟨.version, some 86, some (ascii "version"), .stop, noValue⟩
def verboseOpt : OptDef := ⟨.verbose, some 118, some (ascii "verbose"), .count, noValue⟩

/-- `ConcatMode` (/repo/libarx/src/cmd_utils.rs:67-101). -/
def concatOpts : List OptDef :=
  [⟨.oneFile, some 49, some (ascii "one-file"), .flag, noValue⟩, ⟨.twoFiles, some 50, some (ascii "two-files"), .flag, noValue⟩,
   ⟨.multipleFiles, some 78, some (ascii "multiple-files"), .flag, noValue⟩]

/-- `create::Options` (/repo/arx/src/create.rs:75-179). -/
def createDef (ft : Features) : CmdDef where
  opts :=
    [⟨.outfile, some 111, some (ascii "outfile"), .value, pathValue⟩,
     ⟨.stripPrefix, none, some (ascii "strip-prefix"), .value, textValue⟩,
     ⟨.baseDir, some 67, none, .value, pathValue⟩,
     ⟨.fileList, some 76, some (ascii "file-list"), .value, pathValue⟩,
     ⟨.recurse, some 114, some (ascii "recurse"), .flag, noValue⟩,
     ⟨.noRecurse, none, some (ascii "no-recurse"), .flag, noValue⟩] ++ concatOpts ++
    [⟨.compression, some 99, some (ascii "compression"), .value, fun v => (compressionValue ft v).isSome⟩,
     ⟨.listCompressions, none, some (ascii "list-compressions"), .flag, noValue⟩,
     ⟨.progress, none, some (ascii "progress"), .flag, noValue⟩,
     ⟨.force, some 102, some (ascii "force"), .flag, noValue⟩,
     ⟨.followSymlink, none, some (ascii "follow-symlink"), .flag, noValue⟩,
     verboseOpt, helpOpt]
  words := []
  rest := some pathValue
  subs := []

/-- `list::Options` (/repo/arx/src/list.rs:140-152). -/
def listDef : CmdDef where
  opts := [⟨.stableOutput, none, some (ascii "stable-output"), .value, fun v => (u8Value v).isSome⟩, verboseOpt, helpOpt]
  words := [pathValue]
  rest := none
  subs := []

/-- `dump::Options` (/repo/arx/src/dump.rs:54-70). -/
def dumpDef : CmdDef where
  opts := [verboseOpt, helpOpt]
  words := [pathValue, textValue, textValue]
  rest := none
  subs := []

/-- `extract::Options` (/repo/arx/src/extract.rs:10-76). -/
def extractDef : CmdDef where
  opts :=
    [⟨.outdir, some 67, none, .value, pathValue⟩,
     ⟨.rootDir, none, some (ascii "root-dir"), .value, pathValue⟩,
     ⟨.progress, some 112, some (ascii "progress"), .flag, noValue⟩,
     ⟨.fileList, some 76, some (ascii "file-list"), .value, pathValue⟩,
     ⟨.recurse, some 114, some (ascii "recurse"), .flag, noValue⟩,
     ⟨.noRecurse, none, some (ascii "no-recurse"), .flag, noValue⟩,
     ⟨.infileOld, some 102, some (ascii "file"), .value, pathValue⟩,
     ⟨.overwrite, none, some (ascii "overwrite"), .value, fun v => (overwriteValue v).isSome⟩,
     verboseOpt, helpOpt]
  words := [pathValue]
  rest := some textValue
  subs := []

/-- `mount::Options` (/repo/arx/src/mount.rs:95-115). -/
def mountDef : CmdDef where
  opts :=
    [⟨.rootDir, none, some (ascii "root-dir"), .value, pathValue⟩,
     ⟨.foreground, some 102, some (ascii "foreground"), .flag, noValue⟩,
     verboseOpt, helpOpt]
  words := [pathValue, pathValue]
  rest := none
  subs := []

/-- The subcommands of `arx` (/repo/arx/src/main.rs:55-72). -/
def arxSubs : List Bytes := [ascii "create", ascii "list", ascii "dump", ascii "extract", ascii "mount"]

/-- `Cli` of `arx` (/repo/arx/src/main.rs:25-53). -/
def arxDef : CmdDef where
  opts :=
    [verboseOpt,
     ⟨.manPage, none, some (ascii "generate-man-page"), .maybe, fun v => v ∈ [] :: arxSubs⟩,
     ⟨.complete, none, some (ascii "generate-complete"), .value, shellValue⟩,
     helpOpt, versionOpt]
  words := []
  rest := none
  subs := arxSubs

/-! ## Required and conflicting arguments, defaults -/

deriving instance DecidableEq for CreateOpts, ExtractOpts, MountOpts

/-- `arx create`, `arx list`, … with their arguments. -/
inductive Cli where
  | create (o : CreateOpts) (compression : Compression) (concat : ConcatMode)
  | list (infile : Bytes) (stable : Option Nat)
  | dump (infile path : Bytes) (output : Option Bytes)
  | extract (infile : Bytes) (o : ExtractOpts)
  | mount (o : MountOpts)
  deriving DecidableEq

/-- The concat mode (`None`: one file, /repo/arx/src/create.rs:304-307); the group of the three flags takes at most one
(/repo/libarx/src/cmd_utils.rs:69, `multiple = false`). -/
def concatOf (l : List Use) : Option ConcatMode :=
  match usedIn l .oneFile, usedIn l .twoFiles, usedIn l .multipleFiles with
  | false, false, false => some .oneFile
  | true, false, false | false, true, false | false, false, true =>
    concatMode (usedIn l .oneFile) (usedIn l .twoFiles) (usedIn l .multipleFiles)
  | _, _, _ => none

/-- The compression, by default `zstd` (/repo/arx/src/create.rs:151-153); a build without it refuses the default. -/
def compressionOf (ft : Features) (l : List Use) : Option Compression :=
  compressionValue ft ((valueOf l .compression).getD (ascii "zstd"))

/-- `create::Options` (/repo/arx/src/create.rs:75-179): `outfile` is required unless `list_compressions` is present, `infiles` and
`file_list` are a group, `recurse` and `no_recurse` are in conflict. -/
def createOf (ft : Features) (l : List Use) : Option Cli :=
  match concatOf l, compressionOf ft l with
  | some concat, some comp =>
    if (usedIn l .recurse ∧ usedIn l .noRecurse) ∨ (wordsOf l ≠ [] ∧ usedIn l .fileList) ∨
        (valueOf l .outfile = none ∧ ¬ usedIn l .listCompressions) then none
    else some (.create ⟨valueOf l .outfile, valueOf l .stripPrefix, valueOf l .baseDir, wordsOf l, valueOf l .fileList, usedIn l .recurse,
      usedIn l .noRecurse, usedIn l .listCompressions, usedIn l .force, usedIn l .followSymlink⟩ comp concat)
  | _, _ => none

/-- `list::Options` (/repo/arx/src/list.rs:140-152). -/
def listOf (l : List Use) : Option Cli :=
  match wordsOf l with
  | infile :: _ => some (.list infile ((valueOf l .stableOutput).bind u8Value))
  | [] => none

/-- `dump::Options` (/repo/arx/src/dump.rs:54-70). -/
def dumpOf (l : List Use) : Option Cli :=
  match wordsOf l with
  | infile :: path :: t => some (.dump infile path t.head?)
  | _ => none

/-- `extract::Options` (/repo/arx/src/extract.rs:10-76): the first word is the archive, which is in conflict with `-f`; one of the two
is required. -/
def extractOf (l : List Use) : Option Cli :=
  match (overwriteValue ((valueOf l .overwrite).getD (ascii "warn"))), wordsOf l, valueOf l .infileOld with
  | some mode, infile :: files, none =>
    if (usedIn l .recurse ∧ usedIn l .noRecurse) ∨ (files ≠ [] ∧ usedIn l .fileList) then none
    else some (.extract infile ⟨valueOf l .outdir, files, valueOf l .rootDir, valueOf l .fileList, usedIn l .recurse, usedIn l .noRecurse, mode⟩)
  | some mode, [], some infile =>
    if usedIn l .recurse ∧ usedIn l .noRecurse then none
    else some (.extract infile ⟨valueOf l .outdir, [], valueOf l .rootDir, valueOf l .fileList, usedIn l .recurse, usedIn l .noRecurse, mode⟩)
  | _, _, _ => none

/-- `mount::Options` (/repo/arx/src/mount.rs:95-115). -/
def mountOf (l : List Use) : Option Cli :=
  match wordsOf l with
  | infile :: t => some (.mount ⟨infile, t.head?, valueOf l .rootDir, usedIn l .foreground⟩)
  | [] => none

/-- The arguments and checks of a subcommand. -/
def subDef (ft : Features) (name : Bytes) : CmdDef × (List Use → Option Cli) :=
  if name = ascii "create" then (createDef ft, createOf ft)
  else if name = ascii "list" then (listDef, listOf)
  else if name = ascii "dump" then (dumpDef, dumpOf)
  else if name = ascii "extract" then (extractDef, extractOf)
  else (mountDef, mountOf)

/-- `Cli` of `arx` after parsing; `none`: nothing was asked of it. -/
structure CliArgs where
  manPage : Option Bytes
  complete : Option Bytes
  command : Option Cli
  deriving DecidableEq

/-- What a command line of `arx` means. -/
inductive CliOut where
  | usage
  | help
  | args (a : CliArgs)
  deriving DecidableEq

/-- `Cli::parse` (/repo/arx/src/main.rs:94, clap). -/
def arxCli (ft : Features) (argv : List Bytes) : CliOut :=
  match arxDef.read [] none argv with
  | .usage => .usage
  | .help => .help
  | .uses l => .args ⟨valueOf l .manPage, valueOf l .complete, none⟩
  | .sub l name rest =>
    match (subDef ft name).1.read [] none rest with
    | .uses l' =>
      match (subDef ft name).2 l' with
      | some c => .args ⟨valueOf l .manPage, valueOf l .complete, some c⟩
      | none => .usage
    | .help => .help
    | _ => .usage

/-! ## The program from its command line -/

/-- What `arx` finds, and which archive can be opened by which name. -/
structure ProgSys where
  main : MainSys
  archives : Bytes → Option (Archive × (ContentAddr → GetBytes))
  files : Bytes → Option Bytes

/-- The commands with the archive they open. -/
def ProgSys.at (p : ProgSys) (infile : Bytes) : MainSys :=
  { p.main with cmd := { p.main.cmd with archive := p.archives infile }, mount := { p.main.mount with archive := (p.archives infile).map (·.1) } }

/-- A command as `run` gets it (/repo/arx/src/main.rs:120-129), and how the process ends. A dump to a file: /repo/arx/src/dump.rs:81-86. -/
def Cli.exec (c : Cli) (a : CliArgs) (p : ProgSys) : Effect × Exit :=
  match c with
  | .create o _ _ => arxMain (.args ⟨a.manPage, a.complete.isSome, some (.create o)⟩) p.main
  | .list infile stable => arxMain (.args ⟨a.manPage, a.complete.isSome, some (.list stable)⟩) (p.at infile)
  | .extract infile o => arxMain (.args ⟨a.manPage, a.complete.isSome, some (.extract o)⟩) (p.at infile)
  | .mount o => arxMain (.args ⟨a.manPage, a.complete.isSome, some (.mount o)⟩) (p.at o.infile)
  | .dump infile path output =>
    if output = none ∨ output = some [45] ∨ a.manPage ≠ none ∨ a.complete ≠ none then
      arxMain (.args ⟨a.manPage, a.complete.isSome, some (.dump path)⟩) (p.at infile)
    else
      match p.archives infile with
      | none => (.dumped ⟨[], p.files⟩, .code 1)
      | some (ar, bytes) =>
        let r := Arx.dump p.main.out p.main.sizes ar bytes path output ⟨[], p.files⟩
        (.dumped r.1, r.2.exit)

/-- `arx` from its command line (without the name of the program). -/
def arxProgram (ft : Features) (argv : List Bytes) (p : ProgSys) : Effect × Exit :=
  match arxCli ft argv with
  | .usage => arxMain .usage p.main
  | .help => arxMain .help p.main
  | .args a =>
    match a.command with
    | none => arxMain (.args ⟨a.manPage, a.complete.isSome, none⟩) p.main
    | some c => c.exec a p

/-! ## The other programs -/

/-- What a command line of a converter means: an error; something to print; a conversion. -/
inductive ToolOut where
  | usage
  | print
  | convert (input outfile : Option Bytes) (compression : Compression) (concat : ConcatMode)
  deriving DecidableEq

/-- The arguments both converters have (/repo/tar2arx/src/main.rs:32-63, /repo/zip2arx/src/main.rs:34-68). -/
def toolOpts (ft : Features) : List OptDef :=
  [⟨.outfile, some 111, some (ascii "outfile"), .value, pathValue⟩] ++ concatOpts ++
  [⟨.compression, some 99, some (ascii "compression"), .value, fun v => (compressionValue ft v).isSome⟩,
   ⟨.listCompressions, none, some (ascii "list-compressions"), .flag, noValue⟩,
   ⟨.manPage, none, some (ascii "generate-man-page"), .flag, noValue⟩,
   ⟨.complete, none, some (ascii "generate-complete"), .value, shellValue⟩,
   helpOpt, versionOpt]

def tarDef (ft : Features) : CmdDef := ⟨toolOpts ft, [textValue], none, []⟩
def zipDef (ft : Features) : CmdDef := ⟨toolOpts ft, [pathValue], none, []⟩

/-- Something else than a conversion is asked for (/repo/tar2arx/src/main.rs:289-305, /repo/zip2arx/src/main.rs:278-294). -/
def printAsked (l : List Use) : Bool := usedIn l .listCompressions || usedIn l .manPage || usedIn l .complete

/-- `tar2arx` (/repo/tar2arx/src/main.rs:25-63). -/
def tarCli (ft : Features) (argv : List Bytes) : ToolOut :=
  match (tarDef ft).read [] none argv with
  | .uses l =>
    match concatOf l, compressionOf ft l with
    | some concat, some comp => if printAsked l then .print else .convert (wordsOf l).head? (valueOf l .outfile) comp concat
    | _, _ => .usage
  | .help => .print
  | _ => .usage

/-- `zip2arx` (/repo/zip2arx/src/main.rs:21-68): both files are required unless something else is asked for. -/
def zipCli (ft : Features) (argv : List Bytes) : ToolOut :=
  match (zipDef ft).read [] none argv with
  | .uses l =>
    match concatOf l, compressionOf ft l with
    | some concat, some comp =>
      if printAsked l then .print
      else if (wordsOf l).head? = none ∨ valueOf l .outfile = none then .usage
      else .convert (wordsOf l).head? (valueOf l .outfile) comp concat
    | _, _ => .usage
  | .help => .print
  | _ => .usage

/-- `mount.fuse.arx` (/repo/arx/src/bin/mount_fuse_arx.rs:5-16): archive, mount point, values of `-o`. -/
def fuseDef : CmdDef where
  opts := [⟨.option, some 111, none, .values, textValue⟩, helpOpt, versionOpt]
  words := [pathValue, pathValue]
  rest := none
  subs := []

def fuseCli (argv : List Bytes) : Option (Bytes × Bytes × List Bytes) :=
  match fuseDef.read [] none argv with
  | .uses l => match wordsOf l with
    | [infile, dir] => some (infile, dir, optValues l .option)
    | _ => none
  | _ => none

/-- The self mounting executable (/repo/arx/src/bin/auto_mount.rs:9-17): the mount point. -/
def autoDef : CmdDef where
  opts := [verboseOpt, helpOpt, versionOpt]
  words := [pathValue]
  rest := none
  subs := []

def autoCli (argv : List Bytes) : Option Bytes :=
  match autoDef.read [] none argv with
  | .uses l => match wordsOf l with
    | [dir] => some dir
    | _ => none
  | _ => none

end Arx
