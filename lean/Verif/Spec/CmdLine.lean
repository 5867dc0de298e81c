import Verif.Model.CmdLine
import Verif.Spec.Create
import Verif.Spec.Cmd
import Verif.Spec.CmdUtils
/-!
# Specification: command lines

How arguments can be written, and what a command line means; the tables of arguments (`createDef`, …) are those of the programs.
`45` is `-`, `61` is `=`.
-/
namespace Arx

/-- A word that is no option. -/
def Plain (w : Bytes) : Prop := w.head? ≠ some 45 ∨ w = [45]

/-- The argument takes no value, a value. -/
def OptDef.Bare (o : OptDef) : Prop := o.takes = .flag ∨ o.takes = .count
def OptDef.Valued (o : OptDef) : Prop := o.takes = .value ∨ o.takes = .values

/-- Letters of arguments without value. -/
inductive Letters (c : CmdDef) : Bytes → List Use → Prop where
  | nil : Letters c [] []
  | cons {o : OptDef} {x : UInt8} {xs : Bytes} {us : List Use} : o ∈ c.opts → o.short = some x → o.Bare → Letters c xs us →
      Letters c (x :: xs) (.flag o.arg :: us)

/-- A piece of a command line: one or two words, and the uses of arguments they stand for: a word; `--name`; `--name=v`; `--name v`;
`-abc`; `-abco v`, `-abcov` and `-abco=v`, where `o` takes a value. -/
inductive Piece (c : CmdDef) : List Bytes → List Use → Prop where
  | word {w : Bytes} : Plain w → Piece c [w] [.word w]
  | long {o : OptDef} {n : Bytes} : o ∈ c.opts → o.long = some n → o.Bare → Piece c [ascii "--" ++ n] [.flag o.arg]
  | longIs {o : OptDef} {n v : Bytes} : o ∈ c.opts → o.long = some n → o.Valued → Piece c [ascii "--" ++ n ++ ascii "=" ++ v] [.value o.arg v]
  | longNext {o : OptDef} {n v : Bytes} : o ∈ c.opts → o.long = some n → o.Valued → Plain v → Piece c [ascii "--" ++ n, v] [.value o.arg v]
  | letters {xs : Bytes} {us : List Use} : xs ≠ [] → Letters c xs us → Piece c [ascii "-" ++ xs] us
  | lettersNext {xs : Bytes} {us : List Use} {o : OptDef} {x : UInt8} {v : Bytes} : Letters c xs us → o ∈ c.opts → o.short = some x →
      o.Valued → Plain v → Piece c [ascii "-" ++ xs ++ [x], v] (us ++ [.value o.arg v])
  | lettersIs {xs : Bytes} {us : List Use} {o : OptDef} {x : UInt8} {v : Bytes} : Letters c xs us → o ∈ c.opts → o.short = some x →
      o.Valued → Piece c [ascii "-" ++ xs ++ [x] ++ ascii "=" ++ v] (us ++ [.value o.arg v])
  | lettersValue {xs : Bytes} {us : List Use} {o : OptDef} {x : UInt8} {v : Bytes} : Letters c xs us → o ∈ c.opts → o.short = some x →
      o.Valued → v ≠ [] → v.head? ≠ some 61 → Piece c [ascii "-" ++ xs ++ [x] ++ v] (us ++ [.value o.arg v])

/-- Pieces one after the other. -/
inductive Pieces (c : CmdDef) : List Bytes → List Use → Prop where
  | nil : Pieces c [] []
  | cons {ws rest : List Bytes} {us us' : List Use} : Piece c ws us → Pieces c rest us' → Pieces c (ws ++ rest) (us ++ us')

/-- A command line: pieces, which may be followed by `--` and any words. -/
def Line (c : CmdDef) (argv : List Bytes) (l : List Use) : Prop :=
  Pieces c argv l ∨ ∃ ws us after, Pieces c ws us ∧ argv = ws ++ ascii "--" :: after ∧ l = us ++ after.map .word

/-- The use is one of the argument. -/
def Use.Of (a : Arg) : Use → Prop
  | .flag b => b = a
  | .value b _ => b = a
  | .word _ => False

def Use.text : Use → Option Bytes
  | .word w => some w
  | _ => none

/-- The words, in order. -/
def said (l : List Use) : List Bytes := l.filterMap Use.text

/-- The word at place `i` can be one of the command. -/
def CmdDef.WordAt (c : CmdDef) (i : Nat) (w : Bytes) : Prop :=
  (∃ f, c.words[i]? = some f ∧ f w = true) ∨ (c.words.length ≤ i ∧ ∃ f, c.rest = some f ∧ f w = true)

/-- The uses are allowed: no argument is given twice (but those that can), values and words are of the right kind, and there are not
too many words. -/
structure Allowed (c : CmdDef) (l : List Use) : Prop where
  once : l.Pairwise (fun u u' => ∀ o ∈ c.opts, o.takes ≠ .count → o.takes ≠ .values → u.Of o.arg → ¬ u'.Of o.arg)
  values : ∀ a v, .value a v ∈ l → ∃ o ∈ c.opts, o.arg = a ∧ o.check v = true
  words : ∀ i w, (said l)[i]? = some w → c.WordAt i w

/-- The word asks for help or the version: `--help`, or `-…h…` behind letters of arguments without value. -/
def AsksHelp (c : CmdDef) (us : List Use) (w : Bytes) : Prop :=
  (∃ o ∈ c.opts, o.takes = .stop ∧ ∃ n, o.long = some n ∧ w = ascii "--" ++ n) ∨
  (∃ o ∈ c.opts, o.takes = .stop ∧ ∃ x, o.short = some x ∧ ∃ xs fs t, Letters c xs fs ∧ Allowed c (us ++ fs) ∧ w = ascii "-" ++ xs ++ x :: t)

/-- The value of an argument; it is given without value; the text of all its values. -/
def GivesValue (l : List Use) (a : Arg) (r : Option Bytes) : Prop := ∀ v, r = some v ↔ .value a v ∈ l
def GivesFlag (l : List Use) (a : Arg) (b : Bool) : Prop := b = true ↔ .flag a ∈ l

/-- What the uses mean for `arx create`. -/
structure CreateSaid (l : List Use) (o : CreateOpts) : Prop where
  outfile : GivesValue l .outfile o.outfile
  stripPrefix : GivesValue l .stripPrefix o.stripPrefix
  baseDir : GivesValue l .baseDir o.baseDir
  infiles : o.infiles = said l
  fileList : GivesValue l .fileList o.fileList
  recurse : GivesFlag l .recurse o.recurse
  noRecurse : GivesFlag l .noRecurse o.noRecurse
  listCompressions : GivesFlag l .listCompressions o.listCompressions
  force : GivesFlag l .force o.force
  followSymlink : GivesFlag l .followSymlink o.followSymlink

/-- The text stands for a compression: `none`, or an algorithm of the build with its default level or one in its range. -/
def CompText (ft : Features) (v : Bytes) (comp : Compression) : Prop :=
  ∃ algo level, ArgIs v algo level ∧
    ((SameName algo (ascii "none") ∧ comp = .none) ∨
      ∃ A : Algo, A.present ft = true ∧ SameName algo A.name ∧
        ((level = none ∧ comp = A.comp .default) ∨
          ∃ t n, level = some t ∧ IntText A.signed t n ∧ A.lo ≤ n ∧ n ≤ A.hi ∧ comp = A.comp (.given n)))

/-- What the uses mean for the compression (by default `zstd`) and the number of files (by default one; at most one of three flags). -/
def CompressionSaid (ft : Features) (l : List Use) (comp : Compression) : Prop :=
  (∃ v, .value .compression v ∈ l ∧ validUtf8 v = true ∧ CompText ft v comp) ∨
  ((∀ v, .value .compression v ∉ l) ∧ ft.zstd = true ∧ comp = .zstd .default)

def ConcatSaid (l : List Use) (m : ConcatMode) : Prop :=
  (.flag .oneFile ∈ l ∧ .flag .twoFiles ∉ l ∧ .flag .multipleFiles ∉ l ∧ m = .oneFile) ∨
  (.flag .oneFile ∉ l ∧ .flag .twoFiles ∈ l ∧ .flag .multipleFiles ∉ l ∧ m = .twoFiles) ∨
  (.flag .oneFile ∉ l ∧ .flag .twoFiles ∉ l ∧ .flag .multipleFiles ∈ l ∧ m = .noConcat) ∨
  (.flag .oneFile ∉ l ∧ .flag .twoFiles ∉ l ∧ .flag .multipleFiles ∉ l ∧ m = .oneFile)

/-- The overwrite mode, by default `warn`. -/
def OverwriteSaid (l : List Use) (m : Overwrite) : Prop :=
  (.value .overwrite (ascii "skip") ∈ l ∧ m = .skip) ∨ (.value .overwrite (ascii "warn") ∈ l ∧ m = .warn) ∨
  (.value .overwrite (ascii "newer") ∈ l ∧ m = .newer) ∨ (.value .overwrite (ascii "overwrite") ∈ l ∧ m = .overwrite) ∨
  (.value .overwrite (ascii "error") ∈ l ∧ m = .error) ∨ ((∀ v, .value .overwrite v ∉ l) ∧ m = .warn)

/-- What the uses mean for `arx extract`: the archive is the first word, or what follows `-f`; then there are no other words. -/
structure ExtractSaid (l : List Use) (infile : Bytes) (o : ExtractOpts) : Prop where
  archive : ((∀ v, .value .infileOld v ∉ l) ∧ said l = infile :: o.files) ∨ (.value .infileOld infile ∈ l ∧ said l = [] ∧ o.files = [])
  outdir : GivesValue l .outdir o.outdir
  rootDir : GivesValue l .rootDir o.rootDir
  fileList : GivesValue l .fileList o.fileList
  recurse : GivesFlag l .recurse o.recurse
  noRecurse : GivesFlag l .noRecurse o.noRecurse
  overwrite : OverwriteSaid l o.overwrite

/-- What the uses mean for `arx list`, `arx dump` and `arx mount`. The value of `--stable-output` is a number below 256. -/
def ListSaid (l : List Use) (infile : Bytes) (stable : Option Nat) : Prop :=
  said l = [infile] ∧ ∀ n : Nat, stable = some n ↔ ∃ v, .value .stableOutput v ∈ l ∧ IntText true v n

def DumpSaid (l : List Use) (infile path : Bytes) (output : Option Bytes) : Prop := said l = infile :: path :: output.toList

structure MountSaid (l : List Use) (o : MountOpts) : Prop where
  words : said l = o.infile :: o.mountdir.toList
  rootDir : GivesValue l .rootDir o.rootDir
  foreground : GivesFlag l .foreground o.foreground

/-- A subcommand and what its uses mean. -/
def Means (ft : Features) (sub : Bytes) (argv : List Bytes) (c : Cli) : Prop :=
  match c with
  | .create o comp concat => sub = ascii "create" ∧ ∃ l, Line (createDef ft) argv l ∧ Allowed (createDef ft) l ∧ CreateSaid l o ∧ o.Accepted ∧
      CompressionSaid ft l comp ∧ ConcatSaid l concat
  | .list infile stable => sub = ascii "list" ∧ ∃ l, Line listDef argv l ∧ Allowed listDef l ∧ ListSaid l infile stable
  | .dump infile path output => sub = ascii "dump" ∧ ∃ l, Line dumpDef argv l ∧ Allowed dumpDef l ∧ DumpSaid l infile path output
  | .extract infile o => sub = ascii "extract" ∧ ∃ l, Line extractDef argv l ∧ Allowed extractDef l ∧ ExtractSaid l infile o ∧ o.Accepted
  | .mount o => sub = ascii "mount" ∧ ∃ l, Line mountDef argv l ∧ Allowed mountDef l ∧ MountSaid l o

/-- Words that only say how much is logged: `-v`, `-vv`, …, `--verbose`. -/
def OnlyVerbose (ws : List Bytes) : Prop :=
  ∀ w ∈ ws, w = ascii "--verbose" ∨ ∃ n, w = 45 :: List.replicate (n + 1) 118

/-- The values are ones a command line can give: names of files are not empty, others are UTF-8. -/
structure CreateOpts.Sayable (o : CreateOpts) : Prop where
  outfile : ∀ v, o.outfile = some v → v ≠ []
  stripPrefix : ∀ v, o.stripPrefix = some v → validUtf8 v = true
  baseDir : ∀ v, o.baseDir = some v → v ≠ []
  infiles : ∀ v ∈ o.infiles, v ≠ []
  fileList : ∀ v, o.fileList = some v → v ≠ []

structure ExtractOpts.Sayable (o : ExtractOpts) : Prop where
  outdir : ∀ v, o.outdir = some v → v ≠ []
  files : ∀ v ∈ o.files, validUtf8 v = true
  rootDir : ∀ v, o.rootDir = some v → v ≠ []
  fileList : ∀ v, o.fileList = some v → v ≠ []

/-- The same arguments in another order; the words are in the same order. -/
def SameUses (l l' : List Use) : Prop := l.Perm l' ∧ said l = said l'

/-- A line of a converter: the archive, the output, compression and number of files. -/
structure ToolSaid (ft : Features) (l : List Use) (input outfile : Option Bytes) (comp : Compression) (concat : ConcatMode) : Prop where
  input : said l = input.toList
  outfile : GivesValue l .outfile outfile
  compression : CompressionSaid ft l comp
  concat : ConcatSaid l concat

/-- Something else is asked of a converter. -/
def OtherSaid (l : List Use) : Prop := .flag .listCompressions ∈ l ∨ .flag .manPage ∈ l ∨ ∃ v, .value .complete v ∈ l

/-- The values of an argument that can be given more than once, in order. -/
def givenTexts (l : List Use) (a : Arg) : List Bytes := l.filterMap (fun u => match u with | .value b v => if b = a then some v else none | _ => none)

/-! ## The help -/

/-- A line of the help, without the explanation: `-o, --outfile <>`; `-v...` can be repeated. -/
def OptDef.synopsis (o : OptDef) : Bytes :=
  (match o.short, o.long with
    | some x, some n => ascii "-" ++ [x] ++ ascii ", --" ++ n
    | some x, none => ascii "-" ++ [x]
    | none, some n => ascii "--" ++ n
    | none, none => []) ++
  match o.takes with
  | .flag | .stop => []
  | .count => ascii "..."
  | .value => ascii " <>"
  | .values => ascii " <>..."
  | .maybe => ascii " [<>]"

/-- The help of `arx`, of its subcommands, and of the other programs: the options. -/
def arxHelp : List (Bytes × Arg) :=
  [(ascii "-v, --verbose...", .verbose), (ascii "--generate-man-page [<>]", .manPage), (ascii "--generate-complete <>", .complete),
   (ascii "-h, --help", .help), (ascii "-V, --version", .version)]

def createHelp : List (Bytes × Arg) :=
  [(ascii "-o, --outfile <>", .outfile), (ascii "--strip-prefix <>", .stripPrefix), (ascii "-C <>", .baseDir), (ascii "-L, --file-list <>", .fileList),
   (ascii "-r, --recurse", .recurse), (ascii "--no-recurse", .noRecurse), (ascii "-1, --one-file", .oneFile), (ascii "-2, --two-files", .twoFiles),
   (ascii "-N, --multiple-files", .multipleFiles), (ascii "-c, --compression <>", .compression), (ascii "--list-compressions", .listCompressions),
   (ascii "--progress", .progress), (ascii "-f, --force", .force), (ascii "--follow-symlink", .followSymlink), (ascii "-v, --verbose...", .verbose),
   (ascii "-h, --help", .help)]

def listHelp : List (Bytes × Arg) :=
  [(ascii "--stable-output <>", .stableOutput), (ascii "-v, --verbose...", .verbose), (ascii "-h, --help", .help)]

def dumpHelp : List (Bytes × Arg) := [(ascii "-v, --verbose...", .verbose), (ascii "-h, --help", .help)]

def extractHelp : List (Bytes × Arg) :=
  [(ascii "-C <>", .outdir), (ascii "--root-dir <>", .rootDir), (ascii "-p, --progress", .progress), (ascii "-L, --file-list <>", .fileList),
   (ascii "-r, --recurse", .recurse), (ascii "--no-recurse", .noRecurse), (ascii "-f, --file <>", .infileOld), (ascii "--overwrite <>", .overwrite),
   (ascii "-v, --verbose...", .verbose), (ascii "-h, --help", .help)]

def mountHelp : List (Bytes × Arg) :=
  [(ascii "--root-dir <>", .rootDir), (ascii "-f, --foreground", .foreground), (ascii "-v, --verbose...", .verbose), (ascii "-h, --help", .help)]

def toolHelp : List (Bytes × Arg) :=
  [(ascii "-o, --outfile <>", .outfile), (ascii "-1, --one-file", .oneFile), (ascii "-2, --two-files", .twoFiles),
   (ascii "-N, --multiple-files", .multipleFiles), (ascii "-c, --compression <>", .compression), (ascii "--list-compressions", .listCompressions),
   (ascii "--generate-man-page", .manPage), (ascii "--generate-complete <>", .complete), (ascii "-h, --help", .help), (ascii "-V, --version", .version)]

def fuseHelp : List (Bytes × Arg) := [(ascii "-o <>...", .option), (ascii "-h, --help", .help), (ascii "-V, --version", .version)]

/-- The options of a command are those of its help. -/
def CmdDef.HasHelp (c : CmdDef) (help : List (Bytes × Arg)) : Prop := c.opts.map (fun o => (o.synopsis, o.arg)) = help

end Arx
