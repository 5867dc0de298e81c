import Verif.Model.Convert
import Verif.Model.Cmd
/-!
# The commands `tar2arx` and `zip2arx`

Models of `main` of /repo/tar2arx/src/main.rs and /repo/zip2arx/src/main.rs, without the options that only print
(`--list-compressions`, `--generate-man-page`, `--generate-complete`), compression and concat mode.
-/
namespace Arx

/-! ## File names (`std::path::Path`, external) -/

/-- The path without what `Path::components` skips at its end (`/` and `/.`). -/
def trimPath : Nat → Bytes → Bytes
  | 0, p => p
  | n + 1, p =>
    if p.getLast? = some SEP then trimPath n p.dropLast
    else if p.drop (p.length - 2) = [SEP, 46] then trimPath n p.dropLast
    else p

/-- `Path::file_name`, with the text before it. -/
def splitName (p : Bytes) : Option (Bytes × Bytes) :=
  let q := trimPath p.length p
  let name := (q.reverse.takeWhile (· != SEP)).reverse
  if name = [] ∨ name = CUR ∨ name = PARENT then none
  else some (q.take (q.length - name.length), name)

/-- `file_stem` of a file name: what is before the last dot, unless that is empty. -/
def stem (name : Bytes) : Bytes :=
  let before := ((name.reverse.dropWhile (· != 46)).drop 1).reverse
  if (46 : UInt8) ∈ name ∧ before ≠ [] then before else name

/-- `Path::with_extension`. -/
def withExt (p ext : Bytes) : Bytes :=
  match splitName p with
  | none => p
  | some (pre, name) => pre ++ stem name ++ (if ext = [] then [] else 46 :: ext)

/-- `"http"`, `"https"` -/
def schemes : List Bytes := [[104, 116, 116, 112, 115], [104, 116, 116, 112]]

/-- `Path::starts_with("https://") || Path::starts_with("http://")` (/repo/tar2arx/src/main.rs:316): the first
component is `https:` or `http:`. -/
def urlLike (p : Bytes) : Bool :=
  decide (p.head? ≠ some SEP) && schemes.any (fun s => decide ((comps p).head? = some (s ++ [58])))

/-- The output name made from the input name (/repo/tar2arx/src/main.rs:314-325); `none`: `unwrap` panics. -/
def tarOutName (p : Bytes) : Option Bytes :=
  if urlLike p then
    match splitName p with
    | none => none
    | some (_, name) => some (withExt (withExt name []) [97, 114, 120])
  else some (withExt (withExt p []) [97, 114, 120])

/-! ## `main` -/

/-- What a converter does to the outside world: prints the name it has chosen; prepares the archive (jubako's
`BasicCreator::new`, external: a temporary file); moves the finished archive to the output path, replacing what
is there (external). -/
inductive ConvEv where
  | named (out : Bytes)
  | prepared (out : Bytes)
  | written (out : Bytes) (c : Conv)

/-- Why an input cannot be read. `err`: it cannot be opened (a URL without feature `http` included); `panic`: it is
not an archive (`unwrap` of `niffler::get_reader`, /repo/tar2arx/src/main.rs:350-352, and of `ZipArchive::new`,
/repo/zip2arx/src/main.rs:297). -/
inductive InErr where
  | err | panic
  deriving DecidableEq, Repr

def InErr.toCmd : InErr → CmdRes
  | .err => .err
  | .panic => .panic

/-- What a converter finds: the members that can be read from an input, and whether jubako can prepare and write
the archive. `none` as input is standard input. -/
structure ConvSys (M : Type) where
  input : Option Bytes → Except InErr (List (Except Unit M))
  openOk : Bool
  writeOk : Bool

/-- Result of a command from that of a conversion. -/
def COut.toCmd : COut → CmdRes
  | .ok => .ok
  | .panic => .panic
  | _ => .err

/-- `Converter::new` and `Converter::run` (/repo/tar2arx/src/main.rs:242-277, /repo/zip2arx/src/main.rs:231-267). -/
def convertTo {M : Type} (run : Conv → List (Except Unit M) → Conv × COut) (sys : ConvSys M) (out : Bytes)
    (items : List (Except Unit M)) : List ConvEv × CmdRes :=
  if !sys.openOk then ([.prepared out], .err)
  else
    match run Conv.new items with
    | (c, .ok) => ([.prepared out, .written out c], if sys.writeOk then .ok else .err)
    | (_, e) => ([.prepared out], e.toCmd)

/-- `tar2arx` (/repo/tar2arx/src/main.rs:280-366). `-` is standard input. -/
def tar2arx (tarFile outfile : Option Bytes) (sys : ConvSys TarMember) : List ConvEv × CmdRes :=
  let stdin := tarFile = none ∨ tarFile = some [45]
  if outfile = none ∧ stdin then ([], .err)
  else
    match (match outfile with
      | some o => some (([] : List ConvEv), o)
      | none => (tarOutName (tarFile.getD [])).map (fun o => ([.named o], o))) with
    | none => ([], .panic)
    | some (evs, out) =>
      match sys.input (if stdin then none else tarFile) with
      | .error e => (evs, e.toCmd)
      | .ok items =>
        let r := convertTo Conv.tarRun sys out items
        (evs ++ r.1, r.2)

/-- `zip2arx` (/repo/zip2arx/src/main.rs:269-308); clap requires both files. -/
def zip2arx (zipFile outfile : Bytes) (sys : ConvSys ZipMember) : List ConvEv × CmdRes :=
  match sys.input (some zipFile) with
  | .error e => ([], e.toCmd)
  | .ok items => convertTo Conv.zipRun sys outfile items

end Arx
