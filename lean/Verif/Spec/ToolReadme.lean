import Verif.Model.Tools
import Verif.Spec.Readme
import Verif.Spec.Main
import Verif.Spec.TripConv
import Verif.Spec.ConvMount
import Verif.Spec.Convert

/-! The command lines of the READMEs of the converters (C99). -/
namespace Arx

/-- What a member is. -/
inductive MKind where
  | dir
  | link (target : Bytes)
  | file (data : Bytes)

/-- The members of a tar archive: names and kinds. -/
def TarHas (ms : List TarMember) (p : List Bytes) (k : MKind) : Prop :=
  ∃ e ∈ ms, p = memberNames e.path ∧
    ((e.Directory ∧ k = .dir) ∨ (e.type = .symlink ∧ ∃ t, e.linkName = some t ∧ k = .link t) ∨ (e.FileLike ∧ ∃ d, e.data = .ok d ∧ k = .file d))

/-- The members of a zip archive. -/
def ZipHas (ms : List ZipMember) (p : List Bytes) (k : MKind) : Prop :=
  ∃ e ∈ ms, p = memberNames e.name ∧ ((e.isDir = true ∧ k = .dir) ∨ (e.isDir = false ∧ ∃ d, e.content = .ok d ∧ k = .file d))

/-- `tar2arx -o A T` wrote the archive `c` (its rows in the order `order`) to `A`, from the members `ms`. -/
structure TarRun (ft : Features) (A T : Bytes) (sys : ConvSys TarMember) (ms : List TarMember) (c : Conv) (order : List Nat) : Prop where
  zstd : ft.zstd = true
  archiveName : WordName A
  tarName : WordName T
  text : validUtf8 T = true
  input : sys.input (some T) = .ok (ms.map .ok)
  wrote : ConvEv.written A c ∈ (tarProgram ft (readmeConvert A T) sys).1
  layout : IsLayout c.creator order
  size : c.creator.store.length + 2 < 2 ^ 32

/-- `zip2arx -o A T` did. -/
structure ZipRun (ft : Features) (A T : Bytes) (sys : ConvSys ZipMember) (ms : List ZipMember) (c : Conv) (order : List Nat) : Prop where
  zstd : ft.zstd = true
  archiveName : WordName A
  zipName : WordName T
  input : sys.input (some T) = .ok (ms.map .ok)
  wrote : ConvEv.written A c ∈ (zipProgram ft (readmeConvert A T) sys).1
  layout : IsLayout c.creator order
  size : c.creator.store.length + 2 < 2 ^ 32

/-- `arx list A` prints one line for each member and each directory on the way to one, each once, in the order of the walk, and nothing
else; `arx dump A f` writes the data of the file `f` if there is one, otherwise nothing, with status 1. (The reader of the output may go
away.) -/
structure MembersRead (ft : Features) (A : Bytes) (p : ProgSys) (has : List Bytes → MKind → Prop) : Prop where
  list : ∃ (V : List (List Bytes)) (b : Bytes) (e : Exit), V.Pairwise lexLt ∧ (∀ z, z ∈ V ↔ z ≠ [] ∧ ∃ y k, has y k ∧ z <+: y) ∧
    arxProgram ft (readmeList A) p = (.stdout b, e) ∧
    ((e = .code 0 ∧ b = V.flatMap (fun z => joinPath z ++ [10])) ∨
     (e = .signal SIGPIPE ∧ b <+: V.flatMap (fun z => joinPath z ++ [10]) ∧ p.main.out.Leaves 9216))
  dump : ∀ f, Plain f → validUtf8 f = true → comps f ≠ [] → ∀ d, has (comps f) (.file d) →
    ∃ b e, arxProgram ft (readmeDump A f) p = (.stdout b, e) ∧
      ((e = .code 0 ∧ b = d) ∨ (e = .signal SIGPIPE ∧ b <+: d ∧ p.main.out.Leaves 1024))
  refuse : ∀ f, Plain f → validUtf8 f = true → comps f ≠ [] → (∀ d, ¬ has (comps f) (.file d)) →
    arxProgram ft (readmeDump A f) p = (.stdout [], .code 1)

/-- The line of a converter with these arguments asks to convert. -/
def AsksConvert (ft : Features) (d : CmdDef) (both : Bool) (argv : List Bytes) : Prop :=
  ∃ l input out comp concat, Line d argv l ∧ Allowed d l ∧ ToolSaid ft l input out comp concat ∧ ¬ OtherSaid l ∧ (both = true → input ≠ none ∧ out ≠ none)

/-- The line of a converter asks for something that is only printed: help, the version, the compressions, a man page or completions. -/
def AsksPrint (ft : Features) (d : CmdDef) (argv : List Bytes) : Prop :=
  (∃ ws us w rest, argv = ws ++ w :: rest ∧ Pieces d ws us ∧ Allowed d us ∧ AsksHelp d us w) ∨
  ∃ l input out comp concat, Line d argv l ∧ Allowed d l ∧ ToolSaid ft l input out comp concat ∧ OtherSaid l

end Arx
