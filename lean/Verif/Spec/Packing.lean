import Verif.Model.Packing
import Verif.Spec.CmdLine

/-!
# What is asked for
-/
namespace Arx

/-- The command line is one of `arx create`, with these options, this compression and this number of files. -/
def AsksCreate (ft : Features) (argv : List Bytes) (o : CreateOpts) (comp : Compression) (concat : ConcatMode) : Prop :=
  ∃ vs rest, argv = vs ++ ascii "create" :: rest ∧ OnlyVerbose vs ∧ ∃ l, Line (createDef ft) rest l ∧ Allowed (createDef ft) l ∧
    CreateSaid l o ∧ o.Accepted ∧ CompressionSaid ft l comp ∧ ConcatSaid l concat

/-- The command line asks a converter for a conversion, with this compression and this number of files. -/
def AsksPacked (ft : Features) (d : CmdDef) (argv : List Bytes) (input out : Option Bytes) (comp : Compression) (concat : ConcatMode) : Prop :=
  ∃ l, Line d argv l ∧ Allowed d l ∧ ToolSaid ft l input out comp concat ∧ ¬ OtherSaid l

end Arx
