import Verif.Model.Tools

/-!
# How an archive is packed: what a program passes to jubako
-/
namespace Arx

/-- The arguments of a call of `SimpleCreator::new`, passed on to jubako's `BasicCreator::new` (/repo/libarx/src/create/creator.rs:15-28):
the output, the compression and the number of files. The observers of progress are left out. -/
structure Packing (P : Type) where
  out : P
  compression : Compression
  concat : ConcatMode
  deriving DecidableEq

/-- The call made when `arx create` opens the archive. -/
def CreateEv.packing (comp : Compression) (concat : ConcatMode) : CreateEv → Option (Packing (List Bytes))
  | .opened out => some ⟨out, comp, concat⟩
  | _ => none

/-- The call made when a converter prepares the archive. -/
def ConvEv.packing (comp : Compression) (concat : ConcatMode) : ConvEv → Option (Packing Bytes)
  | .prepared out => some ⟨out, comp, concat⟩
  | _ => none

/-- The calls of `arx create` (/repo/arx/src/create.rs:304-313): one for each time an archive is opened. -/
def CreateOpts.packings (o : CreateOpts) (comp : Compression) (concat : ConcatMode) (sys : CreateSys) : List (Packing (List Bytes)) :=
  (o.run sys).1.filterMap (CreateEv.packing comp concat)

/-- The calls of `arx` (/repo/arx/src/main.rs:93-129): only `create` makes some, and only if nothing else is asked for. -/
def arxPackings (ft : Features) (argv : List Bytes) (p : ProgSys) : List (Packing (List Bytes)) :=
  match arxCli ft argv with
  | .args ⟨none, none, some (.create o comp concat)⟩ => o.packings comp concat p.main.create
  | _ => []

/-- The calls of a converter that passes these arguments. -/
def convPackings (evs : List ConvEv) (comp : Compression) (concat : ConcatMode) : List (Packing Bytes) :=
  evs.filterMap (ConvEv.packing comp concat)

/-- The calls of `tar2arx` (/repo/tar2arx/src/main.rs:242-256, 354-365): the compression and the mode of the command line. -/
def tarPackings (ft : Features) (argv : List Bytes) (sys : ConvSys TarMember) : List (Packing Bytes) :=
  match tarCli ft argv with
  | .convert input outfile comp concat => convPackings (tar2arx input outfile sys).1 comp concat
  | _ => []

/-- The calls of `zip2arx` (/repo/zip2arx/src/main.rs:231-244, 298-307): the mode of the command line, but always `Compression::zstd()`. -/
def zipPackings (ft : Features) (argv : List Bytes) (sys : ConvSys ZipMember) : List (Packing Bytes) :=
  match zipCli ft argv with
  | .convert (some input) (some outfile) _ concat => convPackings (zip2arx input outfile sys).1 (.zstd .default) concat
  | _ => []

end Arx
