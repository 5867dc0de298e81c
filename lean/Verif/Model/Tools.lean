import Verif.Model.CmdLine

/-!
# The converters from their command lines
-/
namespace Arx

/-- `main` of `tar2arx` (/repo/tar2arx/src/main.rs:280-366): clap's errors end with status 2, an error with 1, a panic with 101. What is only
printed is left out. -/
def tarProgram (ft : Features) (argv : List Bytes) (sys : ConvSys TarMember) : List ConvEv × Exit :=
  match tarCli ft argv with
  | .usage => ([], .code 2)
  | .print => ([], .code 0)
  | .convert input outfile _ _ => ((tar2arx input outfile sys).1, (tar2arx input outfile sys).2.exit)

/-- `main` of `zip2arx` (/repo/zip2arx/src/main.rs:270-309); both names are there (clap), otherwise `unwrap` panics. -/
def zipProgram (ft : Features) (argv : List Bytes) (sys : ConvSys ZipMember) : List ConvEv × Exit :=
  match zipCli ft argv with
  | .usage => ([], .code 2)
  | .print => ([], .code 0)
  | .convert (some input) (some outfile) _ _ => ((zip2arx input outfile sys).1, (zip2arx input outfile sys).2.exit)
  | .convert _ _ _ _ => ([], .code 101)

end Arx
