import Verif.Model.Types
/-!
# Parsing `--compression`

Model of /repo/libarx/src/cmd_utils.rs (the same code is in `jbk::cmd_utils`, which `arx create` and `tar2arx`
use).  The argument is a `&str`; its bytes are modelled.
-/
namespace Arx

/-- The optional cargo features of the build. -/
structure Features where
  lz4 : Bool
  lzma : Bool
  zstd : Bool

/-- A level given on the command line, or the default level of the algorithm (external). -/
inductive Level where
  | default
  | given (v : Int)
  deriving DecidableEq, Repr

/-- `jbk::creator::Compression` (external). -/
inductive Compression where
  | none
  | lz4 (l : Level)
  | lzma (l : Level)
  | zstd (l : Level)
  deriving DecidableEq, Repr

/-- `InvalidCompression` (/repo/libarx/src/cmd_utils.rs:50-54); the message of a bad level is not modelled. -/
inductive InvalidCompression where
  | level
  | algorithm (name : Bytes)
  deriving DecidableEq, Repr

/-- `to_ascii_lowercase` (external). -/
def lower (b : Bytes) : Bytes := b.map (fun c => if 65 ≤ c ∧ c ≤ 90 then c + 32 else c)

/-- `s.splitn(2, '=')` (/repo/libarx/src/cmd_utils.rs:17-19). -/
def splitEq : Bytes → Bytes × Option Bytes
  | [] => ([], none)
  | c :: t => if c = 61 then ([], some t) else ((c :: (splitEq t).1), (splitEq t).2)

/-- Decimal digits with the value so far; `none`: another byte (`from_str_radix`, external). -/
def parseDigits (acc : Nat) : Bytes → Option Nat
  | [] => some acc
  | c :: t => if 48 ≤ c ∧ c ≤ 57 then parseDigits (acc * 10 + (c.toNat - 48)) t else none

/-- Digits, at least one. -/
def parseNat (b : Bytes) : Option Nat := if b = [] then none else parseDigits 0 b

/-- An optional `+`, for signed types also `-`, then digits. -/
def readInt (signed : Bool) (b : Bytes) : Option Int :=
  match b with
  | 43 :: t => (parseNat t).map Int.ofNat
  | 45 :: t => if signed then (parseNat t).map (fun n => - Int.ofNat n) else none
  | _ => (parseNat b).map Int.ofNat

/-- `str::parse` of an integer type with values `lo … hi` (external). -/
def parseInt (signed : Bool) (lo hi : Int) (b : Bytes) : Option Int :=
  match readInt signed b with
  | none => none
  | some v => if lo ≤ v ∧ v ≤ hi then some v else none

/-- `parse` of `deranged::RangedU32<lo, hi>` and `RangedI32<lo, hi>` (external): parse the integer, then check
the range. -/
def parseRanged (signed : Bool) (lo hi : Int) (b : Bytes) : Option Int :=
  match parseInt signed (if signed then -(2 ^ 31) else 0) (if signed then 2 ^ 31 - 1 else 2 ^ 32 - 1) b with
  | none => none
  | some v => if lo ≤ v ∧ v ≤ hi then some v else none

/-- The level of an algorithm (/repo/libarx/src/cmd_utils.rs:23-29, 31-37, 39-45). -/
def parseLevel (signed : Bool) (lo hi : Int) (level : Option Bytes) : Except InvalidCompression Level :=
  match level with
  | none => .ok .default
  | some l =>
    match parseRanged signed lo hi l with
    | some v => .ok (.given v)
    | none => .error .level

/-- `compression_arg_parser` (/repo/libarx/src/cmd_utils.rs:16-48). -/
def compressionArg (ft : Features) (s : Bytes) : Except InvalidCompression Compression :=
  let compression := lower (splitEq s).1
  let level := (splitEq s).2
  if compression = ascii "none" then .ok .none
  else if ft.lz4 ∧ compression = ascii "lz4" then (parseLevel false 0 15 level).map .lz4
  else if ft.lzma ∧ compression = ascii "lzma" then (parseLevel false 0 9 level).map .lzma
  else if ft.zstd ∧ compression = ascii "zstd" then (parseLevel true (-22) 22 level).map .zstd
  else .error (.algorithm compression)

/-- `From<ConcatMode>` (/repo/libarx/src/cmd_utils.rs:104-116): `none` is `unreachable!()`. -/
inductive ConcatMode where
  | oneFile | twoFiles | noConcat
  deriving DecidableEq, Repr

def concatMode (one two multiple : Bool) : Option ConcatMode :=
  match one, two, multiple with
  | true, _, _ => some .oneFile
  | _, true, _ => some .twoFiles
  | _, _, true => some .noConcat
  | _, _, _ => none

end Arx
