import Verif.Model.CmdUtils
/-!
# Specification of `--compression`
-/
namespace Arx

/-- `b` are decimal digits with value `n`. -/
inductive Decimal : Bytes → Nat → Prop
  | one {d : UInt8} : 48 ≤ d → d ≤ 57 → Decimal [d] (d.toNat - 48)
  | more {b : Bytes} {n : Nat} {d : UInt8} : Decimal b n → 48 ≤ d → d ≤ 57 → Decimal (b ++ [d]) (10 * n + (d.toNat - 48))

/-- `b` denotes the integer `v`: decimal digits, possibly after `+` or (if `signed`) `-`. -/
inductive IntText (signed : Bool) : Bytes → Int → Prop
  | plain {b : Bytes} {n : Nat} : Decimal b n → IntText signed b n
  | plus {b : Bytes} {n : Nat} : Decimal b n → IntText signed (43 :: b) n
  | minus {b : Bytes} {n : Nat} : signed = true → Decimal b n → IntText signed (45 :: b) (-(n : Int))

/-- `a` is `name` up to the case of ASCII letters. -/
def SameName : Bytes → Bytes → Prop
  | [], [] => True
  | c :: a, d :: b => (c = d ∨ (65 ≤ c ∧ c ≤ 90 ∧ d = c + 32)) ∧ SameName a b
  | _, _ => False

/-- `s` is `algo` or `algo=level`. -/
def ArgIs (s algo : Bytes) (level : Option Bytes) : Prop :=
  (61 : UInt8) ∉ algo ∧ s = algo ++ (match level with | none => [] | some l => 61 :: l)

/-- The algorithms of a build, with what they are called and the levels they have. -/
inductive Algo where
  | lz4 | lzma | zstd
  deriving DecidableEq, Repr

def Algo.name : Algo → Bytes
  | .lz4 => ascii "lz4"
  | .lzma => ascii "lzma"
  | .zstd => ascii "zstd"

def Algo.present (ft : Features) : Algo → Bool
  | .lz4 => ft.lz4
  | .lzma => ft.lzma
  | .zstd => ft.zstd

def Algo.lo : Algo → Int
  | .zstd => -22
  | _ => 0

def Algo.hi : Algo → Int
  | .lz4 => 15
  | .lzma => 9
  | .zstd => 22

def Algo.signed : Algo → Bool
  | .zstd => true
  | _ => false

def Algo.comp : Algo → Level → Compression
  | .lz4 => .lz4
  | .lzma => .lzma
  | .zstd => .zstd

end Arx
