import Verif.Base.Bytes
/-!
# Specification: names, order, text and numbers

The words in which the other specifications speak, defined here without the functions of the model. `47` is `/`.
-/
namespace Arx

/-- `p` is a spelling of the path with the names `ns`: the names in turn, separated by at least one `/`; further `/` may be in front or
behind. -/
inductive PathText : Bytes → List Bytes → Prop where
  | nil : PathText [] []
  | slash {p : Bytes} {ns : List Bytes} : PathText p ns → PathText (47 :: p) ns
  | last {c : Bytes} : c ≠ [] → 47 ∉ c → PathText c [c]
  | name {c p : Bytes} {ns : List Bytes} : c ≠ [] → 47 ∉ c → PathText p ns → PathText (c ++ 47 :: p) (c :: ns)

/-- The order of names: a proper prefix first, else by the first byte that differs. -/
def BytesLess (a b : Bytes) : Prop :=
  (∃ c l, b = a ++ c :: l) ∨ ∃ p x y a' b', a = p ++ x :: a' ∧ b = p ++ y :: b' ∧ x.toNat < y.toNat

/-- Unicode scalar values. -/
def Scalar (n : Nat) : Prop := n < 0xD800 ∨ (0xE000 ≤ n ∧ n < 0x110000)

/-- The UTF-8 encoding of a character. -/
def encodeChar (n : Nat) : Bytes :=
  if n < 0x80 then [.ofNat n]
  else if n < 0x800 then [.ofNat (0xC0 + n / 64), .ofNat (0x80 + n % 64)]
  else if n < 0x10000 then [.ofNat (0xE0 + n / 4096), .ofNat (0x80 + n / 64 % 64), .ofNat (0x80 + n % 64)]
  else [.ofNat (0xF0 + n / 262144), .ofNat (0x80 + n / 4096 % 64), .ofNat (0x80 + n / 64 % 64), .ofNat (0x80 + n % 64)]

/-- The bytes are UTF-8 text: encodings of characters one after the other. -/
def Utf8Text (b : Bytes) : Prop := ∃ ns : List Nat, (∀ n ∈ ns, Scalar n) ∧ b = ns.flatMap encodeChar

/-- The bytes are the beginning of a character. -/
def Begun (v : Bytes) : Prop := ∃ n, Scalar n ∧ v <+: encodeChar n

/-- `t` is how the bytes `s` are shown as text: characters as they are, and the replacement character U+FFFD for each part `u` that is none:
the longest beginning of a character there, or else one byte. -/
inductive TextShown : Bytes → Bytes → Prop where
  | nil : TextShown [] []
  | char {n : Nat} {s t : Bytes} : Scalar n → TextShown s t → TextShown (encodeChar n ++ s) (encodeChar n ++ t)
  | bad {u s t : Bytes} : (∀ n, Scalar n → ¬ encodeChar n <+: u ++ s) → (Begun u ∨ u.length = 1) → u ≠ [] →
      (∀ v, v <+: u ++ s → Begun v → v.length ≤ u.length) → TextShown s t → TextShown (u ++ s) (encodeChar 0xFFFD ++ t)

/-- The decimal digits of a number. -/
def decimal (n : Nat) : Bytes :=
  if n < 10 then [.ofNat (48 + n)] else decimal (n / 10) ++ [.ofNat (48 + n % 10)]
decreasing_by omega

end Arx
