import Verif.Model.Basic

/-! # Specification: UTF-8 as the encoding of Unicode scalar values -/

namespace Steit.Spec

/-- A Unicode scalar value: a code point that is no surrogate. -/
def Scalar (c : Nat) : Prop := c < 0xd800 ∨ (0xe000 ≤ c ∧ c ≤ 0x10ffff)

/-- UTF-8 of one scalar value (Unicode standard, table 3-6). -/
def utf8Char (c : Nat) : Bytes :=
  if c < 0x80 then [BitVec.ofNat 8 c]
  else if c < 0x800 then [BitVec.ofNat 8 (0xc0 + c / 64), BitVec.ofNat 8 (0x80 + c % 64)]
  else if c < 0x10000 then
    [BitVec.ofNat 8 (0xe0 + c / 4096), BitVec.ofNat 8 (0x80 + c / 64 % 64), BitVec.ofNat 8 (0x80 + c % 64)]
  else
    [BitVec.ofNat 8 (0xf0 + c / 262144), BitVec.ofNat 8 (0x80 + c / 4096 % 64), BitVec.ofNat 8 (0x80 + c / 64 % 64),
      BitVec.ofNat 8 (0x80 + c % 64)]

/-- UTF-8 of a text. -/
def utf8 (cs : List Nat) : Bytes := cs.flatMap utf8Char

end Steit.Spec
