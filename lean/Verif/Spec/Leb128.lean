import Verif.Model.Basic

/-!
# Specification of integers on the wire, in plain arithmetic

Nothing here refers to the model of the code.
-/

namespace Steit.Spec

/-- The number a little-endian base-128 byte string denotes; the top bit of each byte does not count. -/
def lebValue : Bytes → Nat
  | [] => 0
  | b :: bs => b.toNat % 128 + 128 * lebValue bs

/-- A terminated varint: every byte but the last has its top bit set, the last one does not. -/
def IsVarint (bs : Bytes) : Prop :=
  ∃ init last, bs = init ++ [last] ∧ (∀ b ∈ init, 128 ≤ b.toNat) ∧ last.toNat < 128

/-- The shortest varint denoting `n`, by division with remainder. -/
def leb (n : Nat) : Bytes :=
  if n < 128 then [BitVec.ofNat 8 n] else BitVec.ofNat 8 (n % 128 + 128) :: leb (n / 128)
termination_by n
decreasing_by omega

/-- The zigzag number of an integer: 0, -1, 1, -2, 2, ... are numbered 0, 1, 2, 3, 4, ... -/
def zigzagNat (i : Int) : Nat :=
  if 0 ≤ i then (2 * i).toNat else (-2 * i - 1).toNat

end Steit.Spec
