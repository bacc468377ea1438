import Verif.Model.Basic

/-! # Specification: inputs with long runs of continuation bytes -/

namespace Steit.Spec

/-- Somewhere in `bs` there are `k` consecutive bytes with the top bit set. -/
def LongRun (k : Nat) (bs : Bytes) : Prop :=
  ∃ c, c <:+: bs ∧ c.length = k ∧ ∀ b ∈ c, 128 ≤ b.toNat

/-- How many consecutive continuation bytes can make decoding panic: two in a debug build (the third byte of a varint does
not fit a `u8`), nine in a release build (only a declared size of 2^63 or more can, and that takes ten bytes). -/
def runLimit : Mode → Nat
  | .debug => 2
  | .release => 9

end Steit.Spec
