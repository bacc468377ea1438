import Verif.Model.Basic

/-! # UTF-8 validation (`String::from_utf8`, used in `steit/src/impls/string.rs:34-36`) -/

namespace Steit

/-- Is the byte a continuation byte `80..BF`? (Called in `steit/src/impls/string.rs:34-36`.) -/
def isCont (b : Byte) : Bool := 0x80 ≤ b.toNat && b.toNat ≤ 0xbf

/-- The byte-range table of well-formed UTF-8 that `core::str::from_utf8` implements (standard library, trusted;
compared with the definition of UTF-8 as encoded scalar values in `Verif/Props/Text.lean`).
(Called in `steit/src/impls/string.rs:34-36`.) -/
def utf8Valid : Bytes → Bool
  | [] => true
  | b0 :: rest =>
    if b0.toNat < 0x80 then utf8Valid rest
    else match rest with
      | [] => false
      | b1 :: rest =>
        if 0xc2 ≤ b0.toNat && b0.toNat ≤ 0xdf then isCont b1 && utf8Valid rest
        else match rest with
          | [] => false
          | b2 :: rest =>
            if 0xe0 ≤ b0.toNat && b0.toNat ≤ 0xef then
              (isCont b1 && (b0.toNat != 0xe0 || 0xa0 ≤ b1.toNat) && (b0.toNat != 0xed || b1.toNat ≤ 0x9f))
                && isCont b2 && utf8Valid rest
            else match rest with
              | [] => false
              | b3 :: rest =>
                if 0xf0 ≤ b0.toNat && b0.toNat ≤ 0xf4 then
                  (isCont b1 && (b0.toNat != 0xf0 || 0x90 ≤ b1.toNat) && (b0.toNat != 0xf4 || b1.toNat ≤ 0x8f))
                    && isCont b2 && isCont b3 && utf8Valid rest
                else false

/-- A Rust `String`: bytes known to be valid UTF-8. (Called in `steit/src/impls/string.rs:34-36`.) -/
structure Str where
  bytes : Bytes
  valid : utf8Valid bytes = true
  deriving DecidableEq

end Steit
