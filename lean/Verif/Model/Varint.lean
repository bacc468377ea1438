import Verif.Model.Basic

/-!
# Integers on the wire (`steit/src/impls/varint.rs`, `steit/src/impls/bool.rs`)

Operator-for-operator transcription of the bit manipulation in the source.
-/

namespace Steit

/-- The writer loop of unsigned integers, `steit/src/impls/varint.rs:21-35`:
`if value & !0x7f == 0 { write value as u8 } else { write value as u8 & 0x7f | 0x80; value >>= 7 }`.
The first argument bounds the number of iterations so that the function is structurally recursive;
`putVarint` supplies enough (`putVarint_eq` in `Verif/Lemmas/Varint.lean` shows the loop equation without a bound). -/
def putLoop {w : Nat} : Nat → BitVec w → Bytes
  | 0, _ => []
  | n + 1, value =>
    if value &&& ~~~(0x7f#w) = 0#w then
      [value.setWidth 8]
    else
      (value.setWidth 8 &&& 0x7f#8 ||| 0x80#8) :: putLoop n (value >>> 7)

/-- `serialize` of an unsigned integer, `steit/src/impls/varint.rs:21-35`. -/
def putVarint {w : Nat} (value : BitVec w) : Bytes :=
  putLoop w value

/-- The shift `(buf[0] & 0x7f) as $type << offset` of `steit/src/impls/varint.rs:53`: a shift by at least the width
panics in debug builds and uses the shift amount modulo the width in release builds
(widths are powers of two, so masking is reduction modulo the width). -/
def shlChecked (m : Mode) {w : Nat} (x : BitVec w) (offset : Nat) : Except Err (BitVec w) :=
  if offset < w then .ok (x <<< offset)
  else match m with
    | .debug => .error .panic
    | .release => .ok (x <<< (offset % w))

/-- The reader loop of unsigned integers, `steit/src/impls/varint.rs:46-61`, started at `value = 0`, `offset = 0`.
`read_exact` at the end of the input gives `UnexpectedEof`. -/
def getLoop (m : Mode) {w : Nat} : Bytes → BitVec w → Nat → Except Err (BitVec w × Bytes)
  | [], _, _ => .error .unexpectedEof
  | b :: bs, value, offset =>
    match shlChecked m ((b &&& 0x7f#8).setWidth w) offset with
    | .error e => .error e
    | .ok shifted =>
      let value := value ||| shifted
      if b &&& 0x80#8 = 0#8 then .ok (value, bs)
      else getLoop m bs value (offset + 7)

/-- `deserialize` of an unsigned integer of width `w`, `steit/src/impls/varint.rs:40-62` and `steit/src/de/de.rs:10-14`. -/
def getVarint (m : Mode) (w : Nat) (bs : Bytes) : Except Err (BitVec w × Bytes) :=
  getLoop m bs 0#w 0

/-- `size_32`, `steit/src/impls/varint.rs:140-158`. -/
def size32 (value : BitVec 32) : Nat :=
  if value &&& (~~~(0#32) <<< 7) = 0#32 then 1
  else if value &&& (~~~(0#32) <<< 14) = 0#32 then 2
  else if value &&& (~~~(0#32) <<< 21) = 0#32 then 3
  else if value &&& (~~~(0#32) <<< 28) = 0#32 then 4
  else 5

/-- `size_64`, `steit/src/impls/varint.rs:169-197`; `>>=` on `i64` is the arithmetic shift. -/
def size64 (value : BitVec 64) : Nat :=
  if value &&& (~~~(0#64) <<< 7) = 0#64 then 1
  else if value.slt 0#64 then 10
  else
    let size := 2
    let (size, value) :=
      if value &&& (~~~(0#64) <<< 35) ≠ 0#64 then (size + 4, value.sshiftRight 28) else (size, value)
    let (size, value) :=
      if value &&& (~~~(0#64) <<< 21) ≠ 0#64 then (size + 2, value.sshiftRight 14) else (size, value)
    if value &&& (~~~(0#64) <<< 14) ≠ 0#64 then size + 1 else size

/-- `compute_size` of an unsigned integer, `steit/src/impls/varint.rs:1-19`: `u64` goes through `size_64` as `i64`,
narrower types through `size_32` as `i32` (the cast zero-extends). -/
def uintSize (w : Width) (value : BitVec w.bits) : Nat :=
  match w with
  | .w64 => size64 (value.setWidth 64)
  | _ => size32 (value.setWidth 32)

/-- `compute_size` of a `u32`, `steit/src/impls/varint.rs:1-19`. -/
def u32Size (value : U32) : Nat := uintSize .w32 value

/-- Zigzag `encode`, `steit/src/impls/varint.rs:86-88`: `(value << 1) ^ (value >> (bits - 1))` on the signed type. -/
def zigzag {w : Nat} (value : BitVec w) : BitVec w :=
  (value <<< 1) ^^^ value.sshiftRight (w - 1)

/-- Zigzag `decode`, `steit/src/impls/varint.rs:90-92`: `(value >> 1) ^ -(value & 1)` on the SIGNED type,
so `>>` is the arithmetic shift. -/
def unzigzag {w : Nat} (value : BitVec w) : BitVec w :=
  value.sshiftRight 1 ^^^ -(value &&& 1#w)

/-- `compute_size` of a signed integer, `steit/src/impls/varint.rs:94-97`. -/
def sintSize (w : Width) (value : BitVec w.bits) : Nat :=
  uintSize w (zigzag value)

/-- `serialize` of a signed integer, `steit/src/impls/varint.rs:99-105`. -/
def putSigned {w : Nat} (value : BitVec w) : Bytes :=
  putVarint (zigzag value)

/-- `merge` of a signed integer into a fresh value, `steit/src/impls/varint.rs:110-117`. -/
def getSigned (m : Mode) (w : Nat) (bs : Bytes) : Except Err (BitVec w × Bytes) :=
  match getVarint m w bs with
  | .error e => .error e
  | .ok (encoded, rest) => .ok (unzigzag encoded, rest)

/-- `serialize` of a bool, `steit/src/impls/bool.rs:17-19`. -/
def putBool (value : Bool) : Bytes :=
  [if value then 1#8 else 0#8]

/-- The reader loop of a bool, `steit/src/impls/bool.rs:24-37`, started at `value = false`. -/
def getBoolLoop : Bytes → Bool → Except Err (Bool × Bytes)
  | [], _ => .error .unexpectedEof
  | b :: bs, value =>
    let value := value || (b &&& 0x7f#8 != 0#8)
    if b &&& 0x80#8 = 0#8 then .ok (value, bs)
    else getBoolLoop bs value

/-- `deserialize` of a bool, `steit/src/impls/bool.rs:24-37`. -/
def getBool (bs : Bytes) : Except Err (Bool × Bytes) :=
  getBoolLoop bs false

end Steit
