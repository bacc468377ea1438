import Verif.Model.Varint

/-! # Wire types, tags and the reader (`steit/src/wire_fmt.rs`, `steit/src/de/reader.rs`) -/

namespace Steit

/-- `enum WireType`, `steit/src/wire_fmt.rs:12-16`. -/
inductive WireType
  | varint
  | sized
  deriving DecidableEq, Repr

/-- `WireType::value`, `steit/src/wire_fmt.rs:30-32` (discriminants of lines 14-15), widened to `u32` as in line 74. -/
def WireType.value : WireType → U32
  | .varint => 0#32
  | .sized => 2#32

/-- `WireType::from_value`, `steit/src/wire_fmt.rs:19-28`. -/
def WireType.fromValue (value : U32) : Except Err WireType :=
  if value = 0#32 then .ok .varint
  else if value = 2#32 then .ok .sized
  else .error .invalidData

/-- `WIRE_TYPE_BITS`, `steit/src/wire_fmt.rs:4`. -/
def wireTypeBits : Nat := 3

/-- `WIRE_TYPE_MASK`, `steit/src/wire_fmt.rs:7`. -/
def wireTypeMask : U32 := (1#32 <<< wireTypeBits) - 1#32

/-- `FIELD_NUMBER_MAX`, `steit/src/wire_fmt.rs:10`. -/
def fieldNumberMax : U32 := 0x1fffffff#32

/-- `validate_field_number`, `steit/src/wire_fmt.rs:51-63`. -/
def validateFieldNumber (fieldNumber : U32) : Except Err Unit :=
  if fieldNumberMax < fieldNumber then .error .invalidData else .ok ()

/-- `parse_tag`, `steit/src/wire_fmt.rs:65-70`. -/
def parseTag (value : U32) : Except Err (U32 × WireType) := do
  let wireType ← WireType.fromValue (value &&& wireTypeMask)
  let fieldNumber := value >>> wireTypeBits
  validateFieldNumber fieldNumber
  .ok (fieldNumber, wireType)

/-- `tag`, `steit/src/wire_fmt.rs:72-75`; `<<` binds tighter than `|` in Rust. -/
def mkTag (fieldNumber : U32) (wireType : WireType) : Except Err U32 := do
  validateFieldNumber fieldNumber
  .ok ((fieldNumber <<< wireTypeBits) ||| wireType.value)

/-- `Reader::read_tag`, `steit/src/de/reader.rs:38-41`. -/
def readTag (m : Mode) (bs : Bytes) : Except Err ((U32 × WireType) × Bytes) := do
  let (value, rest) ← getVarint m 32 bs
  let tag ← parseTag value
  .ok (tag, rest)

/-- `Reader::skip_field`, `steit/src/de/reader.rs:43-57`. A varint is skipped by reading a `u8`. A sized field reserves
its declared size first: `Vec::with_capacity` panics above `isize::MAX` (64-bit targets; running out of memory for
smaller sizes is not modelled); `take(size).read_to_end` then stops at the end of the input without an error. -/
def skipField (m : Mode) (wireType : WireType) (bs : Bytes) : Except Err Bytes :=
  match wireType with
  | .varint => do
    let (_, rest) ← getVarint m 8 bs
    .ok rest
  | .sized => do
    let (size, rest) ← getVarint m 64 bs
    if 2 ^ 63 ≤ size.toNat then .error .panic else .ok (rest.drop size.toNat)

end Steit
