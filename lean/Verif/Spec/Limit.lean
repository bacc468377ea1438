import Verif.Spec.Encoding
import Verif.Spec.Relay

/-!
# Sizes of 32 bits

`encode32` is `Spec.encode` with sizes that are kept in 32 bits: what is written as the length of a nested value is its length modulo
2^32, and a field is left out if this is 0. Below 4 GiB the two are the same.
-/

namespace Steit.Spec

/-- A value nested in another one; see the head of the file. -/
def framed32 (wire : Nat) (payload : Bytes) : Bytes :=
  if wire = 0 then payload else leb (payload.length % 2 ^ 32) ++ payload

/-- Is the field left out? Strings ask whether they are empty, other length-prefixed values whether their size is 0. -/
def leftOut32 : (t : Ty) → t.El → (payload : Bytes) → Bool
  | .uint _, v, _ => v == 0
  | .sint _, v, _ => v == 0
  | .bool, v, _ => v == false
  | .string, _, payload => payload.isEmpty
  | _, _, payload => payload.length % 2 ^ 32 == 0

mutual
/-- See the head of the file. -/
def encode32 : (t : Ty) → t.El → Bytes
  | .uint _, v => leb v.toNat
  | .sint _, v => leb (zigzagNat v.toInt)
  | .bool, v => leb v.toNat
  | .string, v => v.bytes
  | .bytes, v => v
  | .vec t, v => v.flatMap (fun x => framed32 (wireOf t) (encode32 t x))
  | .array _ t, v => v.1.flatMap (fun x => framed32 (wireOf t) (encode32 t x))
  | .tuple ts, v => encode32Tuple ts v
  | .option t, v => v.toList.flatMap (fun x => framed32 (wireOf t) (encode32 t x))
  | .box t, v => encode32 t v
  | .hashMap k w, v => v.flatMap (fun e => framed32 (wireOf k) (encode32 k e.1) ++ framed32 (wireOf w) (encode32 w e.2))
  | .list t, v => v.items.flatMap (fun x => framed32 (wireOf t) (encode32 t x))
  | .map _ t, v => v.entries.flatMap (fun e => leb (e.1.toNat * 8 + wireOf t) ++ framed32 (wireOf t) (encode32 t e.2))
  | .struct _ _ fs, v => encode32Fields fs v.fields
  | .enum _ _ fs vs, v =>
    match v.val with
    | .inl x => leb 0 ++ encode32Fields fs x
    | .inr x => encode32Variant vs x

/-- Components. -/
def encode32Tuple : (ts : Tys) → ts.El → Bytes
  | .nil, _ => []
  | .cons t ts, v => framed32 (wireOf t) (encode32 t v.1) ++ encode32Tuple ts v.2

/-- Fields. -/
def encode32Fields : (fs : Fields) → fs.El → Bytes
  | .nil, _ => []
  | .cons tag _ t fs, v =>
    (if leftOut32 t v.1 (encode32 t v.1) then []
      else leb (tag.toNat * 8 + wireOf t) ++ framed32 (wireOf t) (encode32 t v.1))
    ++ encode32Fields fs v.2

/-- The current variant. -/
def encode32Variant : (vs : Variants) → vs.El → Bytes
  | .nil, v => nomatch v
  | .cons tag _ fs vs, v =>
    match v with
    | .inl x => leb tag.toNat ++ encode32Fields fs x
    | .inr x => encode32Variant vs x
end

/-- Size of a value of size `n` nested in another one. -/
def framedSize (wire n : Nat) : Nat := if wire = 0 then n else (leb n).length + n

/-- Is the field left out? As `leftOut32`, for a value of size `n`. -/
def leftOutSize : (t : Ty) → t.El → (n : Nat) → Bool
  | .uint _, v, _ => v == 0
  | .sint _, v, _ => v == 0
  | .bool, v, _ => v == false
  | .string, v, _ => v.bytes.isEmpty
  | _, _, n => n == 0

mutual
/-- The size of a value if only the sizes of strings and `Bytes` are cut to 32 bits (`len as u32`) and sums are not. -/
def summed : (t : Ty) → t.El → Nat
  | .uint _, v => (leb v.toNat).length
  | .sint _, v => (leb (zigzagNat v.toInt)).length
  | .bool, v => (leb v.toNat).length
  | .string, v => v.bytes.length % 2 ^ 32
  | .bytes, v => v.length % 2 ^ 32
  | .vec t, v => (v.map (fun x => framedSize (wireOf t) (summed t x))).sum
  | .array _ t, v => (v.1.map (fun x => framedSize (wireOf t) (summed t x))).sum
  | .tuple ts, v => summedTuple ts v
  | .option t, v => (v.toList.map (fun x => framedSize (wireOf t) (summed t x))).sum
  | .box t, v => summed t v
  | .hashMap k w, v =>
    (v.map (fun e => framedSize (wireOf k) (summed k e.1) + framedSize (wireOf w) (summed w e.2))).sum
  | .list t, v => (v.items.map (fun x => framedSize (wireOf t) (summed t x))).sum
  | .map _ t, v =>
    (v.entries.map (fun e => (leb (e.1.toNat * 8 + wireOf t)).length + framedSize (wireOf t) (summed t e.2))).sum
  | .struct _ _ fs, v => summedFields fs v.fields
  | .enum _ _ fs vs, v =>
    match v.val with
    | .inl x => (leb 0).length + summedFields fs x
    | .inr x => summedVariant vs x

/-- Components. -/
def summedTuple : (ts : Tys) → ts.El → Nat
  | .nil, _ => 0
  | .cons t ts, v => framedSize (wireOf t) (summed t v.1) + summedTuple ts v.2

/-- Fields. -/
def summedFields : (fs : Fields) → fs.El → Nat
  | .nil, _ => 0
  | .cons tag _ t fs, v =>
    (if leftOutSize t v.1 (summed t v.1) then 0
      else (leb (tag.toNat * 8 + wireOf t)).length + framedSize (wireOf t) (summed t v.1))
    + summedFields fs v.2

/-- The current variant. -/
def summedVariant : (vs : Variants) → vs.El → Nat
  | .nil, v => nomatch v
  | .cons tag _ fs vs, v =>
    match v with
    | .inl x => (leb tag.toNat).length + summedFields fs x
    | .inr x => summedVariant vs x
end

/-- The bytes of a string or of a `Bytes`; 0 for other values. -/
def chunk : (Σ s : Ty, s.El) → Nat
  | ⟨.string, v⟩ => v.bytes.length
  | ⟨.bytes, v⟩ => v.length
  | _ => 0

/-- No single string or `Bytes` inside the value, at any depth, has 4 GiB. -/
def Short (t : Ty) (v : t.El) : Prop := ∀ o ∈ objects t v, chunk o < 2 ^ 32

end Steit.Spec
