import Verif.Model.Ty

/-!
# Hashing values

`Hash` is derived for `Bytes` and `List` (`steit/src/types/bytes.rs:16`, `steit/src/types/list.rs:20`) and generated for structs
and enums (`steit-derive/src/derive/struct.rs:283-300`, `enum.rs:181-208`, `field.rs:355-362`). `Map` and the standard
library's `HashMap` do not implement it.
-/

namespace Steit

/-- A call of a method of `std::hash::Hasher`.
(Called in `steit-derive/src/derive/field.rs:355-362`, `steit-derive/src/derive/enum.rs:181-208`.) -/
inductive HashTok
  /-- `write_u8`..`write_u64` (and `write_i8`.. which forward to them). -/
  | num (w : Width) (x : BitVec w.bits)
  /-- `write_usize`/`write_length_prefix`, the number of items of a slice. -/
  | len (n : Nat)
  /-- `write_isize`, the discriminant of an `Option`. -/
  | discr (n : Nat)
  /-- `write`. -/
  | raw (bs : Bytes)

mutual
/-- Does the type implement `Hash`? Fields excluded from hashing may have any type.
(`steit-derive/src/derive/struct.rs:283-300`, `steit-derive/src/derive/enum.rs:181-208`, `steit/src/types/list.rs:20`, `steit/src/impls/box.rs:13`.) -/
def Ty.hashable : Ty → Bool
  | .vec t => t.hashable
  | .array _ t => t.hashable
  | .tuple ts => ts.hashable
  | .option t => t.hashable
  | .box t => t.hashable
  | .hashMap _ _ => false
  | .list t => t.hashable
  | .map _ _ => false
  | .struct _ _ fs => fs.hashable
  | .enum _ _ fs vs => fs.hashable && vs.hashable
  | _ => true

/-- All components implement it. (`Hash` of tuples is of the standard library; the types are those of `steit/src/impls/tuple.rs:14-49`.) -/
def Tys.hashable : Tys → Bool
  | .nil => true
  | .cons t ts => t.hashable && ts.hashable

/-- All fields that are hashed implement it. (`steit-derive/src/derive/field.rs:355-362`, `steit-derive/src/derive/struct.rs:283-300`.) -/
def Fields.hashable : Fields → Bool
  | .nil => true
  | .cons _ attrs t fs => (attrs.noHash || attrs.noEqHash || t.hashable) && fs.hashable

/-- All variants can be hashed. (`steit-derive/src/derive/enum.rs:181-208`.) -/
def Variants.hashable : Variants → Bool
  | .nil => true
  | .cons _ _ fs vs => fs.hashable && vs.hashable
end

/-- Items one after the other.
(`steit-derive/src/derive/struct.rs:283-300`, `steit-derive/src/derive/enum.rs:181-208`, `steit/src/types/list.rs:20`, `steit/src/impls/box.rs:13`.) -/
def hashItems {α : Type} (hash : α → List HashTok) : List α → List HashTok
  | [] => []
  | x :: xs => hash x ++ hashItems hash xs

mutual
/-- `Hash::hash`: the calls made to the hasher, in order. Primitives, strings, slices, tuples and options are the standard
library's (trusted). Simplification: it feeds slices of integers in one `write`; here their items are fed one by one.
Types without `Hash` get an arbitrary value (`[]`). `Runtime` and `SizeCache` feed nothing (`runtime.rs:164-166`,
`size_cache.rs:70-72`). -/
def Ty.hash : (t : Ty) → t.El → List HashTok
  | .uint w, v => [.num w v]
  | .sint w, v => [.num w v]
  | .bool, v => [.num .w8 (if v then 1#8 else 0#8)]
  | .string, v => [.raw v.bytes, .num .w8 0xff#8]
  | .bytes, v => [.len v.length, .raw v]
  | .vec t, v => .len v.length :: hashItems t.hash v
  | .array n t, v => .len n :: hashItems t.hash v.1
  | .tuple ts, v => ts.hash v
  | .option t, v =>
    match v with
    | none => [.discr 0]
    | some x => .discr 1 :: t.hash x
  | .box t, v => t.hash v
  | .hashMap _ _, _ => []
  | .list t, v => .len v.items.length :: hashItems t.hash v.items
  | .map _ _, _ => []
  | .struct _ _ fs, v => fs.hash v.fields
  | .enum _ _ fs vs, v =>
    match v.val with
    | .inl x => .num .w32 0#32 :: fs.hash x
    | .inr x => vs.hash x

/-- Tuples feed their components in order.
(`Hash` of tuples is of the standard library; the types are those of `steit/src/impls/tuple.rs:14-49`.) -/
def Tys.hash : (ts : Tys) → ts.El → List HashTok
  | .nil, _ => []
  | .cons t ts, v => t.hash v.1 ++ ts.hash v.2

/-- Generated: fields in order, without `no_hash` and `no_eq_hash` ones, `struct.rs:283-287` with `field.rs:355-362`. -/
def Fields.hash : (fs : Fields) → fs.El → List HashTok
  | .nil, _ => []
  | .cons _ attrs t fs, v => (if !attrs.noHash && !attrs.noEqHash then t.hash v.1 else []) ++ fs.hash v.2

/-- Generated: the variant's tag, then its fields, `enum.rs:181-208`. -/
def Variants.hash : (vs : Variants) → vs.El → List HashTok
  | .nil, v => nomatch v
  | .cons tag _ fs vs, v =>
    match v with
    | .inl x => .num .w32 tag :: fs.hash x
    | .inr x => vs.hash x
end

end Steit
