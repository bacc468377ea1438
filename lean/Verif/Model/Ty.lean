import Verif.Model.Derive

/-!
# The types the library can handle

`Ty` describes a Rust type built from the library's implementations and from derived structs and enums; `Ty.El t` is the
Lean type of its values. A recursive Rust type (through `Box`, `Vec`, …) is covered through its finite unrollings, see
`Verif/Model/Recursive.lean`; C64 shows that they cannot be told apart.
-/

namespace Steit

mutual
/-- A type implementing `Serialize + Deserialize`.
(`steit/src/impls/*.rs`, `steit/src/types/**/*.rs`, `steit-derive/src/derive/struct.rs:67-82`, `steit-derive/src/derive/enum.rs:41-48`.) -/
inductive Ty
  /-- `u8`..`u64`, `steit/src/impls/varint.rs:71-74`. -/
  | uint (w : Width)
  /-- `i8`..`i64`, `steit/src/impls/varint.rs:126-129`. -/
  | sint (w : Width)
  /-- `bool`, `steit/src/impls/bool.rs`. -/
  | bool
  /-- `String`, `steit/src/impls/string.rs`. -/
  | string
  /-- `Bytes`, `steit/src/types/bytes.rs`. -/
  | bytes
  /-- `Vec<T>`, `steit/src/impls/vec.rs`. -/
  | vec (t : Ty)
  /-- `[T; n]`, `steit/src/impls/array.rs`. -/
  | array (n : Nat) (t : Ty)
  /-- tuples, `steit/src/impls/tuple.rs`. -/
  | tuple (ts : Tys)
  /-- `Option<T>`, `steit/src/impls/option.rs`. -/
  | option (t : Ty)
  /-- `Box<T>`, `steit/src/impls/box.rs`. -/
  | box (t : Ty)
  /-- `HashMap<K, V>`, `steit/src/impls/hash_map.rs`. -/
  | hashMap (k v : Ty)
  /-- `List<T>`, `steit/src/types/list.rs`. -/
  | list (t : Ty)
  /-- `Map<K, V>`, `steit/src/types/map/map.rs`. -/
  | map (k : KeyTy) (t : Ty)
  /-- a derived struct, `steit-derive/src/derive/struct.rs`. -/
  | struct (deriveState cached : Bool) (fs : Fields)
  /-- a derived enum, `steit-derive/src/derive/enum.rs`: its default variant (tag 0, `enum.rs:101`) and the others.
  The order of variants does not influence generated code. -/
  | enum (deriveState : Bool) (cached : Bool) (fs : Fields) (vs : Variants)

/-- The component types of a tuple. (`steit/src/impls/tuple.rs:14-56`.) -/
inductive Tys
  | nil
  | cons (t : Ty) (ts : Tys)

/-- The fields of a struct or of an enum variant: `#[steit(tag = …)]`, attributes and type.
(`steit-derive/src/derive/field.rs:17-26,186-191`.) -/
inductive Fields
  | nil
  | cons (tag : U32) (attrs : FieldAttrs) (t : Ty) (fs : Fields)

/-- Variants of an enum: tag, whether the variant has a size cache, fields.
(`steit-derive/src/derive/variant.rs:40-62`, `steit-derive/src/derive/enum.rs:41-48`.) -/
inductive Variants
  | nil
  | cons (tag : U32) (cached : Bool) (fs : Fields) (vs : Variants)
end

mutual
/-- Values of a type.
(`steit/src/impls/*.rs`, `steit/src/types/**/*.rs`, `steit-derive/src/derive/struct.rs:67-82`, `steit-derive/src/derive/enum.rs:41-48`.) -/
@[reducible] def Ty.El : Ty → Type
  | .uint w => BitVec w.bits
  | .sint w => BitVec w.bits
  | .bool => Bool
  | .string => Str
  | .bytes => Bytes
  | .vec t => List t.El
  | .array n t => ArrayV t.El n
  | .tuple ts => ts.El
  | .option t => Option t.El
  | .box t => t.El
  | .hashMap k v => List (k.El × v.El)
  | .list t => ListV t.El
  | .map _ t => MapV t.El
  | .struct _ _ fs => StructV fs.El
  | .enum _ _ fs vs => EnumV (fs.El ⊕ vs.El)

/-- Values of a tuple. (`steit/src/impls/tuple.rs:14-56`.) -/
@[reducible] def Tys.El : Tys → Type
  | .nil => Unit
  | .cons t ts => t.El × ts.El

/-- Values of all fields. (`steit-derive/src/derive/struct.rs:67-82`.) -/
@[reducible] def Fields.El : Fields → Type
  | .nil => Unit
  | .cons _ _ t fs => t.El × fs.El

/-- Values of one of the variants. (`steit-derive/src/derive/enum.rs:41-48`.) -/
@[reducible] def Variants.El : Variants → Type
  | .nil => Empty
  | .cons _ _ fs vs => fs.El ⊕ vs.El
end

/-- `HashMap == HashMap` (standard library) and `IndexMap == IndexMap` (indexmap): same number of entries, and every entry
of the first has an equal one under the same key in the second. (As used in `steit/src/types/map/map.rs:108-112` and by users.) -/
def entriesEq {κ ν : Type} (eqk : κ → κ → Bool) (eqv : ν → ν → Bool) (a b : List (κ × ν)) : Bool :=
  a.length == b.length && a.all (fun e =>
    match b.find? (fun e' => eqk e'.1 e.1) with
    | some e' => eqv e.2 e'.2
    | none => false)

/-- `Vec == Vec`. (As used in `steit/src/types/list.rs:20-25` and by users.) -/
def itemsEq {α : Type} (eq : α → α → Bool) : List α → List α → Bool
  | [], [] => true
  | x :: xs, y :: ys => eq x y && itemsEq eq xs ys
  | _, _ => false

/-- `Option == Option`. (For fields of type `steit/src/impls/option.rs:11-49`, compared in `steit-derive/src/derive/field.rs:340-353`.) -/
def optionEq {α : Type} (eq : α → α → Bool) : Option α → Option α → Bool
  | none, none => true
  | some x, some y => eq x y
  | _, _ => false

mutual
/-- `PartialEq::eq`: the standard library's for primitives and containers (trusted), derived for `List`
(`steit/src/types/list.rs:20`; `SizeCache` and `Runtime` compare equal always, `size_cache.rs:62-66`,
`runtime.rs:150-154`), `Map` by entries (`map.rs:108-112`), generated for structs and enums. -/
def Ty.eq : (t : Ty) → t.El → t.El → Bool
  | .uint _, a, b => decide (a = b)
  | .sint _, a, b => decide (a = b)
  | .bool, a, b => decide (a = b)
  | .string, a, b => decide (a.bytes = b.bytes)
  | .bytes, a, b => decide (a = b)
  | .vec t, a, b => itemsEq t.eq a b
  | .array _ t, a, b => itemsEq t.eq a.1 b.1
  | .tuple ts, a, b => ts.eq a b
  | .option t, a, b => optionEq t.eq a b
  | .box t, a, b => t.eq a b
  | .hashMap k v, a, b => entriesEq k.eq v.eq a b
  | .list t, a, b => itemsEq t.eq a.items b.items
  | .map _ t, a, b => entriesEq (fun x y => decide (x = y)) t.eq a.entries b.entries
  | .struct _ _ fs, a, b => fs.eq a.fields b.fields
  | .enum _ _ fs vs, a, b =>
    match a.val, b.val with
    | .inl x, .inl y => fs.eq x y
    | .inr x, .inr y => vs.eq x y
    | _, _ => false

/-- Tuples compare component-wise. (Of the standard library; for fields of type `steit/src/impls/tuple.rs:14-56`.) -/
def Tys.eq : (ts : Tys) → ts.El → ts.El → Bool
  | .nil, _, _ => true
  | .cons t ts, a, b => t.eq a.1 b.1 && ts.eq a.2 b.2

/-- Generated field comparisons, `struct.rs:240-248` with `field.rs:340-353`: `no_eq_hash` fields are skipped. -/
def Fields.eq : (fs : Fields) → fs.El → fs.El → Bool
  | .nil, _, _ => true
  | .cons _ attrs t fs, a, b => (attrs.noEqHash || t.eq a.1 b.1) && fs.eq a.2 b.2

/-- Generated variant comparison, `enum.rs:129-159`. -/
def Variants.eq : (vs : Variants) → vs.El → vs.El → Bool
  | .nil, a, _ => nomatch a
  | .cons _ _ fs vs, a, b =>
    match a, b with
    | .inl x, .inl y => fs.eq x y
    | .inr x, .inr y => vs.eq x y
    | _, _ => false
end

mutual
/-- The implementation of the traits for a type.
(`steit/src/impls/*.rs`, `steit/src/types/**/*.rs`, `steit-derive/src/derive/struct.rs:186-476`, `steit-derive/src/derive/enum.rs:92-453`.) -/
def Ty.dict : (t : Ty) → Dict t.El
  | .uint w => uintDict w
  | .sint w => sintDict w
  | .bool => boolDict
  | .string => stringDict
  | .bytes => bytesDict
  | .vec t => vecDict t.dict
  | .array n t => arrayDict n t.dict
  | .tuple ts => tupleDict ts.dict
  | .option t => optionDict t.dict
  | .box t => boxDict t.dict
  | .hashMap k v => hashMapDict k.eq k.dict v.dict
  | .list t => listDict t.dict
  | .map k t => mapDict k t.dict
  | .struct deriveState cached fs => structDict deriveState cached (fs.dict deriveState)
  | .enum deriveState cached fs vs =>
    enumDict deriveState (variantsCons 0#32 cached (fs.dict deriveState) (vs.dict deriveState))
      (fun rt => .inl ((fs.dict deriveState).init rt))

/-- The component implementations of a tuple. (`steit/src/impls/tuple.rs:14-56`.) -/
def Tys.dict : (ts : Tys) → TupleD ts.El
  | .nil => tupleNil
  | .cons t ts => tupleCons t.dict ts.dict

/-- The generated field code of a struct or variant. (`steit-derive/src/derive/field.rs:238-245,340-401`.) -/
def Fields.dict : (fs : Fields) → (deriveState : Bool) → FieldsD fs.El
  | .nil, _ => fieldsNil
  | .cons tag attrs t fs, deriveState => fieldsCons deriveState tag attrs t.dict (fs.dict deriveState)

/-- The generated variant code of an enum. (`steit-derive/src/derive/enum.rs:92-453`.) -/
def Variants.dict : (vs : Variants) → (deriveState : Bool) → VariantsD vs.El
  | .nil, _ => variantsNil
  | .cons tag cached fs vs, deriveState => variantsCons tag cached (fs.dict deriveState) (vs.dict deriveState)
end

/-- Does the type implement `State`? `steit/src/impls/macros.rs:39-92` (integers, bools), `box.rs:37`, `list.rs:192`,
`map.rs:204`, and messages deriving it. -/
def Ty.isState : Ty → Bool
  | .uint _ => true
  | .sint _ => true
  | .bool => true
  | .box t => t.isState
  | .list _ => true
  | .map _ _ => true
  | .struct deriveState _ _ => deriveState
  | .enum deriveState _ _ _ => deriveState
  | _ => false

/-- Tags of the fields, in order. (Checked in `steit-derive/src/derive/struct.rs:561-596`.) -/
def Fields.tags : Fields → List U32
  | .nil => []
  | .cons tag _ _ fs => tag :: fs.tags

/-- Tags of the variants, in order. (Checked in `steit-derive/src/derive/enum.rs:516-575`.) -/
def Variants.tags : Variants → List U32
  | .nil => []
  | .cons tag _ _ vs => tag :: vs.tags

/-- Number of components of a tuple. (`steit/src/impls/tuple.rs:14-56`.) -/
def Tys.length : Tys → Nat
  | .nil => 0
  | .cons _ ts => ts.length + 1

mutual
/-- Types for which the Rust code exists and compiles: array lengths 1..7 (`array.rs:76-82`), tuples of 2..7
(`tuple.rs:51-56`), `List`/`Map` items and non-`no_state` fields of state messages implement `State`; tags distinct and
at most 2^29 - 1 as the derive macros check (`steit-derive/src/derive/tag.rs`, `struct.rs:561-596`, `enum.rs:516-575`). -/
def Ty.WF : Ty → Prop
  | .vec t => t.WF
  | .array n t => 1 ≤ n ∧ n ≤ 7 ∧ t.WF
  | .tuple ts => 2 ≤ ts.length ∧ ts.length ≤ 7 ∧ ts.WF
  | .option t => t.WF
  | .box t => t.WF
  | .hashMap k v => k.WF ∧ v.WF
  | .list t => t.isState = true ∧ t.WF
  | .map _ t => t.isState = true ∧ t.WF
  | .struct deriveState _ fs => fs.tags.Nodup ∧ fs.WF deriveState
  | .enum deriveState _ fs vs =>
    fs.tags.Nodup ∧ fs.WF deriveState ∧ vs.tags.Nodup ∧ 0#32 ∉ vs.tags ∧ vs.WF deriveState
  | _ => True

/-- All components are well formed. (`steit/src/impls/tuple.rs:14-56`.) -/
def Tys.WF : Tys → Prop
  | .nil => True
  | .cons t ts => t.WF ∧ ts.WF

/-- All fields are well formed. (Checked in `steit-derive/src/derive/struct.rs:561-596`.) -/
def Fields.WF : Fields → (deriveState : Bool) → Prop
  | .nil, _ => True
  | .cons tag attrs t fs, deriveState =>
    tag ≤ 0x1fffffff#32 ∧ ((deriveState && !attrs.noState) = true → t.isState = true) ∧ t.WF ∧ fs.WF deriveState

/-- All variants are well formed. (Checked in `steit-derive/src/derive/enum.rs:516-575`.) -/
def Variants.WF : Variants → (deriveState : Bool) → Prop
  | .nil, _ => True
  | .cons tag _ fs vs, deriveState =>
    tag ≤ 0x1fffffff#32 ∧ fs.tags.Nodup ∧ fs.WF deriveState ∧ vs.WF deriveState
end

end Steit
