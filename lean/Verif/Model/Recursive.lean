import Verif.Model.Ty

/-!
# Recursive declarations

A Rust program declares its messages by name, and a message may mention itself or be part of a cycle (`children: Vec<Node>`,
`Option<Box<Expr>>`, …). `Ty` is a tree, so it cannot say this directly. Here a program is a family of declarations `Nat → RTy`
whose bodies mention each other by number; unrolling them `n` times gives a `Ty`, with arbitrary other types where the unrolling stops.
`Verif/Props/Recursive.lean` shows that neither the number of times nor the types at which it stops can be told from what the code does.
-/

namespace Steit

mutual
/-- A type that may mention declared messages by number: the type constructors of `Ty` (`steit/src/impls`, `steit/src/types`,
`steit-derive/src/derive`) and `named`.
(Declarations as `steit-derive/src/derive/derive.rs:167-216` gets them, recursive through `steit/src/impls/box.rs:13-59`, `steit/src/impls/vec.rs:11-48`, `steit/src/impls/option.rs:11-49`, `steit/src/types/list.rs:21`, `steit/src/types/map/map.rs:22`.) -/
inductive RTy
  /-- a declared message, mentioned by its name -/
  | named (i : Nat)
  | uint (w : Width)
  | sint (w : Width)
  | bool
  | string
  | bytes
  | vec (t : RTy)
  | array (n : Nat) (t : RTy)
  | tuple (ts : RTys)
  | option (t : RTy)
  | box (t : RTy)
  | hashMap (k v : RTy)
  | list (t : RTy)
  | map (k : KeyTy) (t : RTy)
  | struct (deriveState cached : Bool) (fs : RFields)
  | enum (deriveState : Bool) (cached : Bool) (fs : RFields) (vs : RVariants)

/-- The component types of a tuple, `steit/src/impls/tuple.rs`. -/
inductive RTys
  | nil
  | cons (t : RTy) (ts : RTys)

/-- The fields of a struct or of an enum variant, `steit-derive/src/derive/field.rs`. -/
inductive RFields
  | nil
  | cons (tag : U32) (attrs : FieldAttrs) (t : RTy) (fs : RFields)

/-- Variants of an enum, `steit-derive/src/derive/enum.rs`. -/
inductive RVariants
  | nil
  | cons (tag : U32) (cached : Bool) (fs : RFields) (vs : RVariants)
end

mutual
/-- The type that results when `A i` stands for the message `i`.
(Meaning of declarations as `steit-derive/src/derive/derive.rs:167-216` gets them, recursive through `steit/src/impls/box.rs:13-59`, `steit/src/impls/vec.rs:11-48`, `steit/src/impls/option.rs:11-49`, `steit/src/types/list.rs:21`, `steit/src/types/map/map.rs:22`.) -/
@[reducible] def RTy.fill (A : Nat → Ty) : RTy → Ty
  | .named i => A i
  | .uint w => .uint w
  | .sint w => .sint w
  | .bool => .bool
  | .string => .string
  | .bytes => .bytes
  | .vec t => .vec (t.fill A)
  | .array n t => .array n (t.fill A)
  | .tuple ts => .tuple (ts.fill A)
  | .option t => .option (t.fill A)
  | .box t => .box (t.fill A)
  | .hashMap k v => .hashMap (k.fill A) (v.fill A)
  | .list t => .list (t.fill A)
  | .map k t => .map k (t.fill A)
  | .struct deriveState cached fs => .struct deriveState cached (fs.fill A)
  | .enum deriveState cached fs vs => .enum deriveState cached (fs.fill A) (vs.fill A)

/-- The components of a tuple when `A i` stands for the message `i`.
(Meaning of declarations as `steit-derive/src/derive/derive.rs:167-216` gets them, recursive through `steit/src/impls/box.rs:13-59`, `steit/src/impls/vec.rs:11-48`, `steit/src/impls/option.rs:11-49`, `steit/src/types/list.rs:21`, `steit/src/types/map/map.rs:22`.) -/
@[reducible] def RTys.fill (A : Nat → Ty) : RTys → Tys
  | .nil => .nil
  | .cons t ts => .cons (t.fill A) (ts.fill A)

/-- The fields when `A i` stands for the message `i`.
(Meaning of declarations as `steit-derive/src/derive/derive.rs:167-216` gets them, recursive through `steit/src/impls/box.rs:13-59`, `steit/src/impls/vec.rs:11-48`, `steit/src/impls/option.rs:11-49`, `steit/src/types/list.rs:21`, `steit/src/types/map/map.rs:22`.) -/
@[reducible] def RFields.fill (A : Nat → Ty) : RFields → Fields
  | .nil => .nil
  | .cons tag attrs t fs => .cons tag attrs (t.fill A) (fs.fill A)

/-- The variants when `A i` stands for the message `i`.
(Meaning of declarations as `steit-derive/src/derive/derive.rs:167-216` gets them, recursive through `steit/src/impls/box.rs:13-59`, `steit/src/impls/vec.rs:11-48`, `steit/src/impls/option.rs:11-49`, `steit/src/types/list.rs:21`, `steit/src/types/map/map.rs:22`.) -/
@[reducible] def RVariants.fill (A : Nat → Ty) : RVariants → Variants
  | .nil => .nil
  | .cons tag cached fs vs => .cons tag cached (fs.fill A) (vs.fill A)
end

/-- The declared messages of a program, by number.
(Declarations as `steit-derive/src/derive/derive.rs:167-216` gets them, recursive through `steit/src/impls/box.rs:13-59`, `steit/src/impls/vec.rs:11-48`, `steit/src/impls/option.rs:11-49`, `steit/src/types/list.rs:21`, `steit/src/types/map/map.rs:22`.) -/
abbrev Decls := Nat → RTy

/-- The message `i` of the program `D` unrolled `n` times; where the unrolling stops, `S` stands for the messages.
(Meaning of declarations as `steit-derive/src/derive/derive.rs:167-216` gets them, recursive through `steit/src/impls/box.rs:13-59`, `steit/src/impls/vec.rs:11-48`, `steit/src/impls/option.rs:11-49`, `steit/src/types/list.rs:21`, `steit/src/types/map/map.rs:22`.) -/
def unroll (D : Decls) (S : Nat → Ty) : Nat → Nat → Ty
  | 0, i => S i
  | n + 1, i => (D i).fill (unroll D S n)

/-- Only messages are declared by name: structs and enums (`steit-derive/src/lib.rs`). -/
def RTy.isMessage : RTy → Bool
  | .struct _ _ _ => true
  | .enum _ _ _ _ => true
  | _ => false

mutual
/-- Building the default value of this type, `Default` or `State::with_runtime`, does not build the default value of a message
mentioned by name: such mentions are inside `Option`, `Vec`, `HashMap`, `List`, `Map` or a variant other than the default one
(`struct.rs:186-216`, `enum.rs:101-106`, `array.rs`, `tuple.rs`, `box.rs`). A program in which such a chain came back to where
it started would not terminate; chains that do not come back can be written out, so that this loses no program. -/
def RTy.guarded : RTy → Bool
  | .named _ => false
  | .array _ t => t.guarded
  | .tuple ts => ts.guarded
  | .box t => t.guarded
  | .struct _ _ fs => fs.guarded
  | .enum _ _ fs _ => fs.guarded
  | _ => true

/-- All components have a default value of their own.
(Default values, `steit-derive/src/derive/field.rs:238-245`, `steit-derive/src/derive/struct.rs:263-281`, `steit-derive/src/derive/enum.rs:161-179`.) -/
def RTys.guarded : RTys → Bool
  | .nil => true
  | .cons t ts => t.guarded && ts.guarded

/-- All fields have a default value of their own.
(Default values, `steit-derive/src/derive/field.rs:238-245`, `steit-derive/src/derive/struct.rs:263-281`, `steit-derive/src/derive/enum.rs:161-179`.) -/
def RFields.guarded : RFields → Bool
  | .nil => true
  | .cons _ _ t fs => t.guarded && fs.guarded
end

/-- Does the type implement `State`? As `Ty.isState`; messages mentioned by name implement it if they derive it.
(`steit-derive/src/derive/struct.rs:444-476`, `steit-derive/src/derive/enum.rs:344-453`.) -/
def RTy.isState (D : Decls) : RTy → Bool
  | .named i =>
    match D i with
    | .struct deriveState _ _ => deriveState
    | .enum deriveState _ _ _ => deriveState
    | _ => false
  | .uint _ => true
  | .sint _ => true
  | .bool => true
  | .box t => t.isState D
  | .list _ => true
  | .map _ _ => true
  | .struct deriveState _ _ => deriveState
  | .enum deriveState _ _ _ => deriveState
  | _ => false

/-- Tags of the fields, in order. (Checked in `steit-derive/src/derive/struct.rs:561-596`.) -/
def RFields.tags : RFields → List U32
  | .nil => []
  | .cons tag _ _ fs => tag :: fs.tags

/-- Tags of the variants, in order. (Checked in `steit-derive/src/derive/enum.rs:516-575`.) -/
def RVariants.tags : RVariants → List U32
  | .nil => []
  | .cons tag _ _ vs => tag :: vs.tags

/-- The length of a tuple. (`steit/src/impls/tuple.rs:14-56`.) -/
def RTys.length : RTys → Nat
  | .nil => 0
  | .cons _ ts => ts.length + 1

mutual
/-- Types for which the Rust code exists and compiles: the conditions of `Ty.WF` (`array.rs:76-82`, `tuple.rs:51-56`,
`steit-derive/src/derive/tag.rs`, `struct.rs:561-596`, `enum.rs:516-575`). A mention by name asks for nothing: the declaration
is checked by itself. -/
def RTy.WF (D : Decls) : RTy → Prop
  | .vec t => t.WF D
  | .array n t => 1 ≤ n ∧ n ≤ 7 ∧ t.WF D
  | .tuple ts => 2 ≤ ts.length ∧ ts.length ≤ 7 ∧ ts.WF D
  | .option t => t.WF D
  | .box t => t.WF D
  | .hashMap k v => k.WF D ∧ v.WF D
  | .list t => t.isState D = true ∧ t.WF D
  | .map _ t => t.isState D = true ∧ t.WF D
  | .struct deriveState _ fs => fs.tags.Nodup ∧ fs.WF D deriveState
  | .enum deriveState _ fs vs =>
    fs.tags.Nodup ∧ fs.WF D deriveState ∧ vs.tags.Nodup ∧ 0#32 ∉ vs.tags ∧ vs.WF D deriveState
  | _ => True

/-- All components are well formed. (`steit/src/impls/tuple.rs:14-56`.) -/
def RTys.WF (D : Decls) : RTys → Prop
  | .nil => True
  | .cons t ts => t.WF D ∧ ts.WF D

/-- All fields are well formed. (Checked in `steit-derive/src/derive/struct.rs:561-596`.) -/
def RFields.WF (D : Decls) : RFields → (deriveState : Bool) → Prop
  | .nil, _ => True
  | .cons tag attrs t fs, deriveState =>
    tag ≤ 0x1fffffff#32 ∧ ((deriveState && !attrs.noState) = true → t.isState D = true) ∧ t.WF D ∧ fs.WF D deriveState

/-- All variants are well formed. (Checked in `steit-derive/src/derive/enum.rs:516-575`.) -/
def RVariants.WF (D : Decls) : RVariants → (deriveState : Bool) → Prop
  | .nil, _ => True
  | .cons tag _ fs vs, deriveState =>
    tag ≤ 0x1fffffff#32 ∧ fs.tags.Nodup ∧ fs.WF D deriveState ∧ vs.WF D deriveState
end

/-- A program that compiles and whose default values can be built.
(Declarations as `steit-derive/src/derive/derive.rs:167-216` gets them, recursive through `steit/src/impls/box.rs:13-59`, `steit/src/impls/vec.rs:11-48`, `steit/src/impls/option.rs:11-49`, `steit/src/types/list.rs:21`, `steit/src/types/map/map.rs:22`.) -/
def Decls.WF (D : Decls) : Prop := ∀ i, (D i).isMessage = true ∧ (D i).guarded = true ∧ (D i).WF D

/-- What stands for a message where the unrolling stops: some well-formed message deriving `State` if the message does.
(Not in the code: stands for the part of a value of a recursive type (through `steit/src/impls/box.rs:13-59`) that is not there.) -/
def Stub (D : Decls) (S : Nat → Ty) : Prop := ∀ i, (S i).WF ∧ (S i).isState = (RTy.named i).isState D ∧ (S i).dict.wire = .sized

end Steit
