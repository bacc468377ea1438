import Verif.Model.CSharpGen
import Verif.Model.DeriveParse

/-!
# From declarations to metadata

`field_type_meta` (`steit-derive/src/derive/field.rs:427-538`) turns field types, as written, into metadata; `meta` and `impl_meta` of
structs and enums put it together. Here declarations are given with the types of their fields as written, names resolved: what a path
stands for is what the Rust compiler would find.
-/

namespace Steit.Gen

mutual
/-- Field types as written, in the forms `field_type_meta` accepts (`SynTy.supported` of C47 says which those are). `D` stands for the
declared messages, generic or not. Lifetimes are left out (`field_type_meta` skips them). (`steit-derive/src/derive/field.rs:427-538`.) -/
inductive Written (D : Type)
  /-- a type parameter of the message -/
  | param (p : String)
  | prim (rust csharp : String) (wire : WireType)
  | bytes
  /-- `(T)`, `&'a T`, `&'a mut T` -/
  | paren (t : Written D)
  | array (len : Nat) (t : Written D)
  | vec (t : Written D)
  | option (t : Written D)
  | box (t : Written D)
  | list (t : Written D)
  /-- `Map<K, T>`, where `K` is a primitive type (`steit/src/types/map/key.rs`) -/
  | map (rust csharp : String) (wire : WireType) (t : Written D)
  | msg (d : D) (args : WrittenArgs D)
  /-- an alias without arguments, for a type without parameters -/
  | alias (t : Written D)

/-- Type arguments as written. (`steit-derive/src/derive/field.rs:427-538`.) -/
inductive WrittenArgs (D : Type)
  | nil
  | cons (t : Written D) (ts : WrittenArgs D)
end

/-- Messages with type arguments: what Rust instantiates.
(`impl HasMeta` with type parameters, `steit-derive/src/derive/struct.rs:525-559`, `steit-derive/src/derive/enum.rs:455-514`.) -/
inductive Inst (D : Type)
  | mk (d : D) (args : List (RTy (Inst D)))

/-- A field of a declaration: `FieldMeta`'s name and tag, and its type.
(`steit/src/meta/msg.rs:61-65`, `steit-derive/src/derive/field.rs:403-424`.) -/
structure DeclField (D : Type) where
  name : NameMeta
  tag : U32
  ty : Written D

/-- A variant. (`steit/src/meta/msg.rs:49-58`.) -/
structure DeclVariant (D : Type) where
  name : NameMeta
  tag : U32
  fields : List (DeclField D)

/-- A struct or an enum. (`steit/src/meta/msg.rs:4-46`.) -/
inductive Body (D : Type)
  | struct (fields : List (DeclField D))
  | enum (variants : List (DeclVariant D))

/-- All declarations of a program.
(`impl HasMeta` with type parameters, `steit-derive/src/derive/struct.rs:525-559`, `steit-derive/src/derive/enum.rs:455-514`.) -/
structure Declarations (D : Type) where
  name : D → NameMeta
  params : D → List String
  body : D → Body D
  builtin : D → Bool

variable {D : Type}

/-- The fields of a struct, or of all variants of an enum, in order. (`steit/src/meta/msg.rs:4-46`.) -/
def Body.fields : Body D → List (DeclField D)
  | .struct fields => fields
  | .enum variants => variants.flatMap (·.fields)

/-! ## What types mean -/

mutual
/-- The type that is meant, with types for the parameters. (`steit-derive/src/derive/field.rs:427-538`.) -/
def Written.resolve (ρ : String → RTy (Inst D)) : Written D → RTy (Inst D)
  | .param p => ρ p
  | .prim rust csharp wire => .prim rust csharp wire
  | .bytes => .bytes
  | .paren t => t.resolve ρ
  | .array len t => .array len (t.resolve ρ)
  | .vec t => .vec (t.resolve ρ)
  | .option t => .option (t.resolve ρ)
  | .box t => .box (t.resolve ρ)
  | .list t => .list (t.resolve ρ)
  | .map rust _ _ t => .map rust (t.resolve ρ)
  | .msg d args => .msg (.mk d (args.resolve ρ))
  | .alias t => t.resolve ρ

/-- See `Written.resolve`. (`steit-derive/src/derive/field.rs:427-538`.) -/
def WrittenArgs.resolve (ρ : String → RTy (Inst D)) : WrittenArgs D → List (RTy (Inst D))
  | .nil => []
  | .cons t ts => t.resolve ρ :: ts.resolve ρ
end

/-- The parameters of a message stand for its arguments.
(`impl HasMeta` with type parameters, `steit-derive/src/derive/struct.rs:525-559`, `steit-derive/src/derive/enum.rs:455-514`.) -/
def bindParams : List String → List (RTy (Inst D)) → String → RTy (Inst D)
  | p :: ps, t :: ts, q => if q = p then t else bindParams ps ts q
  | _, _, _ => .bytes

/-! ## Metadata -/

mutual
/-- `T::TYPE` for a type without parameters (see `RTy.type`).
(`steit/src/meta/meta.rs:11`, `steit-derive/src/derive/struct.rs:549`, `steit-derive/src/derive/enum.rs:499`.) -/
def Written.typeMeta (name : D → NameMeta) : Written D → TypeMeta
  | .param p => .ref ⟨p, none⟩ .nil
  | .prim rust csharp wire => .primitive ⟨rust, some csharp⟩ wire
  | .bytes => .ref ⟨"Bytes", none⟩ .nil
  | .paren t => t.typeMeta name
  | .array _ t => .ref ⟨"Vec", some "Vector"⟩ (.cons (.type (t.typeMeta name)) .nil)
  | .vec t => .ref ⟨"Vec", some "Vector"⟩ (.cons (.type (t.typeMeta name)) .nil)
  | .option t => .ref ⟨"Option", some "Option"⟩ (.cons (.type (t.typeMeta name)) .nil)
  | .box t => t.typeMeta name
  | .list t => .ref ⟨"List", some "StateList"⟩ (.cons (.type (t.typeMeta name)) .nil)
  | .map _ _ _ t => .ref ⟨"Map", some "StateMap"⟩ (.cons (.type (t.typeMeta name)) .nil)
  | .msg d args => .ref (name d) (args.typeMetas name)
  | .alias t => t.typeMeta name

/-- See `Written.typeMeta`.
(`steit/src/meta/meta.rs:11`, `steit-derive/src/derive/struct.rs:549`, `steit-derive/src/derive/enum.rs:499`.) -/
def WrittenArgs.typeMetas (name : D → NameMeta) : WrittenArgs D → TypeArgs
  | .nil => .nil
  | .cons t ts => .cons (.type (t.typeMeta name)) (ts.typeMetas name)
end

mutual
/-- `field_type_meta`, `steit-derive/src/derive/field.rs:427-538`: parameters by name (lines 482-490), paths without arguments by their
`TYPE` (line 493), arrays and paths with arguments by the `NAME` of the type and the metadata of the arguments (lines 466-475,
496-527); the names are those of `RTy.type`, and `Box` (`steit/src/impls/box.rs:62-65`). -/
def fieldTypeMeta (name : D → NameMeta) : Written D → FieldTypeMeta
  | .param p => .typeParam p
  | .prim rust csharp wire => .type (.primitive ⟨rust, some csharp⟩ wire)
  | .bytes => .type (.ref ⟨"Bytes", none⟩ .nil)
  | .paren t => fieldTypeMeta name t
  | .array _ t => .type (.ref ⟨"Vec", some "Vector"⟩ (.cons (fieldTypeMeta name t) .nil))
  | .vec t => .type (.ref ⟨"Vec", some "Vector"⟩ (.cons (fieldTypeMeta name t) .nil))
  | .option t => .type (.ref ⟨"Option", some "Option"⟩ (.cons (fieldTypeMeta name t) .nil))
  | .box t => .type (.ref ⟨"Box", some "Box"⟩ (.cons (fieldTypeMeta name t) .nil))
  | .list t => .type (.ref ⟨"List", some "StateList"⟩ (.cons (fieldTypeMeta name t) .nil))
  | .map rust csharp wire t =>
    .type (.ref ⟨"Map", some "StateMap"⟩ (.cons (.type (.primitive ⟨rust, some csharp⟩ wire)) (.cons (fieldTypeMeta name t) .nil)))
  | .msg d args => .type (.ref (name d) (fieldTypeMetas name args))
  | .alias t => .type (t.typeMeta name)

/-- The loop over type arguments, `steit-derive/src/derive/field.rs:497-522`. -/
def fieldTypeMetas (name : D → NameMeta) : WrittenArgs D → TypeArgs
  | .nil => .nil
  | .cons t ts => .cons (fieldTypeMeta name t) (fieldTypeMetas name ts)
end

/-- `DeriveField::meta`, `steit-derive/src/derive/field.rs:403-424`. -/
def DeclField.fieldMeta (name : D → NameMeta) (f : DeclField D) : FieldMeta := ⟨f.name, fieldTypeMeta name f.ty, f.tag⟩

/-- `Struct::meta`, `steit-derive/src/derive/struct.rs:478-514`, and `Enum::impl_meta`, `steit-derive/src/derive/enum.rs:455-510`.
Variants have no type parameters of their own. -/
def Declarations.message (S : Declarations D) (d : D) : MessageMeta :=
  match S.body d with
  | .struct fields => .struct ⟨S.name d, S.params d, fields.map (·.fieldMeta S.name), S.builtin d⟩
  | .enum variants =>
    .enum ⟨S.name d, S.params d, variants.map fun v => ⟨⟨v.name, [], v.fields.map (·.fieldMeta S.name), S.builtin d⟩, v.tag⟩, S.builtin d⟩

mutual
/-- `T::TYPE`, as `RTy.type`, for a message with its arguments.
(`steit/src/meta/meta.rs:11`, `steit-derive/src/derive/struct.rs:549`, `steit-derive/src/derive/enum.rs:499`.) -/
def Inst.typeMeta (name : D → NameMeta) : Inst D → TypeMeta
  | .mk d args => .ref (name d) (.ofList (instTypes name args))

/-- See `Inst.typeMeta`. (`steit/src/meta/meta.rs:11`, `steit-derive/src/derive/struct.rs:549`, `steit-derive/src/derive/enum.rs:499`.) -/
def instType (name : D → NameMeta) : RTy (Inst D) → TypeMeta
  | .prim rust csharp wire => .primitive ⟨rust, some csharp⟩ wire
  | .bytes => .ref ⟨"Bytes", none⟩ .nil
  | .vec t => .ref ⟨"Vec", some "Vector"⟩ (.ofList [instType name t])
  | .array _ t => .ref ⟨"Vec", some "Vector"⟩ (.ofList [instType name t])
  | .option t => .ref ⟨"Option", some "Option"⟩ (.ofList [instType name t])
  | .box t => instType name t
  | .list t => .ref ⟨"List", some "StateList"⟩ (.ofList [instType name t])
  | .map _ t => .ref ⟨"Map", some "StateMap"⟩ (.ofList [instType name t])
  | .msg m => m.typeMeta name

/-- See `Inst.typeMeta`. (`steit/src/meta/meta.rs:11`, `steit-derive/src/derive/struct.rs:549`, `steit-derive/src/derive/enum.rs:499`.) -/
def instTypes (name : D → NameMeta) : List (RTy (Inst D)) → List TypeMeta
  | [] => []
  | t :: ts => instType name t :: instTypes name ts
end

/-- The message an instance is of.
(`impl HasMeta` with type parameters, `steit-derive/src/derive/struct.rs:525-559`, `steit-derive/src/derive/enum.rs:455-514`.) -/
def Inst.decl : Inst D → D
  | .mk d _ => d

/-- Its type arguments.
(`impl HasMeta` with type parameters, `steit-derive/src/derive/struct.rs:525-559`, `steit-derive/src/derive/enum.rs:455-514`.) -/
def Inst.args : Inst D → List (RTy (Inst D))
  | .mk _ args => args

/-- The program: `impl_meta`, `steit-derive/src/derive/struct.rs:525-557`, `enum.rs:455-512`; links are those of all fields. -/
def Declarations.program (S : Declarations D) : Program (Inst D) where
  name m := S.name m.decl
  args m := instTypes S.name m.args
  message m := S.message m.decl
  fields m := (S.body m.decl).fields.map fun f => f.ty.resolve (bindParams (S.params m.decl) m.args)

/-! ## The syntax C47 speaks of -/

mutual
/-- What the macro sees of a type as written. (`steit-derive/src/derive/field.rs:427-538`.) -/
def Written.syn : Written D → Derive.SynTy
  | .param _ => .path false .none
  | .prim _ _ _ => .path false .none
  | .bytes => .path false .none
  | .paren t => .paren t.syn
  | .array _ t => .array t.syn
  | .vec t => .path false (.angle (.type t.syn .nil))
  | .option t => .path false (.angle (.type t.syn .nil))
  | .box t => .path false (.angle (.type t.syn .nil))
  | .list t => .path false (.angle (.type t.syn .nil))
  | .map _ _ _ t => .path false (.angle (.type (.path false .none) (.type t.syn .nil)))
  | .msg _ .nil => .path false .none
  | .msg _ (.cons t ts) => .path false (.angle (.type t.syn ts.syn))
  | .alias _ => .path false .none

/-- See `Written.syn`. (`steit-derive/src/derive/field.rs:427-538`.) -/
def WrittenArgs.syn : WrittenArgs D → Derive.SynArgList
  | .nil => .nil
  | .cons t ts => .type t.syn ts.syn
end

end Steit.Gen
