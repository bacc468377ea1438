import Verif.Model.FieldMeta

/-!
# Declarations as written

The derive macro makes two things of one declaration: the code that serializes, logs and replays (C47: the type `Output.ty` of the model of
values), and the metadata the C# generator reads (`Declarations`, C49 and C67 to C69). Here a program is given as it is written, with the
attributes of its messages, variants and fields, and both are computed from it.
-/

namespace Steit.Gen

open Steit.Derive (RawAttr Nested ParsedAttrs parseAttrs parseRaw)

variable {D : Type}

/-- A string attribute (`steit-derive/src/attr.rs:96-102`). -/
def _root_.Steit.Derive.ParsedAttrs.str? (p : ParsedAttrs) (name : String) : Option String :=
  match p.values.find? fun e => e.1 == name with
  | some (_, .str s) => some s
  | _ => none

/-- A field: attributes, name (`f0`, `f1`, … if it has none, `steit-derive/src/derive/field.rs:137-151`), and type. -/
structure SrcField (D : Type) where
  attrs : List RawAttr
  name : String
  ty : Written D

/-- A variant of an enum. (`steit-derive/src/derive/variant.rs:40-62`.) -/
structure SrcVariant (D : Type) where
  attrs : List RawAttr
  name : String
  fields : List (SrcField D)

/-- What is declared. Unions, which the macro rejects, are left out. (`steit-derive/src/derive/derive.rs:174-201`.) -/
inductive SrcBody (D : Type)
  | struct (fields : List (SrcField D))
  | enum (variants : List (SrcVariant D))

/-- A declaration: `#[steit_derive(args)]`, other attributes, name, type parameters. There are no constant parameters, which the macro
rejects; lifetimes are left out. (`steit-derive/src/lib.rs:14-18`, `steit-derive/src/derive/derive.rs:167-201`.) -/
structure Src (D : Type) where
  args : List Nested
  attrs : List RawAttr
  name : String
  params : List String
  body : SrcBody D

/-! ## Metadata -/

/-- `DeriveField::meta`, `steit-derive/src/derive/field.rs:403-424`, with the attributes of `FieldAttrs::parse` (`:29-77`). Without a tag
there is an error. -/
def SrcField.decl (f : SrcField D) : DeclField D :=
  let p := parseRaw Derive.fieldTable true f.attrs
  ⟨⟨f.name, p.str? "csharp_name"⟩, (p.int? "tag").getD 0#32, f.ty⟩

/-- `Struct::meta` for a variant, `steit-derive/src/derive/struct.rs:478-514`, with the tag (`enum.rs:465-477`): attributes go through
`VariantAttrs::parse` (`variant.rs:17-37`), what is left of them through `StructAttrs::parse` (`struct.rs:29-62`). -/
def SrcVariant.decl (v : SrcVariant D) : DeclVariant D :=
  let p := parseRaw Derive.variantTable false v.attrs
  ⟨⟨v.name, (parseAttrs Derive.structTable true p.unknown []).str? "csharp_name"⟩, (p.int? "tag").getD 0#32, v.fields.map (·.decl)⟩

/-- `HasMeta::NAME`, `steit-derive/src/derive/struct.rs:525-545`, `enum.rs:455-461,490-494`: attributes go through `DeriveSetting::parse`
(`derive.rs:77-110`), what is left of them through `StructAttrs::parse` or `EnumAttrs::parse` (`enum.rs:24-39`). -/
def Src.nameMeta (s : Src D) : NameMeta :=
  let rest := (parseRaw Derive.settingTable false s.attrs).unknown
  match s.body with
  | .struct _ => ⟨s.name, (parseAttrs Derive.structTable true rest []).str? "csharp_name"⟩
  | .enum _ => ⟨s.name, (parseAttrs Derive.enumTable true rest []).str? "csharp_name"⟩

/-- The declarations the generator works with. (`steit-derive/src/derive/struct.rs:478-559`, `steit-derive/src/derive/enum.rs:455-514`.) -/
def declared (P : D → Src D) : Declarations D where
  name d := (P d).nameMeta
  params d := (P d).params
  body d := match (P d).body with
    | .struct fields => .struct (fields.map (·.decl))
    | .enum variants => .enum (variants.map (·.decl))
  builtin d := (parseRaw Derive.settingTable false (P d).attrs).flag "steit_owned"

/-! ## Types -/

/-- Whether the type of a field is a type parameter, maybe in parentheses, `steit-derive/src/derive/field.rs:460-463,482-490`. -/
def Written.isTypeParam : Written D → Bool
  | .param _ => true
  | .paren w => w.isTypeParam
  | _ => false

/-- The primitive type of a name, `steit/src/impls/varint.rs:71-74,126-129`, `bool.rs:41`, `string.rs:32`. Other names do not occur. -/
def primTy : String → Ty
  | "u8" => .uint .w8
  | "u16" => .uint .w16
  | "u32" => .uint .w32
  | "u64" => .uint .w64
  | "i8" => .sint .w8
  | "i16" => .sint .w16
  | "i32" => .sint .w32
  | "i64" => .sint .w64
  | "bool" => .bool
  | "String" => .string
  | _ => .bytes

/-- The type of keys of a name, `steit/src/types/map/key.rs:33-35`. Other names do not occur. -/
def keyTy : String → KeyTy
  | "u8" => .u8
  | "u16" => .u16
  | _ => .u32

/-- The type of the model of values, given those of messages.
(The types of `steit-derive/src/derive/field.rs:427-538`, implemented in `steit/src/impls` and `steit/src/types`.) -/
def RTy.ty {M : Type} (f : M → Ty) : RTy M → Ty
  | .prim rust _ _ => primTy rust
  | .bytes => .bytes
  | .vec t => .vec (t.ty f)
  | .array n t => .array n (t.ty f)
  | .option t => .option (t.ty f)
  | .box t => .box (t.ty f)
  | .list t => .list (t.ty f)
  | .map key t => .map (keyTy key) (t.ty f)
  | .msg m => f m

/-- A field as the macro sees it, given the meaning of types. (`steit-derive/src/derive/field.rs:28-93,202-224`.) -/
def SrcField.input (ty : Written D → Ty) (f : SrcField D) : Derive.FieldDecl := ⟨f.attrs, f.ty.syn, ty f.ty, f.ty.isTypeParam⟩

/-- What the macro gets. (`steit-derive/src/lib.rs:14-18`.) -/
def Src.input (s : Src D) (ty : Written D → Ty) : Derive.Input where
  args := s.args
  attrs := s.attrs
  constGenerics := 0
  data := match s.body with
    | .struct fields => .struct (fields.map (·.input ty))
    | .enum variants => .enum (variants.map fun v => ⟨v.attrs, v.fields.map (·.input ty)⟩)

/-- Is `State` derived? `steit-derive/src/derive/derive.rs:48-75`. -/
def Src.derivesState (s : Src D) : Bool := (parseAttrs Derive.argTable false s.args []).flag "State"

/-- A message without fields, of the same kind: where unrolling stops, or if there are errors.
(Nothing in the code: `Box` (`steit/src/impls/box.rs:13-59`) has no such end.) -/
def Src.stub (s : Src D) : Ty :=
  match s.body with
  | .struct _ => .struct s.derivesState false .nil
  | .enum _ => .enum s.derivesState false .nil .nil

/-- The type of a message of the model of values: what the macro makes of its declaration (`Derive.derive`), for the given type arguments. Types are
trees in that model, so that messages are unrolled a number of times (see `Model/Recursive.lean`, C64).
(`steit-derive/src/derive/derive.rs:167-216`.) -/
def unrolled (P : D → Src D) : Nat → Inst D → Ty
  | 0, .mk d _ => (P d).stub
  | n + 1, .mk d args =>
    match (Derive.derive ((P d).input fun w => (w.resolve (bindParams (P d).params args)).ty (unrolled P n))).2 with
    | some out => out.ty (P d).derivesState
    | none => (P d).stub

end Steit.Gen
