import Verif.Model.AsWritten
import Verif.Spec.Classes
import Verif.Spec.Declaration

/-!
# What a program as written says, and what the Rust compiler checks of it
-/

namespace Steit.Gen.Spec

open Steit.Derive (RawAttr)
open Steit.Derive.Spec (All₂ HasArg HasFlag HasTag items)

variable {D : Type}

/-! ## What metadata ought to say -/

/-- `csharp_name = "s"` is among the attributes. -/
def HasCsharpName (attrs : List RawAttr) (s : String) : Prop := .attr (.nameValue "csharp_name" (.str s)) ∈ items attrs

/-- The name in Rust, and the one for C# if there is one. -/
structure NameIs (attrs : List RawAttr) (rust : String) (m : NameMeta) : Prop where
  rust : m.rust = rust
  csharp : ∀ s, m.csharp = some s ↔ HasCsharpName attrs s

/-- Metadata of a field. -/
structure FieldSays (f : SrcField D) (g : DeclField D) : Prop where
  name : NameIs f.attrs f.name g.name
  tag : HasTag f.attrs g.tag
  ty : g.ty = f.ty

/-- Metadata of a variant. -/
structure VariantSays (v : SrcVariant D) (w : DeclVariant D) : Prop where
  name : NameIs v.attrs v.name w.name
  tag : HasTag v.attrs w.tag
  fields : All₂ FieldSays v.fields w.fields

/-- Metadata of fields and variants, in order. -/
inductive BodySays : SrcBody D → Body D → Prop
  | struct {fs gs} : All₂ FieldSays fs gs → BodySays (.struct fs) (.struct gs)
  | enum {vs ws} : All₂ VariantSays vs ws → BodySays (.enum vs) (.enum ws)

/-- Metadata of a declaration. -/
structure Says (s : Src D) (S : Declarations D) (d : D) : Prop where
  name : NameIs s.attrs s.name (S.name d)
  params : S.params d = s.params
  body : BodySays s.body (S.body d)
  builtin : S.builtin d = true ↔ HasFlag s.attrs "steit_owned"

/-! ## What the Rust compiler checks -/

/-- The fields of a struct, or of all variants. -/
def _root_.Steit.Gen.SrcBody.fields : SrcBody D → List (SrcField D)
  | .struct fields => fields
  | .enum variants => variants.flatMap (·.fields)

/-- The type implements `State`. -/
def IsState (P : D → Src D) : RTy (Inst D) → Prop
  | .prim rust _ _ => rust ≠ "String"
  | .box t => IsState P t
  | .list _ => True
  | .map _ _ => True
  | .msg m => HasArg (P m.decl).args "State"
  | _ => False

/-- The type exists: primitives are those of the library, arrays have 1 to 7 elements, items of `List` and `Map` are states, keys are
`u8`, `u16` or `u32`. -/
def Legal (P : D → Src D) : RTy (Inst D) → Prop
  | .prim r c w => ∃ t, primitiveMeta t = some (.primitive ⟨r, some c⟩ w)
  | .bytes => True
  | .vec t => Legal P t
  | .array n t => 1 ≤ n ∧ n ≤ 7 ∧ Legal P t
  | .option t => Legal P t
  | .box t => Legal P t
  | .list t => IsState P t ∧ Legal P t
  | .map key t => key ∈ ["u8", "u16", "u32"] ∧ IsState P t ∧ Legal P t
  | .msg _ => True

/-- A primitive type, maybe in boxes. -/
def Primitive : RTy (Inst D) → Prop
  | .prim _ _ _ => True
  | .box t => Primitive t
  | _ => False

/-- `String`, maybe in boxes. -/
def Textual : RTy (Inst D) → Prop
  | .prim r _ _ => r = "String"
  | .box t => Textual t
  | _ => False

/-- What the generator has a class for (C49, C68): a field with the type of a type parameter is no string, other fields are no boxes of
primitive types, and there is no box behind an alias. -/
def Works (w : Written D) (a : RTy (Inst D)) : Prop :=
  ¬ AliasedBox w ∧ if isParam w then ¬ Textual a else ∀ b, a = .box b → ¬ Primitive b

/-- The default value can be built: this comes to an end. `Vec`, `Option`, `List`, `Map` start empty, enums with the variant of tag 0. -/
inductive Builds (P : D → Src D) : RTy (Inst D) → Prop
  | prim {r c w} : Builds P (.prim r c w)
  | bytes : Builds P .bytes
  | vec {t} : Builds P (.vec t)
  | option {t} : Builds P (.option t)
  | list {t} : Builds P (.list t)
  | map {k t} : Builds P (.map k t)
  | array {n t} : Builds P t → Builds P (.array n t)
  | box {t} : Builds P t → Builds P (.box t)
  | struct {d args fields} : (P d).body = .struct fields →
    (∀ f ∈ fields, Builds P (f.ty.resolve (bindParams (P d).params args))) → Builds P (.msg (.mk d args))
  | enum {d args variants} : (P d).body = .enum variants →
    (∀ v ∈ variants, HasTag v.attrs 0#32 → ∀ f ∈ v.fields, Builds P (f.ty.resolve (bindParams (P d).params args))) →
    Builds P (.msg (.mk d args))

/-- A program, as far as it can be reached from a type: the macro accepts its messages (C47 says which ones these are), the compiler the types of
fields, default values can be built, and there are finitely many instances of messages; and the generator has classes for the fields. -/
structure Accepted (P : D → Src D) (root : RTy (Inst D)) : Prop where
  legal : Legal P root
  macro' : ∀ m, Reach (declared P).program.graph.links root (.msg m) → ∀ ty, (Derive.derive ((P m.decl).input ty)).1 = []
  fields : ∀ d args, Reach (declared P).program.graph.links root (.msg (.mk d args)) → ∀ f ∈ (P d).body.fields,
    Legal P (f.ty.resolve (bindParams (P d).params args)) ∧
      (HasArg (P d).args "State" → ¬ HasFlag f.attrs "no_state" → IsState P (f.ty.resolve (bindParams (P d).params args)))
  works : ∀ d args, Reach (declared P).program.graph.links root (.msg (.mk d args)) → ∀ f ∈ (P d).body.fields,
    Works f.ty (f.ty.resolve (bindParams (P d).params args))
  builds : ∀ m, Reach (declared P).program.graph.links root (.msg m) → Builds P (.msg m)
  finite : ∃ ms : List (Inst D), ∀ m, Reach (declared P).program.graph.links root (.msg m) → m ∈ ms

end Steit.Gen.Spec
