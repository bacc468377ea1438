import Verif.Model.Classes
import Verif.Spec.FieldMeta

/-!
# What generated classes ought to do when they are run

Values of the client model (`Ty.Cs`) as values of C#, types of Rust as types of C# at run time, and the types of the model of values that
declarations stand for.
-/

namespace Steit.Gen.Spec

open Steit.Spec

mutual
/-- A value of the client model, as a value of C#. -/
def valOf : (t : Ty) → t.Cs → Val
  | .uint w, v => .uint w v
  | .sint w, v => .sint w v
  | .bool, v => .bool v
  | .string, v => .str v
  | .bytes, v => .bytes v
  | .vec t, v => .items (v.map fun x => valOf t x)
  | .array _ t, v => .items (v.map fun x => valOf t x)
  | .tuple _, _ => .null
  | .option t, v => .opt (v.map fun x => valOf t x)
  | .box t, v => valOf t v
  | .hashMap _ _, _ => .null
  | .list t, v => .items (v.map fun x => valOf t x)
  | .map _ t, v => .entries (v.map fun (k, x) => (k, valOf t x))
  | .struct _ _ fs, v => .inst (valsOf fs v)
  | .enum _ _ fs vs, v =>
    match v with
    | .inl x => .enum 0#32 (.inst (valsOf fs x))
    | .inr x => variantOf vs x

/-- The properties of a message. -/
def valsOf : (fs : Fields) → fs.Cs → List Val
  | .nil, _ => []
  | .cons _ _ t fs, v => valOf t v.1 :: valsOf fs v.2

/-- The variant of an enum. -/
def variantOf : (vs : Variants) → vs.Cs → Val
  | .nil, v => v.elim
  | .cons tag _ fs vs, v =>
    match v with
    | .inl x => .enum tag (.inst (valsOf fs x))
    | .inr x => variantOf vs x
end

mutual
/-- How deep a type is. -/
def depth : Ty → Nat
  | .vec t => depth t + 1
  | .array _ t => depth t + 1
  | .option t => depth t + 1
  | .box t => depth t
  | .list t => depth t + 1
  | .map _ t => depth t + 1
  | .struct _ _ fs => depthFields fs + 1
  | .enum _ _ fs vs => max (depthFields fs) (depthVariants vs) + 2
  | _ => 1

/-- The largest of all fields. -/
def depthFields : Fields → Nat
  | .nil => 0
  | .cons _ _ t fs => max (depth t) (depthFields fs)

/-- The largest of all variants. -/
def depthVariants : Variants → Nat
  | .nil => 0
  | .cons _ _ fs vs => max (depthFields fs) (depthVariants vs)
end

/-! ## Types of C# -/

variable {D : Type}

mutual
/-- The C# type at run time for a message with its type arguments. -/
def rtMessage (name : D → NameMeta) : Inst D → Rt
  | .mk d args => .message (name d).csharpName.toList (rts name args)

/-- The C# type at run time for a Rust type: boxes are dropped, maps have no keys, arrays are vectors. -/
def rt (name : D → NameMeta) : RTy (Inst D) → Rt
  | .prim _ csharp _ => .system csharp.toList
  | .bytes => .library (lit! "Bytes") []
  | .vec t => .library (lit! "Vector") [rt name t]
  | .array _ t => .library (lit! "Vector") [rt name t]
  | .option t => .library (lit! "Option") [rt name t]
  | .box t => rt name t
  | .list t => .library (lit! "StateList") [rt name t]
  | .map _ t => .library (lit! "StateMap") [rt name t]
  | .msg m => rtMessage name m

/-- See `rt`. -/
def rts (name : D → NameMeta) : List (RTy (Inst D)) → List Rt
  | [] => []
  | t :: ts => rt name t :: rts name ts
end

/-! ## Types of values -/

mutual
/-- `Models S k a t`: the type `t` is what the declarations say the type `a` is, where messages are unrolled, if recursive, at least as far
as `k` bytes can tell. Each level of nesting takes a byte, for the size of what is inside. Fields are as the generator wants them
(`GoodField`, and no box behind an alias). -/
def Models (S : Declarations D) : Nat → RTy (Inst D) → Ty → Prop
  | _, a, .uint w => ∃ r c x, a = .prim r c x ∧ primitiveMeta (.uint w) = some (.primitive ⟨r, some c⟩ x)
  | _, a, .sint w => ∃ r c x, a = .prim r c x ∧ primitiveMeta (.sint w) = some (.primitive ⟨r, some c⟩ x)
  | _, a, .bool => ∃ r c x, a = .prim r c x ∧ primitiveMeta .bool = some (.primitive ⟨r, some c⟩ x)
  | _, a, .string => ∃ r c x, a = .prim r c x ∧ primitiveMeta .string = some (.primitive ⟨r, some c⟩ x)
  | _, a, .bytes => a = .bytes
  | k, a, .vec t => ∃ b, a = .vec b ∧ Models S (k - 1) b t
  | k, a, .array n t => ∃ b, a = .array n b ∧ Models S (k - 1) b t
  | _, _, .tuple _ => False
  | k, a, .option t => ∃ b, a = .option b ∧ Models S (k - 1) b t
  | k, a, .box t => ∃ b, a = .box b ∧ Models S k b t
  | _, _, .hashMap _ _ => False
  | k, a, .list t => ∃ b, a = .list b ∧ Models S (k - 1) b t
  | k, a, .map _ t => ∃ r b, a = .map r b ∧ Models S (k - 1) b t
  | k, a, .struct _ _ fs => ∃ d args, a = .msg (.mk d args) ∧ (k ≠ 0 → ∃ fields, S.body d = .struct fields ∧
      ModelsFields S k (bindParams (S.params d) args) fields fs ∧ fs.tags.Nodup)
  | k, a, .enum _ _ fs vs => ∃ d args, a = .msg (.mk d args) ∧ (k ≠ 0 → ∃ variants, S.body d = .enum variants ∧
      (variants.map (·.tag)).Nodup ∧ (∀ v ∈ variants, v.tag = 0#32 ∨ v.tag ∈ vs.tags) ∧
      (∃ v ∈ variants, v.tag = 0#32 ∧ ModelsFields S k (bindParams (S.params d) args) v.fields fs ∧ fs.tags.Nodup) ∧
      ModelsVariants S k (bindParams (S.params d) args) variants vs)

/-- See `Models`. -/
def ModelsFields (S : Declarations D) : Nat → (String → RTy (Inst D)) → List (DeclField D) → Fields → Prop
  | _, _, fields, .nil => fields = []
  | k, ρ, fields, .cons tag attrs t fs => ∃ f rest, fields = f :: rest ∧ f.tag = tag ∧ attrs.param = isParam f.ty ∧ GoodField attrs t ∧
      ¬ AliasedBox f.ty ∧ Models S k (f.ty.resolve ρ) t ∧ ModelsFields S k ρ rest fs

/-- See `Models`. -/
def ModelsVariants (S : Declarations D) : Nat → (String → RTy (Inst D)) → List (DeclVariant D) → Variants → Prop
  | _, _, _, .nil => True
  | k, ρ, variants, .cons tag _ fs vs => (∃ v ∈ variants, v.tag = tag ∧ ModelsFields S (k - 1) ρ v.fields fs ∧ fs.tags.Nodup) ∧
      ModelsVariants S k ρ variants vs
end

/-! ## Programs -/

/-- The names in the file of a message fit (C68). -/
def NamesFit (cm : CaseMap) : MessageMeta → Prop
  | .struct s => IdentStruct cm s ∧ StructFits s.name.csharpName.toList (s.typeParams.map String.toList) (s.fields.map (propName cm))
  | .enum e => IdentEnum cm e ∧ EnumFits e.name.csharpName.toList (e.typeParams.map String.toList) (e.variants.map fun v => (variantName cm v).1)
        (e.variants.map fun v => (variantName cm v).2) ∧
      ∀ v ∈ e.variants, StructFits (variantName cm v).1 [] (v.ty.fields.map (propName cm))

/-- The files generated from a type, of a program that compiles in Rust, and whose names fit. Enums have no type parameters
(`C69_false_generic_enum`). -/
structure Ready (cm : CaseMap) (setting : CSharpSetting) (S : Declarations D) (root : RTy (Inst D)) (texts : List Text) : Prop where
  keeps : KeepsNames cm
  namespace' : IsName setting.namespace'
  used : ∀ u ∈ setting.usedNamespaces, IsName u
  names : OwnNames S
  compiles : Compiles S
  fits : Fits S root
  enums : ∀ d variants, InReach S root d → S.body d = .enum variants → S.params d = []
  clear : ∀ d, InReach S root d → Clear S d
  named : ∀ d, InReach S root d → Named (S.message d)
  clean : ∀ d, InReach S root d → NamesFit cm (S.message d)
  only : ∀ text ∈ texts, ∃ d, InReach S root d ∧ source cm setting (S.message d) = some text
  all : ∀ d, InReach S root d → ∃ text ∈ texts, source cm setting (S.message d) = some text

end Steit.Gen.Spec
