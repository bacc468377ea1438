import Verif.Model.DeriveParse

/-!
# Declarations the macro is meant to accept
-/

namespace Steit.Derive.Spec

/-- How an attribute of each kind is written: `name`; `name` or `name = true`; `name = 5`; `name = "x"`; `name(1, 2)`. -/
inductive Written : Kind → Meta → Prop
  | path {n} : Written .pathOnly (.path n)
  | flag {n} : Written .flag (.path n)
  | bool {n b} : Written .flag (.nameValue n (.bool b))
  | int {n k} : k < 2 ^ 32 → Written .int (.nameValue n (.int k))
  | str {n s} : Written .str (.nameValue n (.str s))
  | list {n items} : (∀ l ∈ items, ∃ k, k < 2 ^ 32 ∧ l = some (.int k)) → Written .intList (.list n items)

/-- Attributes of structs and enums. -/
def typeNames : Table :=
  [("steit_owned", .flag), ("no_size_cache", .flag), ("derive_ctors", .flag), ("derive_setters", .flag), ("no_meta", .flag),
   ("ctor_prefix", .str), ("size_cache_renamed", .str), ("runtime_renamed", .str), ("csharp_name", .str),
   ("reserved_tags", .intList)]

/-- Attributes of variants. -/
def variantNames : Table :=
  [("tag", .int), ("no_size_cache", .flag), ("size_cache_renamed", .str), ("runtime_renamed", .str), ("csharp_name", .str),
   ("reserved_tags", .intList)]

/-- Attributes of fields. -/
def fieldNames : Table :=
  [("tag", .int), ("no_state", .flag), ("no_hash", .flag), ("no_eq_hash", .flag), ("csharp_name", .str)]

/-- Everything written in `#[steit(…)]`. -/
def items (attrs : List RawAttr) : List Nested :=
  attrs.flatMap fun | .steit is => is | .bad => []

/-- Attributes are well formed: `#[steit(…)]` lists of known attributes, written as their kind demands, none twice except for
lists of tags. -/
structure AttrsOk (names : Table) (attrs : List RawAttr) : Prop where
  lists : ∀ a ∈ attrs, a ≠ .bad
  known : ∀ i ∈ items attrs, ∃ m k, i = .attr m ∧ (m.name, k) ∈ names ∧ Written k m
  once : (items attrs).Pairwise fun i j => ∀ m m', i = .attr m → j = .attr m' → m.name = m'.name → (m.name, .intList) ∈ names

/-- `tag = t` is among the attributes. -/
def HasTag (attrs : List RawAttr) (t : U32) : Prop := .attr (.nameValue "tag" (.int t.toNat)) ∈ items attrs

/-- A flag is set. -/
def HasFlag (attrs : List RawAttr) (name : String) : Prop :=
  .attr (.path name) ∈ items attrs ∨ .attr (.nameValue name (.bool true)) ∈ items attrs

/-- A tag is reserved. -/
def Reserves (attrs : List RawAttr) (t : U32) : Prop :=
  ∃ is, .attr (.list "reserved_tags" is) ∈ items attrs ∧ some (.int t.toNat) ∈ is

/-- An argument of `steit_derive`. -/
def HasArg (args : List Nested) (name : String) : Prop := .attr (.path name) ∈ args

mutual
/-- Types of fields that metadata can be given for: no tuples, no function types, no `<T as Trait>::U`, no bindings or constants as
type arguments. -/
inductive Supported : SynTy → Prop
  | paren {t} : Supported t → Supported (.paren t)
  | array {t} : Supported t → Supported (.array t)
  | plain : Supported (.path false .none)
  | angle {args} : SupportedArgs args → Supported (.path false (.angle args))

/-- Type arguments. -/
inductive SupportedArgs : SynArgList → Prop
  | nil : SupportedArgs .nil
  | lifetime {rest} : SupportedArgs rest → SupportedArgs (.lifetime rest)
  | type {t rest} : Supported t → SupportedArgs rest → SupportedArgs (.type t rest)
end

/-- Metadata is derived. -/
def WantsMeta (input : Input) : Prop :=
  (HasArg input.args "State" ∨ HasArg input.args "Deserialize") ∧ ¬ HasFlag input.attrs "no_meta"

/-- Sizes are cached. -/
def WantsCache (input : Input) : Prop :=
  (HasArg input.args "State" ∨ HasArg input.args "Serialize") ∧ ¬ HasFlag input.attrs "no_size_cache"

/-- A field can be accepted. -/
structure FieldOk (wantsMeta : Prop) (f : FieldDecl) : Prop where
  attrs : AttrsOk fieldNames f.attrs
  tag : ∃ t, HasTag f.attrs t ∧ t.toNat < 2 ^ 29
  type : wantsMeta → Supported f.syn

/-- The fields of a struct or variant can be accepted: each one can, tags are distinct and not reserved. -/
structure FieldsOk (wantsMeta : Prop) (attrs : List RawAttr) (fs : List FieldDecl) : Prop where
  each : ∀ f ∈ fs, FieldOk wantsMeta f
  distinct : fs.Pairwise fun f g => ∀ t, HasTag f.attrs t → ¬ HasTag g.attrs t
  free : ∀ f ∈ fs, ∀ t, HasTag f.attrs t → ¬ Reserves attrs t

/-- A variant can be accepted. -/
structure VariantOk (wantsMeta : Prop) (v : VariantDecl) : Prop where
  attrs : AttrsOk variantNames v.attrs
  tag : ∃ t, HasTag v.attrs t ∧ t.toNat < 2 ^ 29
  fields : FieldsOk wantsMeta v.attrs v.fields

/-- The variants of an enum can be accepted: each one can, tags are distinct and not reserved, and one of them is 0. -/
structure VariantsOk (wantsMeta : Prop) (attrs : List RawAttr) (vs : List VariantDecl) : Prop where
  each : ∀ v ∈ vs, VariantOk wantsMeta v
  distinct : vs.Pairwise fun v w => ∀ t, HasTag v.attrs t → ¬ HasTag w.attrs t
  free : ∀ v ∈ vs, ∀ t, HasTag v.attrs t → ¬ Reserves attrs t
  default : ∃ v ∈ vs, HasTag v.attrs 0#32

/-- A declaration can be accepted. -/
structure Acceptable (input : Input) : Prop where
  args : ∀ name ∈ ["Serialize", "Deserialize", "State", "PartialEq", "Default", "Hash"],
    (input.args.filter fun i => match i with | .attr (.path n) => n == name | _ => false).length ≤ 1
  noConst : input.constGenerics = 0
  attrs : AttrsOk typeNames input.attrs
  data : match input.data with
    | .struct fs => FieldsOk (WantsMeta input) input.attrs fs
    | .enum vs => VariantsOk (WantsMeta input) input.attrs vs
    | .union => False

/-! ## What accepted declarations declare -/

/-- Two lists correspond. -/
inductive All₂ {α β : Type} (R : α → β → Prop) : List α → List β → Prop
  | nil : All₂ R [] []
  | cons {a b as bs} : R a b → All₂ R as bs → All₂ R (a :: as) (b :: bs)

/-- What a field declares. -/
structure FieldIs (f : FieldDecl) (p : PField) : Prop where
  tag : HasTag f.attrs p.tag
  noState : p.attrs.noState = true ↔ HasFlag f.attrs "no_state"
  noHash : p.attrs.noHash = true ↔ HasFlag f.attrs "no_hash"
  noEqHash : p.attrs.noEqHash = true ↔ HasFlag f.attrs "no_eq_hash"
  param : p.attrs.param = f.param
  ty : p.ty = f.ty

/-- What a variant declares. -/
structure VariantIs (wantsCache : Prop) (v : VariantDecl) (p : PVariant) : Prop where
  tag : HasTag v.attrs p.tag
  cached : p.struct.cached = true ↔ wantsCache ∧ ¬ HasFlag v.attrs "no_size_cache"
  fields : All₂ FieldIs v.fields p.struct.fields

/-- What a declaration declares. -/
inductive Declares (input : Input) : Output → Prop
  | struct {fs st} : input.data = .struct fs → (st.cached = true ↔ WantsCache input) → All₂ FieldIs fs st.fields →
    Declares input (.struct st)
  | enum {vs ps} : input.data = .enum vs → All₂ (VariantIs (WantsCache input)) vs ps → Declares input (.enum ps)

/-- The conditions the compiler checks on types of fields: each has an instance of the traits, and of `State` if the whole is a
state and the field is not marked `no_state`. -/
def TypesFit (input : Input) : Prop :=
  let fits (f : FieldDecl) : Prop :=
    f.ty.WF ∧ (HasArg input.args "State" → ¬ HasFlag f.attrs "no_state" → f.ty.isState = true)
  match input.data with
  | .struct fs => ∀ f ∈ fs, fits f
  | .enum vs => ∀ v ∈ vs, ∀ f ∈ v.fields, fits f
  | .union => True

end Steit.Derive.Spec
