import Verif.Model.Bounds
import Verif.Spec.AsWritten

/-!
# Which generic messages can be derived
-/

namespace Steit.Bounds.Spec

variable {D : Type}

/-- Supertraits, their supertraits, and so on. -/
inductive Supertrait : Trait → Trait → Prop
  | refl {a} : Supertrait a a
  | step {a b c} : b ∈ a.supers → Supertrait b c → Supertrait a c

/-- Under the bounds written and others, fields have a trait. -/
def FieldsHave (P : D → Decl D) (d : D) (bounds : List Trait) (which : Field D → Prop) (tr : Trait) : Prop :=
  ∀ f ∈ (P d).body.fields, which f → Holds P ((P d).env bounds) tr f.ty

/-- `Serialize` is asked for, or `State`, which comes with it. -/
def AsksWrite (r : Request) : Prop := r.state = true ∨ r.serialize = true

/-- `Deserialize` is asked for, or `State`, which comes with it. -/
def AsksRead (r : Request) : Prop := r.state = true ∨ r.deserialize = true

/-- A declaration is good: fields have what is derived for the message, if type parameters have; and there are three more things to
take care of. -/
structure Good (P : D → Decl D) (d : D) : Prop where
  names : ((P d).params.map (·.1)).Nodup
  types : ∀ f ∈ (P d).body.fields, Exists P ((P d).env []) f.ty
  serialize : AsksWrite (P d).request → FieldsHave P d [.serialize] (fun _ => True) .serialize
  deserialize : AsksRead (P d).request → FieldsHave P d
    (if (P d).request.state = true ∧ (P d).body.isEnum = true then [.state] else [.deserialize]) (fun _ => True) .deserialize
  default : AsksRead (P d).request ∨ (P d).request.deriveCtors = true → FieldsHave P d (if (P d).request.state = true then [.state] else [.default])
    (fun f => ¬ ((P d).request.state = true ∧ f.noState = false)) .default
  state : (P d).request.state = true → FieldsHave P d [.state] (fun f => f.noState = false) .state
  partialEq : (P d).request.partialEq = true → FieldsHave P d [.partialEq] (fun f => f.noEqHash = false) .partialEq
  hash : (P d).request.hash = true → FieldsHave P d [.hash] (fun f => f.noHash = false ∧ f.noEqHash = false) .hash
  eq : (P d).request.eq = true → FieldsHave P d [.eq] (fun _ => True) .eq
  hasMeta : AsksRead (P d).request → (P d).request.noMeta = false → FieldsHave P d [.hasMeta] (fun _ => True) .hasMeta
  /-- and types in the arguments of field types -/
  metaArgs : AsksRead (P d).request → (P d).request.noMeta = false → ∀ f ∈ (P d).body.fields, ∀ t ∈ f.ty.metaTypes, Holds P ((P d).env [.hasMeta]) .hasMeta t
  /-- `Eq` with `PartialEq` -/
  eq_partialEq : (P d).request.eq = true → (P d).request.partialEq = true
  /-- `Default`, without `Deserialize`, with `derive_ctors` -/
  default_ctors : (P d).request.default = true → AsksRead (P d).request ∨ (P d).request.deriveCtors = true
  /-- `derive_setters` of an enum, without `Deserialize`, with `derive_ctors` -/
  setters_ctors : (P d).body.isEnum = true → (P d).request.deriveSetters = true → (P d).body.fields ≠ [] →
    AsksRead (P d).request ∨ (P d).request.deriveCtors = true
  /-- structs with `State`: `T: State` is written for all type parameters -/
  state_bounds : (P d).body.isEnum = false → (P d).request.state = true → ∀ p ∈ (P d).params, ∃ b ∈ p.2, Supertrait b .state

/-! ## A class of good programs -/

mutual
/-- States: type parameters, numbers and booleans, boxes, lists, maps, messages. -/
inductive StateTy (P : D → Decl D) (ps : List String) : Exp D → Prop
  | param {p} : p ∈ ps → StateTy P ps (.param p)
  | prim {p} : p ≠ .string → p ≠ .bytes → StateTy P ps (.app (.prim p) .nil)
  | box {t} : StateTy P ps t → StateTy P ps (.app .box (.cons t .nil))
  | list {t} : StateTy P ps t → StateTy P ps (.app .list (.cons t .nil))
  | map {k t} : k ∈ [Prim.u8, .u16, .u32] → StateTy P ps t → StateTy P ps (.app .map (.cons (.app (.prim k) .nil) (.cons t .nil)))
  | msg {d args} : args.length = (P d).params.length → StateTys P ps args → StateTy P ps (.app (.msg d) args)

/-- Type arguments that are states. -/
inductive StateTys (P : D → Decl D) (ps : List String) : Exps D → Prop
  | nil : StateTys P ps .nil
  | cons {t ts} : StateTy P ps t → StateTys P ps ts → StateTys P ps (.cons t ts)
end

/-- Data: states, strings and bytes, vectors, options, arrays of 1 to 7 elements, boxes. -/
inductive DataTy (P : D → Decl D) (ps : List String) : Exp D → Prop
  | state {t} : StateTy P ps t → DataTy P ps t
  | string : DataTy P ps (.app (.prim .string) .nil)
  | bytes : DataTy P ps (.app (.prim .bytes) .nil)
  | vec {t} : DataTy P ps t → DataTy P ps (.app .vec (.cons t .nil))
  | option {t} : DataTy P ps t → DataTy P ps (.app .option (.cons t .nil))
  | array {n t} : 1 ≤ n → n ≤ 7 → DataTy P ps t → DataTy P ps (.app (.array n) (.cons t .nil))
  | box {t} : DataTy P ps t → DataTy P ps (.app .box (.cons t .nil))

/-- All messages derive `State`, `PartialEq`, and what comes with these, their type parameters are declared with `State` and nothing else,
their fields are states, or data with `no_state`. -/
structure Plain (P : D → Decl D) : Prop where
  state : ∀ d, (P d).request.state = true
  partialEq : ∀ d, (P d).request.partialEq = true
  eq : ∀ d, (P d).request.eq = false
  hash : ∀ d, (P d).request.hash = false
  noMeta : ∀ d, (P d).request.noMeta = false
  names : ∀ d, ((P d).params.map (·.1)).Nodup
  bounds : ∀ d, ∀ p ∈ (P d).params, p.2 = [.state]
  fields : ∀ d, ∀ f ∈ (P d).body.fields,
    if f.noState = true then DataTy P ((P d).params.map (·.1)) f.ty else StateTy P ((P d).params.map (·.1)) f.ty

/-! ## Programs as written -/

open Steit.Gen Steit.Gen.Spec

/-- A primitive type with its name in C# and its wire type, as the library has it. -/
def RealPrim (rust csharp : String) (wire : WireType) : Prop := ∃ t, primitiveMeta t = some (.primitive ⟨rust, some csharp⟩ wire)

mutual
/-- The primitive types in it are real. -/
def Real : Written D → Prop
  | .prim r c w => RealPrim r c w
  | .param _ | .bytes => True
  | .paren t | .array _ t | .vec t | .option t | .box t | .list t | .map _ _ _ t | .alias t => Real t
  | .msg _ args => Reals args

/-- See `Real`. -/
def Reals : WrittenArgs D → Prop
  | .nil => True
  | .cons t ts => Real t ∧ Reals ts
end

mutual
/-- See `Real`. -/
def RealInst : Inst D → Prop
  | .mk _ args => RealTys args

/-- See `Real`. -/
def RealTy : RTy (Inst D) → Prop
  | .prim r c w => RealPrim r c w
  | .bytes => True
  | .array _ t | .vec t | .option t | .box t | .list t | .map _ t => RealTy t
  | .msg m => RealInst m

/-- See `Real`. -/
def RealTys : List (RTy (Inst D)) → Prop
  | [] => True
  | t :: ts => RealTy t ∧ RealTys ts
end

open Steit.Derive.Spec (HasArg HasFlag)

/-- An enum is written. -/
def _root_.Steit.Gen.Src.IsEnum (s : Src D) : Prop := ∃ vs, s.body = .enum vs

/-- `steit_derive` is given `State` or `Deserialize`. -/
def _root_.Steit.Gen.Src.Reads (s : Src D) : Prop := HasArg s.args "State" ∨ HasArg s.args "Deserialize"

/-- There are constructors. -/
def _root_.Steit.Gen.Src.Constructed (s : Src D) : Prop := s.Reads ∨ HasFlag s.attrs "derive_ctors"

/-- Under the bounds written and others, fields that are written in a certain way have a trait. -/
def WrittenHave (Q : D → Src D) (bounds : D → String → List Trait) (d : D) (others : List Trait) (which : SrcField D → Prop)
    (tr : Trait) : Prop :=
  ∀ f ∈ (Q d).body.fields, which f → Holds (bounded Q bounds) ((Q d).params.map fun p => (p, bounds d p ++ others)) tr f.ty.exp

/-- `Good`, in terms of what is written. -/
structure GoodSrc (Q : D → Src D) (bounds : D → String → List Trait) (d : D) : Prop where
  names : (Q d).params.Nodup
  types : ∀ f ∈ (Q d).body.fields, Exists (bounded Q bounds) ((Q d).params.map fun p => (p, bounds d p)) f.ty.exp
  serialize : HasArg (Q d).args "State" ∨ HasArg (Q d).args "Serialize" → WrittenHave Q bounds d [.serialize] (fun _ => True) .serialize
  deserialize : (Q d).Reads → ¬ (HasArg (Q d).args "State" ∧ (Q d).IsEnum) → WrittenHave Q bounds d [.deserialize] (fun _ => True) .deserialize
  deserialize_enum : HasArg (Q d).args "State" → (Q d).IsEnum → WrittenHave Q bounds d [.state] (fun _ => True) .deserialize
  default : (Q d).Constructed → ¬ HasArg (Q d).args "State" → WrittenHave Q bounds d [.default] (fun _ => True) .default
  default_state : HasArg (Q d).args "State" → WrittenHave Q bounds d [.state] (fun f => HasFlag f.attrs "no_state") .default
  state : HasArg (Q d).args "State" → WrittenHave Q bounds d [.state] (fun f => ¬ HasFlag f.attrs "no_state") .state
  partialEq : HasArg (Q d).args "PartialEq" → WrittenHave Q bounds d [.partialEq] (fun f => ¬ HasFlag f.attrs "no_eq_hash") .partialEq
  hash : HasArg (Q d).args "Hash" →
    WrittenHave Q bounds d [.hash] (fun f => ¬ HasFlag f.attrs "no_hash" ∧ ¬ HasFlag f.attrs "no_eq_hash") .hash
  eq : HasArg (Q d).args "Eq" → WrittenHave Q bounds d [.eq] (fun _ => True) .eq
  hasMeta : (Q d).Reads → ¬ HasFlag (Q d).attrs "no_meta" → WrittenHave Q bounds d [.hasMeta] (fun _ => True) .hasMeta
  metaArgs : (Q d).Reads → ¬ HasFlag (Q d).attrs "no_meta" → ∀ f ∈ (Q d).body.fields, ∀ t ∈ f.ty.exp.metaTypes,
    Holds (bounded Q bounds) ((Q d).params.map fun p => (p, bounds d p ++ [.hasMeta])) .hasMeta t
  eq_partialEq : HasArg (Q d).args "Eq" → HasArg (Q d).args "PartialEq"
  default_ctors : HasArg (Q d).args "Default" → (Q d).Constructed
  setters_ctors : (Q d).IsEnum → HasFlag (Q d).attrs "derive_setters" → (Q d).body.fields ≠ [] → (Q d).Constructed
  state_bounds : ¬ (Q d).IsEnum → HasArg (Q d).args "State" → ∀ p ∈ (Q d).params, ∃ b ∈ bounds d p, Supertrait b .state

/-- A program, with the bounds of its type parameters, compiles; and there is a type to start with. -/
structure Rust (P : D → Src D) (bounds : D → String → List Trait) (root : RTy (Inst D)) : Prop where
  macro' : ∀ d ty, (Derive.derive ((P d).input ty)).1 = []
  compiles : ∀ d, Compiles (bounded P bounds) d
  real : ∀ d, ∀ f ∈ (P d).body.fields, Real f.ty
  rootReal : RealTy root
  rootExists : Exists (bounded P bounds) [] (rtyExp root)
  rootDeserialize : Holds (bounded P bounds) [] .deserialize (rtyExp root)

end Steit.Bounds.Spec
