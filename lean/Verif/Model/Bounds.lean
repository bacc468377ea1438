import Verif.Model.AsWritten

/-!
# Traits of generic messages

Which traits Rust types implement, what the derived `impl` blocks ask of type parameters, and what their code asks of the types of
fields. Of Rust's rules this has: bounds on type parameters (no `where` clauses), supertraits, `impl` blocks with bounds. Rust checks
generic code once, with nothing known of the type parameters but their bounds.

Not modelled: user-written `impl`s, lifetimes and references, associated types, the standard derives other than `Eq`.
-/

namespace Steit.Bounds

/-- The traits that matter. `wireType` is `HasWireType`.
(`steit/src/wire_fmt.rs:39-49`, `steit/src/ser.rs:8`, `steit/src/de/de.rs:7`, `steit/src/state.rs:11`, `steit/src/meta/meta.rs:9-13`, `steit/src/types/map/key.rs:3-7`, and those of the standard library.) -/
inductive Trait
  | default
  | partialEq
  | eq
  | hash
  | wireType
  | serialize
  | deserialize
  | state
  | hasMeta
  | mapKey
  deriving DecidableEq

/-- Supertraits: `steit/src/ser.rs:8`, `steit/src/de/de.rs:7`, `steit/src/state.rs:11`; `Eq: PartialEq`. `HasWireType`
(`steit/src/wire_fmt.rs:39`), `HasMeta` (`steit/src/meta/meta.rs:9`) and `MapKey` (`steit/src/types/map/key.rs:3`) have none. -/
def Trait.supers : Trait → List Trait
  | .eq => [.partialEq]
  | .serialize => [.wireType]
  | .deserialize => [.default, .wireType]
  | .state => [.serialize, .deserialize]
  | _ => []

/-- A trait, its supertraits, theirs, and so on. (`steit/src/ser.rs:8`, `steit/src/de/de.rs:7`, `steit/src/state.rs:11`.) -/
def Trait.closure : Trait → List Trait
  | .eq => [.eq, .partialEq]
  | .serialize => [.serialize, .wireType]
  | .deserialize => [.deserialize, .default, .wireType]
  | .state => [.state, .serialize, .deserialize, .default, .wireType]
  | t => [t]

/-- Types without parameters, of the language and of the library.
(Those with an `impl` in `steit/src/impls/varint.rs:71-74,126-129`, `steit/src/impls/bool.rs:9-38`, `steit/src/impls/string.rs:9-30`, `steit/src/types/bytes.rs:17-65`, or allowed in fields.) -/
inductive Prim
  | u8
  | u16
  | u32
  | u64
  | i8
  | i16
  | i32
  | i64
  | bool
  | string
  | bytes
  deriving DecidableEq

/-- Type constructors; `D` stands for the declared messages.
(Those with an `impl` in `steit/src/impls/*.rs`, `steit/src/types/**/*.rs`, or derived, `steit-derive/src/derive/derive.rs:167-216`.) -/
inductive Con (D : Type)
  | prim (p : Prim)
  | vec
  | array (n : Nat)
  | tuple (n : Nat)
  | option
  | box
  | hashMap
  | list
  | map
  | msg (d : D)

mutual
/-- Types: parameters, and constructors with arguments. (As `syn::Type` in `steit-derive/src/derive/field.rs:427-538`.) -/
inductive Exp (D : Type)
  | param (p : String)
  | app (c : Con D) (args : Exps D)

/-- Type arguments. (As `syn::Type` in `steit-derive/src/derive/field.rs:427-538`.) -/
inductive Exps (D : Type)
  | nil
  | cons (t : Exp D) (ts : Exps D)
end

variable {D : Type}

namespace Exps

/-- How many. (Arguments of types, as in `steit-derive/src/derive/field.rs:427-538`.) -/
def length : Exps D → Nat
  | .nil => 0
  | .cons _ ts => ts.length + 1

/-- By position. (Arguments of types, as in `steit-derive/src/derive/field.rs:427-538`.) -/
def get? : Exps D → Nat → Option (Exp D)
  | .nil, _ => none
  | .cons t _, 0 => some t
  | .cons _ ts, n + 1 => ts.get? n

/-- From a list. (Arguments of types, as in `steit-derive/src/derive/field.rs:427-538`.) -/
def ofList : List (Exp D) → Exps D
  | [] => .nil
  | t :: ts => .cons t (ofList ts)

end Exps

/-! ## Declarations -/

/-- A field: its type and attributes (`steit-derive/src/derive/field.rs:17-26,76-80`). -/
structure Field (D : Type) where
  ty : Exp D
  noState : Bool := false
  noHash : Bool := false
  noEqHash : Bool := false

/-- Fields of a struct, or of each variant. (`steit-derive/src/derive/struct.rs:67-82`, `steit-derive/src/derive/enum.rs:41-48`.) -/
inductive Body (D : Type)
  | struct (fields : List (Field D))
  | enum (variants : List (List (Field D)))

/-- All fields. (`steit-derive/src/derive/struct.rs:67-82`, `steit-derive/src/derive/enum.rs:41-48`.) -/
def Body.fields : Body D → List (Field D)
  | .struct fs => fs
  | .enum vs => vs.flatten

/-- Whether it is an enum. (`steit-derive/src/derive/derive.rs:174-201`.) -/
def Body.isEnum : Body D → Bool
  | .struct _ => false
  | .enum _ => true

/-- What is asked of the macro: arguments and attributes that say what is derived. (`steit-derive/src/derive/derive.rs:15-148`.) -/
structure Request where
  serialize : Bool := false
  deserialize : Bool := false
  state : Bool := false
  partialEq : Bool := false
  default : Bool := false
  hash : Bool := false
  /-- `Eq`, passed on to `#[derive]` -/
  eq : Bool := false
  deriveCtors : Bool := false
  deriveSetters : Bool := false
  noMeta : Bool := false

namespace Request

/-- `derive_serialize`, `steit-derive/src/derive/derive.rs:70`. -/
def hasSerialize (r : Request) : Bool := r.state || r.serialize

/-- `derive_deserialize`, `steit-derive/src/derive/derive.rs:71`. -/
def hasDeserialize (r : Request) : Bool := r.state || r.deserialize

/-- `derive_default`, `steit-derive/src/derive/derive.rs:73`. -/
def hasDefault (r : Request) : Bool := r.hasDeserialize || r.default

/-- `derive_ctors`, `steit-derive/src/derive/derive.rs:115`. -/
def hasCtors (r : Request) : Bool := r.hasDeserialize || r.deriveCtors

/-- `derive_setters`, `steit-derive/src/derive/derive.rs:116`. -/
def hasSetters (r : Request) : Bool := r.state || r.deriveSetters

/-- `derive_wire_type`, `steit-derive/src/derive/derive.rs:117`. -/
def hasWireType (r : Request) : Bool := r.hasSerialize || r.hasDeserialize

/-- `derive_meta`, `steit-derive/src/derive/derive.rs:118`. -/
def hasMeta (r : Request) : Bool := r.hasDeserialize && !r.noMeta

/-- `trait_bounds`, `steit-derive/src/derive/struct.rs:160-166`, `enum.rs:84-90`. -/
def traitBounds (r : Request) (fallback : List Trait) : List Trait := if r.state then [.state] else fallback

end Request

/-- A declaration: type parameters with the bounds written. (`steit-derive/src/derive/derive.rs:167-216,218-232`.) -/
structure Decl (D : Type) where
  request : Request
  params : List (String × List Trait)
  body : Body D

/-- Type parameters, and what is known about them. (`steit-derive/src/impl.rs:26-55`.) -/
abbrev Env := List (String × List Trait)

/-- The bounds written, and more for each type parameter, `steit-derive/src/impl.rs:33-39`. -/
def Decl.env (s : Decl D) (bounds : List Trait) : Env := s.params.map fun p => (p.1, p.2 ++ bounds)

/-- The same, of the parameter at a position. (`steit-derive/src/impl.rs:26-55`.) -/
def Decl.bounds (s : Decl D) (bounds : List Trait) (j : Nat) : List Trait :=
  match s.params[j]? with
  | some p => p.2 ++ bounds
  | none => []

/-- `Self`. (`steit-derive/src/impl.rs:26-55`.) -/
def Decl.self (d : D) (s : Decl D) : Exp D := .app (.msg d) (.ofList (s.params.map fun p => .param p.1))

/-! ## Derived code -/

/-- What derived code asks for. (Code made by `steit-derive/src/derive/struct.rs:218-559`, `steit-derive/src/derive/enum.rs:92-514`.) -/
inductive Need (D : Type)
  /-- the type implements the trait -/
  | impl (tr : Trait) (t : Exp D)
  /-- `Self::new` (or whatever `ctor_prefix` says), and those of variants -/
  | ctor

/-- An `impl` block: trait, bounds added to type parameters, what the code in it asks for. (`steit-derive/src/impl.rs:18-65`.) -/
structure Block (D : Type) where
  of : Option Trait
  bounds : List Trait
  needs : List (Need D)

mutual
/-- Types the metadata of a field mentions with `<T as HasMeta>`, `field_type_meta`, `steit-derive/src/derive/field.rs:427-538`. For
tuples, which are refused there, this is the tuple. -/
def Exp.metaTypes : Exp D → List (Exp D)
  | .param _ => []
  | .app (.array _) args => args.metaTypes
  | .app c args => .app c args :: args.metaTypes

/-- Of the arguments. (Arguments of types, as in `steit-derive/src/derive/field.rs:427-538`.) -/
def Exps.metaTypes : Exps D → List (Exp D)
  | .nil => []
  | .cons t ts => t.metaTypes ++ ts.metaTypes
end

namespace Decl

/-- `DeriveField::is_state`, `steit-derive/src/derive/field.rs:234-236`. -/
def isState (s : Decl D) (f : Field D) : Bool := s.request.state && !f.noState

/-- Asking all fields for a trait. (`steit-derive/src/derive/struct.rs:620-662`, `steit-derive/src/derive/enum.rs:577-619`.) -/
def each (s : Decl D) (tr : Trait) : List (Need D) := s.body.fields.map fun f => .impl tr f.ty

/-- `impl_ctor`, `struct.rs:218-221`, `impl_ctors`, `enum.rs:92-120`, with `init_default` (`field.rs:238-245`). -/
def ctors (s : Decl D) : Block D :=
  ⟨none, s.request.traitBounds [.default], s.body.fields.map fun f => .impl (if s.isState f then .state else .default) f.ty⟩

/-- `impl_setters`, `struct.rs:229-238`, `enum.rs:122-127`, with `setter` (`field.rs:247-338`): `set_runtime` of the value, `runtime` of
`Self`; in variants, constructors, and `log_update` of `Self`. -/
def setters (d : D) (s : Decl D) : Block D :=
  let field (f : Field D) : List (Need D) := if s.isState f then [.impl .state f.ty, .impl .state (self d s)] else []
  let variant : List (Need D) := .ctor :: if s.request.state then [.impl .state (self d s), .impl .serialize (self d s)] else []
  match s.body with
  | .struct fs => ⟨none, s.request.traitBounds [], fs.flatMap field⟩
  | .enum vs => ⟨none, s.request.traitBounds [.default], vs.flatten.flatMap fun f => variant ++ field f⟩

/-- `impl_partial_eq`, `struct.rs:250-261`, `enum.rs:129-159`, with `eq` (`field.rs:340-353`). -/
def partialEq (s : Decl D) : Block D :=
  ⟨some .partialEq, [.partialEq], (s.body.fields.filter fun f => !f.noEqHash).map fun f => .impl .partialEq f.ty⟩

/-- `impl_default`, `struct.rs:263-281`, `enum.rs:161-179`. -/
def default (s : Decl D) : Block D := ⟨some .default, s.request.traitBounds [.default], [.ctor]⟩

/-- `impl_hash`, `struct.rs:289-300`, `enum.rs:181-208`, with `hash` (`field.rs:355-362`). -/
def hash (s : Decl D) : Block D :=
  ⟨some .hash, [.hash], (s.body.fields.filter fun f => !f.noHash && !f.noEqHash).map fun f => .impl .hash f.ty⟩

/-- `impl_wire_type`, `struct.rs:302-310`, `enum.rs:210-218`. -/
def wireType : Block D := ⟨some .wireType, [], []⟩

/-- `impl_serialize`, `struct.rs:324-354`, `enum.rs:220-286`. -/
def serialize (s : Decl D) : Block D := ⟨some .serialize, [.serialize], s.each .serialize⟩

/-- `impl_deserialize`, `struct.rs:372-384`, `enum.rs:288-342`. In enums, constructors, and `runtime` of `Self`. -/
def deserialize (d : D) (s : Decl D) : Block D :=
  match s.body with
  | .struct _ => ⟨some .deserialize, [.deserialize], s.each .deserialize⟩
  | .enum _ => ⟨some .deserialize, s.request.traitBounds [.deserialize],
      s.each .deserialize ++ .ctor :: if s.request.state then [.impl .state (self d s)] else []⟩

/-- `impl_state`, `struct.rs:444-476`, `enum.rs:344-453`. -/
def state (s : Decl D) : Block D :=
  ⟨some .state, [.state], .ctor :: (s.body.fields.filter fun f => s.isState f).map fun f => .impl .state f.ty⟩

/-- `impl_meta`, `struct.rs:525-559`, `enum.rs:455-514`, with `meta_links` (`struct.rs:516-523`) and `meta` (`field.rs:403-424`). -/
def «meta» (s : Decl D) : Block D :=
  ⟨some .hasMeta, [.hasMeta], (s.params.map fun p => .impl .hasMeta (.param p.1)) ++
    s.body.fields.flatMap fun f => .impl .hasMeta f.ty :: f.ty.metaTypes.map (.impl .hasMeta)⟩

/-- `#[derive(Eq)]`: a bound `Eq` on all type parameters, and all fields are asked. (`steit-derive/src/derive/derive.rs:204-212`.) -/
def eq (s : Decl D) : Block D := ⟨some .eq, [.eq], s.each .eq⟩

/-- `to_tokens`, `steit-derive/src/derive/struct.rs:620-662`, `enum.rs:577-619`, and `#[derive(Eq)]` (`derive.rs:204-212`). -/
def blocks (d : D) (s : Decl D) : List (Block D) :=
  (if s.request.hasCtors then [s.ctors] else []) ++ (if s.request.hasSetters then [s.setters d] else []) ++
  (if s.request.partialEq then [s.partialEq] else []) ++ (if s.request.hasDefault then [s.default] else []) ++
  (if s.request.hash then [s.hash] else []) ++ (if s.request.hasWireType then [wireType] else []) ++
  (if s.request.hasSerialize then [s.serialize] else []) ++ (if s.request.hasDeserialize then [s.deserialize d] else []) ++
  (if s.request.state then [s.state] else []) ++ (if s.request.hasMeta then [s.meta] else []) ++
  (if s.request.eq then [s.eq] else [])

end Decl

/-! ## Which types implement which traits -/

/-- Does a primitive type implement the trait? `steit/src/impls/varint.rs`, `bool.rs`, `string.rs`, `steit/src/types/bytes.rs`,
`steit/src/types/map/key.rs:33-35`. -/
def Prim.has : Prim → Trait → Bool
  | .u8, _ | .u16, _ | .u32, _ => true
  | .string, .state | .string, .mapKey | .bytes, .state | .bytes, .mapKey => false
  | .string, _ | .bytes, _ => true
  | _, .mapKey => false
  | _, _ => true

/-- The `impl` of a trait for a type constructor: what is asked of the arguments, by position.

Of the standard library: `Default`, `PartialEq`, `Eq`, `Hash`. For `Vec` and `Option`: `steit/src/impls/vec.rs`, `option.rs`. Arrays:
`array.rs:13-82`. Tuples: `tuple.rs:13-56`. `Box`: `box.rs`. `HashMap`: `hash_map.rs:10-40`. `List`: `steit/src/types/list.rs:20-25,159-261`
(the derives add a bound to the one written). `Map`: `steit/src/types/map/map.rs:108-120,155-274`. Messages: what is derived. -/
def Con.asks (P : D → Decl D) (tr : Trait) : Con D → Option (Nat → List Trait)
  | .prim p => if p.has tr then some fun _ => [] else none
  | .vec | .option => match tr with
    | .default | .wireType => some fun _ => []
    | .state | .mapKey => none
    | tr => some fun _ => [tr]
  | .array n => match tr with
    | .default => if n ≤ 32 then some fun _ => [.default] else none
    | .partialEq | .eq | .hash => some fun _ => [tr]
    | .wireType => if 1 ≤ n ∧ n ≤ 7 then some fun _ => [] else none
    | .serialize | .deserialize | .hasMeta => if 1 ≤ n ∧ n ≤ 7 then some fun _ => [tr] else none
    | .state | .mapKey => none
  | .tuple n => match tr with
    | .default | .partialEq | .eq | .hash => if n ≤ 12 then some fun _ => [tr] else none
    | .wireType => if 2 ≤ n ∧ n ≤ 7 then some fun _ => [] else none
    | .serialize | .deserialize => if 2 ≤ n ∧ n ≤ 7 then some fun _ => [tr] else none
    | .state | .hasMeta | .mapKey => none
  | .box => match tr with
    | .mapKey => none
    | tr => some fun _ => [tr]
  | .hashMap => match tr with
    | .default | .wireType => some fun _ => []
    | .serialize => some fun _ => [.serialize]
    | .deserialize => some fun j => if j = 0 then [.eq, .hash, .deserialize] else [.deserialize]
    | .partialEq | .eq => some fun j => if j = 0 then [.eq, .hash] else [tr]
    | .hash | .state | .hasMeta | .mapKey => none
  | .list => match tr with
    | .wireType | .serialize | .deserialize | .state => some fun _ => [.state]
    | .mapKey => none
    | tr => some fun _ => [.state, tr]
  | .map => match tr with
    | .default | .wireType | .serialize | .deserialize | .state => some fun j => if j = 0 then [.mapKey] else [.state]
    | .hasMeta => some fun j => if j = 0 then [.mapKey] else [.state, .hasMeta]
    | .partialEq | .eq => some fun j => if j = 0 then [.mapKey, .eq, .hash] else [.state, tr]
    | .hash | .mapKey => none
  | .msg d => (((P d).blocks d).find? fun b => b.of = some tr).map fun b => (P d).bounds b.bounds

/-- How many arguments.
(Those with an `impl` in `steit/src/impls/*.rs`, `steit/src/types/**/*.rs`, or derived, `steit-derive/src/derive/derive.rs:167-216`.) -/
def Con.arity (P : D → Decl D) : Con D → Nat
  | .prim _ => 0
  | .vec | .array _ | .option | .box | .list => 1
  | .tuple n => n
  | .hashMap | .map => 2
  | .msg d => (P d).params.length

/-- The type implements the trait, for type parameters of which the given is known.
(The `impl`s cited at `Prim.has` and `Con.asks`, and `steit-derive/src/impl.rs:26-55`.) -/
inductive Holds (P : D → Decl D) (env : Env) : Trait → Exp D → Prop
  | bound {p bs b tr} : (p, bs) ∈ env → b ∈ bs → tr ∈ b.closure → Holds P env tr (.param p)
  | impl {tr c args asks} : c.asks P tr = some asks → args.length = c.arity P →
    (∀ j a, args.get? j = some a → ∀ b ∈ asks j, Holds P env b a) → Holds P env tr (.app c args)

/-- What the declaration of a type asks of its arguments: `List<T: State>` (`steit/src/types/list.rs:21`), `Map<K: MapKey, V: State>`
(`steit/src/types/map/map.rs:22`), and bounds written on messages. -/
def Con.wants (P : D → Decl D) : Con D → Nat → List Trait
  | .list, _ => [.state]
  | .map, j => if j = 0 then [.mapKey] else [.state]
  | .msg d, j => (P d).bounds [] j
  | _, _ => []

/-- The type exists. (`steit/src/types/list.rs:21`, `steit/src/types/map/map.rs:22`.) -/
inductive Exists (P : D → Decl D) (env : Env) : Exp D → Prop
  | param {p bs} : (p, bs) ∈ env → Exists P env (.param p)
  | app {c args} : args.length = c.arity P →
    (∀ j a, args.get? j = some a → ∀ b ∈ c.wants P j, Holds P env b a) →
    (∀ j a, args.get? j = some a → Exists P env a) → Exists P env (.app c args)

/-! ## What the compiler checks -/

/-- Something asked for is there. Constructors are in an `impl` block with bounds of its own. (A user may have written `new`; this is not
modelled.) (Code made by `steit-derive/src/derive/struct.rs:218-559`, `steit-derive/src/derive/enum.rs:92-514`.) -/
def Need.Met (P : D → Decl D) (d : D) (env : Env) : Need D → Prop
  | .impl tr t => Holds P env tr t
  | .ctor => (P d).request.hasCtors = true ∧
    ∀ b ∈ (P d).ctors.bounds, ∀ p ∈ (P d).params, Holds P env b (.param p.1)

/-- An `impl` block compiles: what its code asks for is there, and `Self` implements the supertraits. (`steit-derive/src/impl.rs:18-65`.) -/
structure Block.Compiles (P : D → Decl D) (d : D) (b : Block D) : Prop where
  needs : ∀ n ∈ b.needs, n.Met P d ((P d).env b.bounds)
  supers : ∀ tr, b.of = some tr → ∀ tr' ∈ tr.supers, Holds P ((P d).env b.bounds) tr' ((P d).self d)

/-- The declaration and what is derived for it compile. (`steit-derive/src/derive/derive.rs:167-216`.) -/
structure Compiles (P : D → Decl D) (d : D) : Prop where
  names : ((P d).params.map (·.1)).Nodup
  types : ∀ f ∈ (P d).body.fields, Exists P ((P d).env []) f.ty
  blocks : ∀ b ∈ (P d).blocks d, b.Compiles P d

/-! ## Programs as written -/

open Steit.Gen

/-- The primitive type of a name; other names do not occur.
(Names of types with an `impl` in `steit/src/impls/varint.rs:71-74,126-129`, `steit/src/impls/bool.rs:9-38`, `steit/src/impls/string.rs:9-30`, `steit/src/types/bytes.rs:17-65`.) -/
def primNamed : String → Prim
  | "u8" => .u8
  | "u16" => .u16
  | "u32" => .u32
  | "u64" => .u64
  | "i8" => .i8
  | "i16" => .i16
  | "i32" => .i32
  | "i64" => .i64
  | "bool" => .bool
  | "String" => .string
  | _ => .bytes

mutual
/-- The type of a field. References are left out, as in `Written.resolve`. Metadata of an alias mentions the alias only
(`steit-derive/src/derive/field.rs:493`); here it is the type it stands for. -/
def _root_.Steit.Gen.Written.exp : Written D → Exp D
  | .param p => .param p
  | .prim r _ _ => .app (.prim (primNamed r)) .nil
  | .bytes => .app (.prim .bytes) .nil
  | .paren t => t.exp
  | .array n t => .app (.array n) (.cons t.exp .nil)
  | .vec t => .app .vec (.cons t.exp .nil)
  | .option t => .app .option (.cons t.exp .nil)
  | .box t => .app .box (.cons t.exp .nil)
  | .list t => .app .list (.cons t.exp .nil)
  | .map r _ _ t => .app .map (.cons (.app (.prim (primNamed r)) .nil) (.cons t.exp .nil))
  | .msg d args => .app (.msg d) args.exps
  | .alias t => t.exp

/-- See `Written.exp`. (`steit-derive/src/derive/field.rs:427-538`.) -/
def _root_.Steit.Gen.WrittenArgs.exps : WrittenArgs D → Exps D
  | .nil => .nil
  | .cons t ts => .cons t.exp ts.exps
end

mutual
/-- A message with its arguments. (`steit-derive/src/derive/field.rs:427-538`.) -/
def instExp : Inst D → Exp D
  | .mk d args => .app (.msg d) (rtyExps args)

/-- A type without parameters. (`steit-derive/src/derive/field.rs:427-538`.) -/
def rtyExp : RTy (Inst D) → Exp D
  | .prim r _ _ => .app (.prim (primNamed r)) .nil
  | .bytes => .app (.prim .bytes) .nil
  | .array n t => .app (.array n) (.cons (rtyExp t) .nil)
  | .vec t => .app .vec (.cons (rtyExp t) .nil)
  | .option t => .app .option (.cons (rtyExp t) .nil)
  | .box t => .app .box (.cons (rtyExp t) .nil)
  | .list t => .app .list (.cons (rtyExp t) .nil)
  | .map r t => .app .map (.cons (.app (.prim (primNamed r)) .nil) (.cons (rtyExp t) .nil))
  | .msg m => instExp m

/-- Types without parameters. (`steit-derive/src/derive/field.rs:427-538`.) -/
def rtyExps : List (RTy (Inst D)) → Exps D
  | [] => .nil
  | t :: ts => .cons (rtyExp t) (rtyExps ts)
end

/-- A field, `FieldAttrs::parse` (`steit-derive/src/derive/field.rs:29-73`). -/
def _root_.Steit.Gen.SrcField.bounded (f : SrcField D) : Field D :=
  let p := Derive.parseRaw Derive.fieldTable true f.attrs
  ⟨f.ty.exp, p.flag "no_state", p.flag "no_hash", p.flag "no_eq_hash"⟩

/-- `DeriveSetting::parse`, `steit-derive/src/derive/derive.rs:42-148`. -/
def _root_.Steit.Gen.Src.request (s : Src D) : Request :=
  let args := Derive.parseAttrs Derive.argTable false s.args []
  let attrs := Derive.parseRaw Derive.settingTable false s.attrs
  { serialize := args.flag "Serialize", deserialize := args.flag "Deserialize", state := args.flag "State",
    partialEq := args.flag "PartialEq", default := args.flag "Default", hash := args.flag "Hash",
    eq := s.args.any fun | .attr (.path "Eq") => true | _ => false,
    deriveCtors := attrs.flag "derive_ctors", deriveSetters := attrs.flag "derive_setters", noMeta := attrs.flag "no_meta" }

/-- A declaration as written, with the bounds written for its type parameters. (`steit-derive/src/derive/derive.rs:167-216`.) -/
def _root_.Steit.Gen.Src.bounded (s : Src D) (bounds : String → List Trait) : Decl D where
  request := s.request
  params := s.params.map fun p => (p, bounds p)
  body := match s.body with
    | .struct fields => .struct (fields.map (·.bounded))
    | .enum variants => .enum (variants.map fun v => v.fields.map (·.bounded))

/-- A program as written. (`steit-derive/src/derive/derive.rs:167-216`.) -/
def bounded (P : D → Src D) (bounds : D → String → List Trait) (d : D) : Decl D := (P d).bounded (bounds d)

end Steit.Bounds
