import Verif.Model.WireFmt

/-!
# Metadata and the collection of messages for code generation

`steit/src/meta/*.rs` (what a type says about itself) and `steit/src/gen/gen_util.rs` (collecting all messages a type refers to).
-/

namespace Steit.Gen

/-- `NameMeta`, `steit/src/meta/name.rs:1-5`. -/
structure NameMeta where
  rust : String
  csharp : Option String
  deriving DecidableEq

/-- `NameMeta::csharp` before the transformation, `steit/src/meta/name.rs:15-20`. -/
def NameMeta.csharpName (n : NameMeta) : String := n.csharp.getD n.rust

mutual
/-- `TypeMeta`, `steit/src/meta/type.rs:11-16`. -/
inductive TypeMeta
  | primitive (name : NameMeta) (wire : WireType)
  | ref (name : NameMeta) (args : TypeArgs)
  deriving DecidableEq

/-- `FieldTypeMeta`, `steit/src/meta/type.rs:5-9`. -/
inductive FieldTypeMeta
  | type (t : TypeMeta)
  | typeParam (name : String)
  deriving DecidableEq

/-- Type arguments. (`steit/src/meta/type.rs:6-16`.) -/
inductive TypeArgs
  | nil
  | cons (t : FieldTypeMeta) (ts : TypeArgs)
  deriving DecidableEq
end

/-- `FieldMeta`, `steit/src/meta/msg.rs:61-65`. -/
structure FieldMeta where
  name : NameMeta
  ty : FieldTypeMeta
  tag : U32
  deriving DecidableEq

/-- `StructMeta`, `steit/src/meta/msg.rs:33-38`. -/
structure StructMeta where
  name : NameMeta
  typeParams : List String
  fields : List FieldMeta
  builtin : Bool
  deriving DecidableEq

/-- `VariantMeta`, `steit/src/meta/msg.rs:50-54`. -/
structure VariantMeta where
  ty : StructMeta
  tag : U32
  deriving DecidableEq

/-- `EnumMeta`, `steit/src/meta/msg.rs:41-46`. -/
structure EnumMeta where
  name : NameMeta
  typeParams : List String
  variants : List VariantMeta
  builtin : Bool
  deriving DecidableEq

/-- `MessageMeta`, `steit/src/meta/msg.rs:3-7`. -/
inductive MessageMeta
  | struct (s : StructMeta)
  | enum (e : EnumMeta)
  deriving DecidableEq

/-- The name of a message. (`steit/src/meta/msg.rs:9-22`.) -/
def MessageMeta.name : MessageMeta → NameMeta
  | .struct s => s.name
  | .enum e => e.name

/-- `rust_name`, `steit/src/meta/msg.rs:10-15`. -/
def MessageMeta.rustName (m : MessageMeta) : String := m.name.rust

/-- `csharp_name`, `steit/src/meta/msg.rs:17-22`. -/
def MessageMeta.csharpName (m : MessageMeta) : String := m.name.csharpName

/-- `is_builtin`, `steit/src/meta/msg.rs:24-29`. -/
def MessageMeta.isBuiltin : MessageMeta → Bool
  | .struct s => s.builtin
  | .enum e => e.builtin

/-! ## Type graphs -/

/-- `MetaLink`s, `steit/src/meta/meta.rs:3-7`: nodes with a type, maybe a message, and links. -/
structure Graph (ν : Type) where
  type : ν → TypeMeta
  msg : ν → Option MessageMeta
  links : ν → List ν

/-- `visited_types` and `collected_msgs`; the `HashMap` is a list of entries with distinct keys. (`steit/src/gen/gen_util.rs:5-31`.) -/
structure Visit where
  visited : List TypeMeta
  collected : List (String × MessageMeta)

/-- `collected_msgs.entry(name).or_insert(msg)`. (`steit/src/gen/gen_util.rs:5-31`.) -/
def orInsert (col : List (String × MessageMeta)) (name : String) (m : MessageMeta) : List (String × MessageMeta) :=
  if name ∈ col.map (·.1) then col else col ++ [(name, m)]

/-- The first part of `visit_link`, `steit/src/gen/gen_util.rs:20-22`. -/
def collectMsg (getName : MessageMeta → String) (msg : Option MessageMeta) (s : Visit) : Visit :=
  match msg with
  | some m => { s with collected := orInsert s.collected (getName m) m }
  | none => s

/-- A loop over links, with the function called for each. (`steit/src/gen/gen_util.rs:5-31`.) -/
def visitAll {ν : Type} (visit : ν → Visit → Option Visit) : List ν → Visit → Option Visit
  | [], s => some s
  | n :: ns, s =>
    match visit n s with
    | none => none
    | some s => visitAll visit ns s

/-- `visit_link`, `steit/src/gen/gen_util.rs:14-31`. The first number bounds the depth of recursion; `none` when it is too small
(the Rust function would still be running). -/
def visit {ν : Type} (G : Graph ν) (getName : MessageMeta → String) : Nat → ν → Visit → Option Visit
  | 0, _, _ => none
  | fuel + 1, n, s =>
    let s := collectMsg getName (G.msg n) s
    if G.type n ∈ s.visited then some s
    else visitAll (visit G getName fuel) (G.links n) { s with visited := G.type n :: s.visited }

/-- `collect_meta`, `steit/src/gen/gen_util.rs:5-12`. -/
def collectMeta {ν : Type} (G : Graph ν) (getName : MessageMeta → String) (fuel : Nat) (root : ν) :
    Option (List (String × MessageMeta)) :=
  (visit G getName fuel root ⟨[], []⟩).map (·.collected)

/-- The messages `generate` writes files for, `steit/src/gen/generator.rs:28-35`, in the order of the map. -/
def toGenerate (skipBuiltins : Bool) (skipNames : List String) (col : List (String × MessageMeta)) : List (String × MessageMeta) :=
  col.filter fun e => !(e.2.isBuiltin && skipBuiltins) && decide (e.1 ∉ skipNames)

/-! ## Links of Rust types -/

/-- Types with metadata. `M` stands for the (instances of) messages of a program. (`steit/src/meta/meta.rs:9-13`.) -/
inductive RTy (M : Type)
  | prim (rust csharp : String) (wire : WireType)
  | bytes
  | vec (t : RTy M)
  | array (len : Nat) (t : RTy M)
  | option (t : RTy M)
  | box (t : RTy M)
  | list (t : RTy M)
  | map (key : String) (t : RTy M)
  | msg (m : M)

/-- The messages of a program: `NAME`, type arguments (as `TYPE`s), metadata, and the types of all their fields
(`steit-derive/src/derive/struct.rs:516-556`, `enum.rs:455-515`). -/
structure Program (M : Type) where
  name : M → NameMeta
  args : M → List TypeMeta
  message : M → MessageMeta
  fields : M → List (RTy M)

/-- Type arguments that are types. (`steit/src/meta/type.rs:6-16`.) -/
def TypeArgs.ofList : List TypeMeta → TypeArgs
  | [] => .nil
  | t :: ts => .cons (.type t) (.ofList ts)

/-- `T::TYPE`: `steit/src/impls/macros.rs:103-104` (primitives), `types/bytes.rs:68`, `impls/vec.rs:56`, `impls/array.rs:64-65` (arrays
are named like vectors), `impls/option.rs:57`, `impls/box.rs:67` (the type of the content), `types/list.rs:267`, `types/map/map.rs:280`
(keys are left out), `steit-derive/src/derive/struct.rs:549`, `enum.rs:499`. -/
def RTy.type {M : Type} (P : Program M) : RTy M → TypeMeta
  | .prim rust csharp wire => .primitive ⟨rust, some csharp⟩ wire
  | .bytes => .ref ⟨"Bytes", none⟩ .nil
  | .vec t => .ref ⟨"Vec", some "Vector"⟩ (.ofList [t.type P])
  | .array _ t => .ref ⟨"Vec", some "Vector"⟩ (.ofList [t.type P])
  | .option t => .ref ⟨"Option", some "Option"⟩ (.ofList [t.type P])
  | .box t => t.type P
  | .list t => .ref ⟨"List", some "StateList"⟩ (.ofList [t.type P])
  | .map _ t => .ref ⟨"Map", some "StateMap"⟩ (.ofList [t.type P])
  | .msg m => .ref (P.name m) (.ofList (P.args m))

/-- `T::LINK` for all types of a program. (`steit/src/meta/meta.rs:9-13`.) -/
def Program.graph {M : Type} (P : Program M) : Graph (RTy M) where
  type := RTy.type P
  msg
    | .msg m => some (P.message m)
    | _ => none
  links
    | .prim _ _ _ => []
    | .bytes => []
    | .vec t => [t]
    | .array _ t => [t]
    | .option t => [t]
    | .box t => [t]
    | .list t => [t]
    | .map _ t => [t]
    | .msg m => P.fields m

end Steit.Gen
