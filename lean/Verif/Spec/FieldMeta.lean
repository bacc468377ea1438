import Verif.Model.FieldMeta
import Verif.Spec.Graph
import Verif.Spec.Tables

/-!
# C# types, and what the names in them stand for
-/

namespace Steit.Gen.Spec

variable {D : Type}

/-- What a name of a type can stand for. -/
inductive Meaning (D : Type)
  | param (p : String)
  /-- a class of the namespace `System` -/
  | system (n : String)
  /-- a class of the client library -/
  | library (n : String)
  | message (d : D)

mutual
/-- A C# type: what it is an instance of, and type arguments. -/
inductive CsType (D : Type)
  | mk (what : Meaning D) (args : CsTypes D)

/-- Type arguments. -/
inductive CsTypes (D : Type)
  | nil
  | cons (t : CsType D) (ts : CsTypes D)
end

/-- How many. -/
def CsTypes.length : CsTypes D → Nat
  | .nil => 0
  | .cons _ ts => ts.length + 1

/-- The name to write. -/
def Meaning.text (name : D → NameMeta) : Meaning D → Text
  | .param p => p.toList
  | .system n => n.toList
  | .library n => n.toList
  | .message d => (name d).csharpName.toList

mutual
/-- `Name<Arg, Arg>`. -/
def CsType.show (name : D → NameMeta) : CsType D → Text
  | .mk what .nil => what.text name
  | .mk what (.cons t ts) => what.text name ++ '<' :: (t.show name ++ ts.showRest name) ++ ['>']

/-- See `CsType.show`. -/
def CsTypes.showRest (name : D → NameMeta) : CsTypes D → Text
  | .nil => []
  | .cons t ts => ',' :: ' ' :: (t.show name ++ ts.showRest name)
end

mutual
/-- The C# type for a Rust type as written: boxes are dropped, maps have no keys (they are `UInt32`), arrays are vectors. -/
def mirror : Written D → CsType D
  | .param p => .mk (.param p) .nil
  | .prim _ csharp _ => .mk (.system csharp) .nil
  | .bytes => .mk (.library "Bytes") .nil
  | .paren t => mirror t
  | .array _ t => .mk (.library "Vector") (.cons (mirror t) .nil)
  | .vec t => .mk (.library "Vector") (.cons (mirror t) .nil)
  | .option t => .mk (.library "Option") (.cons (mirror t) .nil)
  | .box t => mirror t
  | .list t => .mk (.library "StateList") (.cons (mirror t) .nil)
  | .map _ _ _ t => .mk (.library "StateMap") (.cons (mirror t) .nil)
  | .msg d args => .mk (.message d) (mirrors args)
  | .alias t => mirror t

/-- See `mirror`. -/
def mirrors : WrittenArgs D → CsTypes D
  | .nil => .nil
  | .cons t ts => .cons (mirror t) (mirrors ts)
end

/-! ## Where names are found -/

/-- The classes of `System` that stand for primitive types. -/
def systemNames : List String :=
  ["Byte", "UInt16", "UInt32", "UInt64", "SByte", "Int16", "Int32", "Int64", "Boolean", "String"]

/-- The generic and other classes of the client library that fields can have (`steit-csharp/src/Builtins`, `Collections`), with the
numbers of their type parameters. -/
def libraryClasses : List (String × Nat) := [("Bytes", 0), ("Vector", 1), ("Option", 1), ("StateList", 1), ("StateMap", 1)]

/-- Names around the body of a class: type parameters of the class around, classes nested in it (variants), messages of the namespace.
`System` and the library come last (they are imported). -/
structure Scope (D : Type) where
  params : List String
  nested : List Text
  messages : D → Prop

/-- Looking up a name in a scope finds what is meant. C# looks first among the type parameters, then among nested classes, then
in the namespace, then among what is imported; two messages of the same name do not compile. -/
def Finds (name : D → NameMeta) (s : Scope D) (x : Text) : Meaning D → Prop
  | .param p => x = p.toList ∧ p ∈ s.params
  | .message d => x = (name d).csharpName.toList ∧ x ∉ s.params.map String.toList ∧ x ∉ s.nested ∧ s.messages d ∧
      ∀ d', s.messages d' → (name d').csharpName.toList = x → d' = d
  | .system n => x = n.toList ∧ n ∈ systemNames ∧ x ∉ s.params.map String.toList ∧ x ∉ s.nested ∧
      ∀ d', s.messages d' → (name d').csharpName.toList ≠ x
  | .library n => x = n.toList ∧ n ∈ libraryClasses.map (·.1) ∧ x ∉ s.params.map String.toList ∧ x ∉ s.nested ∧
      ∀ d', s.messages d' → (name d').csharpName.toList ≠ x

/-- The number of type parameters. -/
def Meaning.arity (params : D → List String) : Meaning D → Nat
  | .param _ => 0
  | .system _ => 0
  | .library n => (libraryClasses.lookup n).getD 0
  | .message d => (params d).length

mutual
/-- Every name in a type is found, stands for what is meant, and has as many arguments as parameters. -/
def Sound (S : Declarations D) (s : Scope D) : CsType D → Prop
  | .mk what args => Finds S.name s (what.text S.name) what ∧ args.length = what.arity S.params ∧ SoundAll S s args

/-- See `Sound`. -/
def SoundAll (S : Declarations D) (s : Scope D) : CsTypes D → Prop
  | .nil => True
  | .cons t ts => Sound S s t ∧ SoundAll S s ts
end

/-! ## Declarations that compile in Rust -/

mutual
/-- No map behind an alias (`C49_map_behind_alias`). -/
def NoMap : Written D → Prop
  | .paren t | .array _ t | .vec t | .option t | .box t | .list t | .alias t => NoMap t
  | .map _ _ _ _ => False
  | .msg _ args => NoMaps args
  | _ => True

/-- See `NoMap`. -/
def NoMaps : WrittenArgs D → Prop
  | .nil => True
  | .cons t ts => NoMap t ∧ NoMaps ts
end

/-- How many arguments. -/
def _root_.Steit.Gen.WrittenArgs.length : WrittenArgs D → Nat
  | .nil => 0
  | .cons _ ts => ts.length + 1

mutual
/-- A type that may be written where there are type parameters `ps`: only these are used, primitives are those of the library, messages
have as many arguments as parameters. And there is no map behind an alias. -/
def Proper (S : Declarations D) (ps : List String) : Written D → Prop
  | .param p => p ∈ ps
  | .prim _ csharp _ => csharp ∈ systemNames
  | .bytes => True
  | .paren t | .array _ t | .vec t | .option t | .box t | .list t => Proper S ps t
  | .map _ csharp _ t => csharp ∈ systemNames ∧ Proper S ps t
  | .msg d args => args.length = (S.params d).length ∧ ProperAll S ps args
  | .alias t => Proper S [] t ∧ NoMap t

/-- See `Proper`. -/
def ProperAll (S : Declarations D) (ps : List String) : WrittenArgs D → Prop
  | .nil => True
  | .cons t ts => Proper S ps t ∧ ProperAll S ps ts
end

mutual
/-- Messages a type mentions. -/
def Mentions (d : D) : Written D → Prop
  | .paren t | .array _ t | .vec t | .option t | .box t | .list t | .map _ _ _ t | .alias t => Mentions d t
  | .msg d' args => d' = d ∨ MentionsAny d args
  | _ => False

/-- See `Mentions`. -/
def MentionsAny (d : D) : WrittenArgs D → Prop
  | .nil => False
  | .cons t ts => Mentions d t ∨ MentionsAny d ts
end

/-- Names of nested classes. -/
def nestedNames : Body D → List Text
  | .struct _ => []
  | .enum variants => variants.map fun v => v.name.csharpName.toList

/-- Type parameters and variants are not named like messages the fields mention, nor like classes of `System` or the library. -/
structure Clear (S : Declarations D) (d : D) : Prop where
  free : ∀ x ∈ (S.params d).map String.toList ++ nestedNames (S.body d),
    x ∉ systemNames.map String.toList ∧ x ∉ libraryClasses.map (·.1.toList)
  distinct : ∀ x ∈ (S.params d).map String.toList ++ nestedNames (S.body d), ∀ f ∈ (S.body d).fields, ∀ d', Mentions d' f.ty →
    (S.name d').csharpName.toList ≠ x

/-- Messages reachable from a type. -/
def InReach (S : Declarations D) (root : RTy (Inst D)) (d : D) : Prop :=
  ∃ m : Inst D, m.decl = d ∧ Reach S.program.graph.links root (.msg m)

/-- What is visible in the class of a message. -/
def scopeOf (S : Declarations D) (root : RTy (Inst D)) (d : D) : Scope D := ⟨S.params d, nestedNames (S.body d), InReach S root⟩

/-- Messages have names of their own: they differ in C#, and none is a name of `System`, of the library, or `Box`. -/
structure OwnNames (S : Declarations D) : Prop where
  distinct : ∀ d d', (S.name d).csharpName = (S.name d').csharpName → d = d'
  fresh : ∀ d, (S.name d).csharpName ∉ systemNames ∧ (S.name d).csharpName ∉ libraryClasses.map (·.1) ∧ (S.name d).csharpName ≠ "Box"

mutual
/-- `Occurs S p t`: a value of type `t` can hold a value of the type `p` stands for. -/
inductive Occurs (S : Declarations D) : String → Written D → Prop
  | param {p} : Occurs S p (.param p)
  | paren {p t} : Occurs S p t → Occurs S p (.paren t)
  | array {p n t} : Occurs S p t → Occurs S p (.array n t)
  | vec {p t} : Occurs S p t → Occurs S p (.vec t)
  | option {p t} : Occurs S p t → Occurs S p (.option t)
  | box {p t} : Occurs S p t → Occurs S p (.box t)
  | list {p t} : Occurs S p t → Occurs S p (.list t)
  | map {p r c w t} : Occurs S p t → Occurs S p (.map r c w t)
  | msg {p d args} : OccursArg S p d args (S.params d) → Occurs S p (.msg d args)

/-- In an argument for a parameter that is used. -/
inductive OccursArg (S : Declarations D) : String → D → WrittenArgs D → List String → Prop
  | head {p d t ts q qs} : Occurs S p t → Used S d q → OccursArg S p d (.cons t ts) (q :: qs)
  | tail {p d t ts q qs} : OccursArg S p d ts qs → OccursArg S p d (.cons t ts) (q :: qs)

/-- A type parameter is used by a field. Rust rejects declarations with others. -/
inductive Used (S : Declarations D) : D → String → Prop
  | field {d p f} : f ∈ (S.body d).fields → Occurs S p f.ty → Used S d p
end

/-- What the Rust compiler checks (and no maps behind aliases). -/
structure Compiles (S : Declarations D) : Prop where
  nodup : ∀ d, (S.params d).Nodup
  used : ∀ d, ∀ p ∈ S.params d, Used S d p
  proper : ∀ d, ∀ f ∈ (S.body d).fields, Proper S (S.params d) f.ty

mutual
/-- An instance with as many type arguments as its message has parameters. -/
def FitsInst (S : Declarations D) : Inst D → Prop
  | .mk d args => args.length = (S.params d).length ∧ FitsAll S args

/-- A type all of whose messages have as many type arguments as parameters. -/
def Fits (S : Declarations D) : RTy (Inst D) → Prop
  | .prim _ _ _ => True
  | .bytes => True
  | .vec t => Fits S t
  | .array _ t => Fits S t
  | .option t => Fits S t
  | .box t => Fits S t
  | .list t => Fits S t
  | .map _ t => Fits S t
  | .msg m => FitsInst S m

/-- See `Fits`. -/
def FitsAll (S : Declarations D) : List (RTy (Inst D)) → Prop
  | [] => True
  | t :: ts => Fits S t ∧ FitsAll S ts
end

/-- The Rust type, in the model of values, that a type as written can mean; for messages, any struct or enum. -/
def Means : Written D → Ty → Prop
  | .param _, _ => True
  | .prim r c w, t => primitiveMeta t = some (.primitive ⟨r, some c⟩ w)
  | .bytes, t => t = .bytes
  | .paren w, t => Means w t
  | .array n w, t => ∃ t', t = .array n t' ∧ Means w t'
  | .vec w, t => ∃ t', t = .vec t' ∧ Means w t'
  | .option w, t => ∃ t', t = .option t' ∧ Means w t'
  | .box w, t => ∃ t', t = .box t' ∧ Means w t'
  | .list w, t => ∃ t', t = .list t' ∧ Means w t'
  | .map _ _ _ w, t => ∃ k t', t = .map k t' ∧ Means w t'
  | .msg _ _, t => (∃ a b fs, t = .struct a b fs) ∨ ∃ a b fs vs, t = .enum a b fs vs
  | .alias w, t => Means w t

/-- A type parameter, maybe in parentheses. -/
def isParam : Written D → Bool
  | .param _ => true
  | .paren w => isParam w
  | _ => false

/-- A box behind an alias (`C49`: boxes of primitive types are known as such only there). -/
def AliasedBox : Written D → Prop
  | .paren w => AliasedBox w
  | .alias w => boxed w
  | _ => False
where
  boxed : Written D → Prop
    | .box _ => True
    | .paren w => boxed w
    | .alias w => boxed w
    | _ => False

end Steit.Gen.Spec
