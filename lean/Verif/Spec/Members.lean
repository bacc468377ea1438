import Verif.Spec.Tables

/-!
# Declarations in generated classes

A reader of C# source that lists what is declared: classes, constructors, methods, properties, constants and events, each with the
indentation of its line, by which members belong to classes. And the rules of C# on names of members: within a class no two members have the
same name, none has the name of the class or of one of its type parameters, and constructors have the name of the class (compiler errors
CS0102 and CS0111, CS0542, CS1520).
-/

namespace Steit.Gen.Spec

/-- Kinds of declarations. Constants and events are fields. -/
inductive Kind
  | cls
  | ctor
  | method
  | property
  | field
  deriving DecidableEq

/-- A declaration. The type is all between access and name, modifiers included. -/
structure Decl where
  access : Text
  kind : Kind
  type : Text
  name : Text
  deriving DecidableEq

/-- All before the last word, and the last word. -/
def lastWord? (t : Text) : Option (Text × Text) :=
  (after? [' '] (upTo ' ' t.reverse).2).map fun u => (u.reverse, (upTo ' ' t.reverse).1.reverse)

/-- The text up to an opening bracket, and from there on. -/
def upToBracket (t : Text) : Text × Text :=
  (t.takeWhile fun c => c != '(' && c != '{', t.dropWhile fun c => c != '(' && c != '{')

/-- A name without type parameters. -/
def bare (t : Text) : Text := (upTo '<' t).1

/-- `‹type› ‹name›(…` is a method, `‹name›(…` a constructor, `‹type› ‹name› {…` a property, `‹type› ‹name›;` and
`‹type› ‹name› = ‹value›;` are fields. -/
def declared? (access t : Text) : Option Decl :=
  match (upToBracket t).2 with
  | '(' :: _ =>
    match lastWord? (upToBracket t).1 with
    | none => some ⟨access, .ctor, [], (upToBracket t).1⟩
    | some (type, name) => some ⟨access, .method, type, bare name⟩
  | '{' :: _ => ((before? [' '] (upToBracket t).1).bind lastWord?).map fun (type, name) => ⟨access, .property, type, name⟩
  | _ => ((before? [';'] t).bind lastWord?).bind fun (u, name) =>
    match before? (lit! " =") u with
    | none => some ⟨access, .field, u, name⟩
    | some u => (lastWord? u).map fun (type, name) => ⟨access, .field, type, name⟩

/-- The declaration in a line. -/
def decl? (l : Text) : Option Decl :=
  match class? l with
  | some (name, _) => some ⟨lit! "public", .cls, [], name⟩
  | none =>
    match after? (lit! "public ") l, after? (lit! "private ") l, after? (lit! "internal ") l with
    | some t, _, _ => declared? (lit! "public") t
    | none, some t, _ => declared? (lit! "private") t
    | none, none, some t => declared? (lit! "internal") t
    | none, none, none => none

/-- The indentation of a line. -/
def indentation (l : Text) : Nat := (l.takeWhile fun c => c == ' ').length

/-- The declaration in a line, and its indentation. -/
def declLine (l : Text) : Option (Nat × Decl) := (decl? (unindented l)).map fun d => (indentation l, d)

/-- What a text declares. -/
def outline (t : Text) : List (Nat × Decl) := (linesOf t).filterMap declLine

/-! ## Rules of C# -/

/-- The members among declarations following that of a class with an indentation. -/
def membersAfter (n : Nat) (ds : List (Nat × Decl)) : List Decl :=
  ((ds.takeWhile fun d => n < d.1).filter fun d => d.1 == n + 4).map Prod.snd

/-- The texts between commas. -/
def commaParts : Text → List Text
  | [] => [[]]
  | c :: cs =>
    if c = ',' then [] :: commaParts cs
    else match commaParts cs with
      | [] => [[c]]
      | p :: ps => (c :: p) :: ps

/-- The type parameters in `‹name›<‹params›>`. -/
def paramsOf (t : Text) : List Text :=
  match between? ['<'] ['>'] (upTo '<' t).2 with
  | none => []
  | some ps => (commaParts ps).map unindented

/-- Names of members. -/
def memberNames (ds : List Decl) : List Text := (ds.filter fun d => d.kind != .ctor).map fun d => bare d.name

/-- A class, given by its name with type parameters, obeys the rules on names. -/
structure Clean (cls : Text) (ds : List Decl) : Prop where
  once : (memberNames ds).Nodup
  notClass : bare cls ∉ memberNames ds
  notParam : ∀ p ∈ paramsOf cls, p ∉ memberNames ds
  ctor : ∀ d ∈ ds, d.kind = .ctor → d.name = bare cls

/-- Every class of a file obeys the rules on names. -/
def CleanFile (t : Text) : Prop := ∀ pre n d post, outline t = pre ++ (n, d) :: post → d.kind = .cls → Clean d.name (membersAfter n post)

/-! ## What generated files ought to declare -/

/-- The event of a property. -/
def eventName (x : Text) : Text := lit! "On" ++ (x ++ lit! "Update")

/-- The method that clears the handlers of an event. -/
def clearName (x : Text) : Text := lit! "Clear" ++ (x ++ lit! "UpdateHandlers")

/-- Methods in classes of structs, variants and enums after `ClearUpdateHandlers`. -/
def commonMethods (access cls : Text) : List Decl :=
  [⟨access, .method, lit! "static " ++ cls, lit! "Deserialize"⟩, ⟨lit! "public", .method, lit! "WireType?", lit! "GetWireType"⟩,
    ⟨lit! "public", .method, lit! "IState", lit! "GetNested"⟩, ⟨lit! "public", .method, lit! "void", lit! "ReplaceAt"⟩,
    ⟨lit! "public", .method, lit! "void", lit! "ReplayListPush"⟩, ⟨lit! "public", .method, lit! "void", lit! "ReplayListPop"⟩,
    ⟨lit! "public", .method, lit! "void", lit! "ReplayMapRemove"⟩]

/-- The members of the class of a struct or variant, given the types and names of its properties. Each property has an event telling of
updates, of the type of the property and for the class, and a method that clears its handlers. Constructor and `Deserialize` of variants
are for the enum only. -/
def structMembers (access cls : Text) (props : List (Text × Text)) : List Decl :=
  [⟨lit! "public", .property, lit! "Path", lit! "Path"⟩] ++
  props.map (fun (t, x) => ⟨lit! "public", .property, t, x⟩) ++
  [⟨access, .ctor, [], bare cls⟩] ++
  props.map (fun (t, x) => ⟨lit! "public", .field, lit! "static event EventHandler<FieldUpdateEventArgs<" ++ (t ++ (lit! ", " ++
    (cls ++ lit! ">>"))), eventName x⟩) ++
  props.map (fun (_, x) => ⟨lit! "public", .method, lit! "static void", clearName x⟩) ++
  [⟨lit! "public", .method, lit! "static void", lit! "ClearUpdateHandlers"⟩] ++ commonMethods access cls ++
  [⟨lit! "private", .method, lit! "TValue", lit! "MaybeNotify"⟩]

/-- The members of the class of an enum, given its variants by the names of their classes and these names in camel case. -/
def enumMembers (cls : Text) (vs : List (Text × Text)) : List Decl :=
  vs.map (fun (_, c) => ⟨lit! "public", .field, lit! "const UInt32", c ++ lit! "Tag"⟩) ++
  [⟨lit! "public", .property, lit! "Path", lit! "Path"⟩, ⟨lit! "public", .property, lit! "UInt32", lit! "Tag"⟩,
    ⟨lit! "public", .property, lit! "IState", lit! "Variant"⟩] ++
  vs.map (fun (p, _) => ⟨lit! "public", .property, p, p ++ lit! "Variant"⟩) ++
  [⟨lit! "public", .ctor, [], bare cls⟩, ⟨lit! "public", .ctor, [], bare cls⟩] ++
  vs.map (fun (_, c) => ⟨lit! "public", .method, lit! "static " ++ bare cls, lit! "New" ++ c⟩) ++
  [⟨lit! "public", .field, lit! "static event EventHandler<VariantUpdateEventArgs<" ++ (cls ++ lit! ">>"), lit! "OnUpdate"⟩,
    ⟨lit! "public", .method, lit! "static void", lit! "ClearUpdateHandlers"⟩] ++ commonMethods (lit! "public") cls ++
  [⟨lit! "private", .method, lit! "void", lit! "UpdateAndNotify"⟩]

/-- The name of the property of a field. -/
def propName (cm : CaseMap) (f : FieldMeta) : Text := toCamelCase cm f.name.csharpName.toList true

/-- A variant: the name of its class, and this name in camel case. -/
def variantName (cm : CaseMap) (v : VariantMeta) : Text × Text :=
  (v.ty.name.csharpName.toList, toCamelCase cm v.ty.name.csharpName.toList true)

/-- What the class of a variant declares. -/
def variantOutline (v : VariantMeta) (c : Class) : List (Nat × Decl) :=
  (8, ⟨lit! "public", .cls, [], v.ty.name.csharpName.toList⟩) ::
    (structMembers (lit! "internal") v.ty.name.csharpName.toList c.props).map fun d => (12, d)

/-! ## Names that fit -/

/-- Characters of identifiers, among those of names. -/
def IsIdent (t : Text) : Prop := IsName t ∧ '<' ∉ t ∧ '>' ∉ t ∧ ',' ∉ t

instance (t : Text) : Decidable (IsIdent t) := inferInstanceAs (Decidable (_ ∧ _))

/-- The names in the class of a struct are identifiers. -/
structure IdentStruct (cm : CaseMap) (s : StructMeta) : Prop where
  name : IsIdent s.name.csharpName.toList
  params : ∀ p ∈ s.typeParams, IsIdent p.toList
  props : ∀ f ∈ s.fields, IsIdent (propName cm f)

/-- The names in the classes of an enum are identifiers. -/
structure IdentEnum (cm : CaseMap) (e : EnumMeta) : Prop where
  name : IsIdent e.name.csharpName.toList
  params : ∀ p ∈ e.typeParams, IsIdent p.toList
  variants : ∀ v ∈ e.variants, IsIdent (variantName cm v).1 ∧ IsIdent (variantName cm v).2 ∧ ∀ f ∈ v.ty.fields, IsIdent (propName cm f)

/-- Names of members in both kinds of classes. -/
def commonNames : List Text :=
  [lit! "ClearUpdateHandlers", lit! "Deserialize", lit! "GetWireType", lit! "GetNested", lit! "ReplaceAt", lit! "ReplayListPush",
    lit! "ReplayListPop", lit! "ReplayMapRemove"]

/-- Names of members in all classes of structs and variants. -/
def structReserved : List Text := [lit! "Path", lit! "MaybeNotify"] ++ commonNames

/-- Names of members in all classes of enums. -/
def enumReserved : List Text := [lit! "Path", lit! "Tag", lit! "Variant", lit! "OnUpdate", lit! "UpdateAndNotify"] ++ commonNames

/-- Names of properties fit into a class: they are distinct; none is empty, reserved, the name of an event or of a method for an event; and
neither the class nor a type parameter is named like a property, its event, the method for it, or reserved. -/
structure StructFits (cls : Text) (params : List Text) (xs : List Text) : Prop where
  distinct : xs.Nodup
  free : ∀ x ∈ xs, x ≠ [] ∧ x ∉ structReserved ∧ ∀ y ∈ xs, x ≠ eventName y ∧ x ≠ clearName y
  outer : ∀ n ∈ cls :: params, n ∉ structReserved ∧ ∀ x ∈ xs, n ≠ x ∧ n ≠ eventName x ∧ n ≠ clearName x

/-- Names of variants, as they are (`ps`) and in camel case (`cs`), fit into the class of an enum: they are distinct, not empty, not
reserved, and apart from what is named after them (constants, properties, static methods), as these are from each other; and neither the
class nor a type parameter is named like any of these. -/
structure EnumFits (cls : Text) (params ps cs : List Text) : Prop where
  distinct : ps.Nodup ∧ cs.Nodup
  free : (∀ p ∈ ps, p ≠ [] ∧ p ∉ enumReserved) ∧ ∀ c ∈ cs, c ≠ []
  apart : (∀ p ∈ ps, ∀ c ∈ cs, p ≠ c ++ lit! "Tag" ∧ p ≠ lit! "New" ++ c ∧ lit! "New" ++ c ≠ p ++ lit! "Variant") ∧
    (∀ p ∈ ps, ∀ q ∈ ps, p ≠ q ++ lit! "Variant") ∧ ∀ c ∈ cs, ∀ d ∈ cs, lit! "New" ++ c ≠ d ++ lit! "Tag"
  outer : ∀ n ∈ cls :: params, n ∉ enumReserved ∧ (∀ p ∈ ps, n ≠ p ∧ n ≠ p ++ lit! "Variant") ∧
    ∀ c ∈ cs, n ≠ c ++ lit! "Tag" ∧ n ≠ lit! "New" ++ c

end Steit.Gen.Spec
