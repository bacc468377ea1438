import Verif.Spec.CSharp
import Verif.Spec.Layout

/-!
# Reading generated classes

A reader of C# source that knows just enough to say, for each class of a generated file: its properties, what its constructor makes, and the
`switch` tables of `GetWireType`, `GetNested`, `ReplaceAt`, and of the constructor of an enum; and what these tables ought to say for a
given type. Shared with the model of the generator are only metadata; with the model of the C# client, nothing.
-/

namespace Steit.Gen.Spec

open Steit.Spec

/-! ## Text -/

/-- The lines of a text. -/
def linesOf : Text → List Text
  | [] => [[]]
  | c :: cs =>
    if c = '\n' then [] :: linesOf cs
    else match linesOf cs with
      | [] => [[c]]
      | l :: ls => (c :: l) :: ls

/-- A line without its indentation. -/
def unindented (l : Text) : Text := l.dropWhile fun c => c == ' '

/-- What follows a prefix. -/
def after? : Text → Text → Option Text
  | [], t => some t
  | _ :: _, [] => none
  | c :: p, d :: t => if c = d then after? p t else none

/-- What precedes a suffix. -/
def before? (s t : Text) : Option Text := (after? s.reverse t.reverse).map List.reverse

/-- What is between a prefix and a suffix. -/
def between? (p s t : Text) : Option Text := (after? p t).bind (before? s)

/-- The text up to a character, and from there on. -/
def upTo (c : Char) (t : Text) : Text × Text := (t.takeWhile fun x => x != c, t.dropWhile fun x => x != c)

/-- A number in decimal. -/
def number? (t : Text) : Option Nat :=
  if t ≠ [] ∧ t.all Char.isDigit = true then some (t.foldl (fun n c => 10 * n + (c.toNat - '0'.toNat)) 0) else none

/-! ## Classes -/

/-- A `switch (tag)`. -/
structure Switch where
  cases : List (Nat × Text)
  dflt : Option Text

/-- The statement chosen: of the (first) case with the number, of the default otherwise. -/
def Switch.at (s : Switch) (n : Nat) : Option Text := (s.cases.lookup n).or s.dflt

/-- What is made in a constructor: `this.‹prop› = ‹how›(this.Path.GetNested(‹tag›));`. -/
structure Made where
  prop : Text
  how : Text
  tag : Nat

/-- What is read off a class. -/
structure Class where
  name : Text
  /-- Is it an `IEnumState`? -/
  isEnum : Bool
  /-- Types and names of the properties with `{ get; private set; }`. -/
  props : List (Text × Text)
  made : List Made
  /-- The tag an enum has if none is given. -/
  start : Option Nat
  ctor : Switch
  wire : Switch
  nested : Switch
  replace : Switch

/-- Switches. -/
inductive Which
  | ctor
  | wire
  | nested
  | replace

/-- Another case. -/
def Switch.case (e : Nat × Text) (s : Switch) : Switch := { s with cases := s.cases ++ [e] }

/-- Its default. -/
def Switch.default (t : Text) (s : Switch) : Switch := { s with dflt := some t }

/-- Change a switch of a class. -/
def Class.change (w : Which) (f : Switch → Switch) (c : Class) : Class :=
  match w with
  | .ctor => { c with ctor := f c.ctor }
  | .wire => { c with wire := f c.wire }
  | .nested => { c with nested := f c.nested }
  | .replace => { c with replace := f c.replace }

/-- Where in a file a line is. -/
inductive Where
  | elsewhere
  /-- after the head of a method that may consist of a switch -/
  | head (w : Which)
  | inside (w : Which)

/-- What has been read of a file: the classes, the last one first. -/
structure Scan where
  here : Where
  classes : List Class

/-- Change the class being read. -/
def Scan.change (f : Class → Class) (s : Scan) : Scan :=
  match s.classes with
  | [] => s
  | c :: cs => { s with classes := f c :: cs }

/-- `case ‹n›: …` -/
def case? (l : Text) : Option (Nat × Text) :=
  (after? (lit! "case ") l).bind fun t =>
  (number? (upTo ':' t).1).bind fun n =>
  (after? (lit! ": ") (upTo ':' t).2).map fun s => (n, s)

/-- `public sealed partial class ‹name› : IState {`, or `IEnumState` -/
def class? (l : Text) : Option (Text × Bool) :=
  ((between? (lit! "public sealed partial class ") (lit! " : IState {") l).map fun name => (name, false)).or
    ((between? (lit! "public sealed partial class ") (lit! " : IEnumState {") l).map fun name => (name, true))

/-- `public ‹type› ‹name› { get; private set; }`; the name is the last word. -/
def prop? (l : Text) : Option (Text × Text) :=
  (between? (lit! "public ") (lit! " { get; private set; }") l).bind fun t =>
  (after? [' '] (upTo ' ' t.reverse).2).map fun type => (type.reverse, (upTo ' ' t.reverse).1.reverse)

/-- `this.‹prop› = ‹how›(this.Path.GetNested(‹n›));` -/
def made? (l : Text) : Option Made :=
  (between? (lit! "this.") (lit! "));") l).bind fun t =>
  (after? (lit! " = ") (upTo ' ' t).2).bind fun u =>
  (after? (lit! "(this.Path.GetNested(") (upTo '(' u).2).bind fun n =>
  (number? n).map fun n => ⟨(upTo ' ' t).1, (upTo '(' u).1, n⟩

/-- `public ‹name›(Path path = null) : this(path, ‹n›) { }` -/
def start? (l : Text) : Option Nat :=
  (between? (lit! "public ") (lit! ") { }") l).bind fun t =>
  (after? (lit! "(Path path = null) : this(path, ") (upTo '(' t).2).bind number?

/-- Read a line. -/
def Scan.line (s : Scan) (l : Text) : Scan :=
  match s.here with
  | .elsewhere =>
    if l = (lit! "public WireType? GetWireType(UInt32 tag) {") then { s with here := .head .wire }
    else if l = (lit! "public IState GetNested(UInt32 tag) {") then { s with here := .head .nested }
    else if l = (lit! "public void ReplaceAt(UInt32 tag, WireType wireType, IReader reader, bool shouldNotify) {") then
      { s with here := .head .replace }
    else if l = (lit! "switch (tag) {") then { s with here := .inside .ctor }
    else match class? l with
      | some (name, isEnum) =>
        { s with classes := ⟨name, isEnum, [], [], none, ⟨[], none⟩, ⟨[], none⟩, ⟨[], none⟩, ⟨[], none⟩⟩ :: s.classes }
      | none =>
        match prop? l with
        | some p => s.change fun c => { c with props := c.props ++ [p] }
        | none =>
          match made? l with
          | some m => s.change fun c => { c with made := c.made ++ [m] }
          | none =>
            match start? l with
            | some n => s.change fun c => { c with start := some n }
            | none => s
  | .head w => if l = (lit! "switch (tag) {") then { s with here := .inside w } else { s with here := .elsewhere }
  | .inside w =>
    match case? l with
    | some e => s.change (Class.change w (Switch.case e))
    | none =>
      match after? (lit! "default: ") l with
      | some t => { s with here := .elsewhere }.change (Class.change w (Switch.default t))
      | none => s

/-- The classes of a file. -/
def classesOf (t : Text) : List Class :=
  ((linesOf t).foldl (fun (s : Scan) l => s.line (unindented l)) ⟨.elsewhere, []⟩).classes.reverse

/-! ## Statements -/

/-- What `GetWireType` answers, told which type arguments are states; `none` for a statement not understood. -/
def wireAnswer (isState : Text → Bool) (t : Text) : Option (Option WireType) :=
  if t = (lit! "return null;") then some none
  else if t = (lit! "return WireType.Varint;") then some (some .varint)
  else if t = (lit! "return WireType.Sized;") then some (some .sized)
  else (between? (lit! "return StateFactory.IsStateType(typeof(") (lit! ")) ? WireType.Sized : WireType.Varint;") t).map fun p =>
    some (if isState p then .sized else .varint)

/-- What `GetNested` answers: a property, maybe only if it is a state. -/
inductive NestedAnswer
  | null
  | prop (name : Text)
  | propIfState (name : Text)
  deriving DecidableEq

/-- See `NestedAnswer`. -/
def nestedAnswer (t : Text) : Option NestedAnswer :=
  if t = (lit! "return null;") then some .null
  else (after? (lit! "return this.") t).bind fun t =>
    match before? (lit! " as IState;") t with
    | some name => some (.propIfState name)
    | none => (before? [';'] t).map .prop

/-- What is read in `ReplaceAt`: `reader.Read‹method›()`, `‹type›.Deserialize(reader, this.Path.GetNested(‹tag›))`, or
`StateFactory.Deserialize<‹type›>(reader, this.Path, ‹tag›)`. -/
inductive Source
  | method (name : Text)
  | state (type : Text) (tag : Nat)
  | param (type : Text) (tag : Nat)
  deriving DecidableEq

/-- `this.‹prop› = this.MaybeNotify(‹tag›, ‹source›, this.‹old›, ‹handler›, shouldNotify); break;` -/
structure Assignment where
  prop : Text
  tag : Nat
  source : Source
  old : Text
  handler : Text
  deriving DecidableEq

/-- What `ReplaceAt` does. -/
inductive ReplaceAnswer
  | skip
  | assign (a : Assignment)
  deriving DecidableEq

/-- `(…)` after a call, and what follows. -/
def source? (callee args : Text) : Option (Source × Text) :=
  match after? (lit! "()") args with
  | some rest => (after? (lit! "reader.Read") callee).map fun m => (.method m, rest)
  | none =>
    match after? (lit! "(reader, this.Path.GetNested(") args with
    | some t =>
      (before? (lit! ".Deserialize") callee).bind fun type =>
      (number? (upTo ')' t).1).bind fun n =>
      (after? (lit! "))") (upTo ')' t).2).map fun rest => (.state type n, rest)
    | none =>
      (after? (lit! "(reader, this.Path, ") args).bind fun t =>
      (between? (lit! "StateFactory.Deserialize<") (lit! ">") callee).bind fun type =>
      (number? (upTo ')' t).1).bind fun n =>
      (after? (lit! ")") (upTo ')' t).2).map fun rest => (.param type n, rest)

/-- See `Assignment`. -/
def replaceAnswer (t : Text) : Option ReplaceAnswer :=
  if t = (lit! "reader.SkipField(wireType); break;") then some .skip
  else
    (after? (lit! "this.") t).bind fun t =>
    let prop := (upTo ' ' t).1
    (after? (lit! " = this.MaybeNotify(") (upTo ' ' t).2).bind fun t =>
    (number? (upTo ',' t).1).bind fun tag =>
    (after? (lit! ", ") (upTo ',' t).2).bind fun t =>
    (source? (upTo '(' t).1 (upTo '(' t).2).bind fun (source, t) =>
    (after? (lit! ", this.") t).bind fun t =>
    (before? (lit! ",") (upTo ' ' t).1).bind fun old =>
    (after? [' '] (upTo ' ' t).2).bind fun t =>
    (before? (lit! ", shouldNotify); break;") t).map fun handler => .assign ⟨prop, tag, source, old, handler⟩

/-- What an enum does with a tag: in its constructor, `this.Variant = new ‹class›(this.Path.GetNested(‹tag›)); break;`. -/
def newVariant? (t : Text) : Option (Text × Nat) :=
  (after? (lit! "this.Variant = new ") t).bind fun t =>
  (between? (lit! "(this.Path.GetNested(") (lit! ")); break;") (upTo '(' t).2).bind fun n =>
  (number? n).map fun n => ((upTo '(' t).1, n)

/-- In its `ReplaceAt`, `this.UpdateAndNotify(‹tag›, ‹class›.Deserialize(reader, this.Path.GetNested(‹tag›)), shouldNotify); break;`. -/
def readVariant? (t : Text) : Option (Nat × Text × Nat) :=
  (after? (lit! "this.UpdateAndNotify(") t).bind fun t =>
  (number? (upTo ',' t).1).bind fun tag =>
  (after? (lit! ", ") (upTo ',' t).2).bind fun t =>
  (before? (lit! ".Deserialize") (upTo '(' t).1).bind fun name =>
  (between? (lit! "(reader, this.Path.GetNested(") (lit! ")), shouldNotify); break;") (upTo '(' t).2).bind fun n =>
  (number? n).map fun n => (tag, name, n)

/-! ## What the tables ought to say -/

/-- `HasMeta` of primitive types: their names in Rust and in C#, and their wire types (`steit/src/impls/varint.rs:71-74,126-129`,
`bool.rs:41`, `string.rs:32`). -/
def primitiveMeta : Ty → Option TypeMeta
  | .uint .w8 => some (.primitive ⟨"u8", some "Byte"⟩ .varint)
  | .uint .w16 => some (.primitive ⟨"u16", some "UInt16"⟩ .varint)
  | .uint .w32 => some (.primitive ⟨"u32", some "UInt32"⟩ .varint)
  | .uint .w64 => some (.primitive ⟨"u64", some "UInt64"⟩ .varint)
  | .sint .w8 => some (.primitive ⟨"i8", some "SByte"⟩ .varint)
  | .sint .w16 => some (.primitive ⟨"i16", some "Int16"⟩ .varint)
  | .sint .w32 => some (.primitive ⟨"i32", some "Int32"⟩ .varint)
  | .sint .w64 => some (.primitive ⟨"i64", some "Int64"⟩ .varint)
  | .bool => some (.primitive ⟨"bool", some "Boolean"⟩ .varint)
  | .string => some (.primitive ⟨"String", some "String"⟩ .sized)
  | _ => none

/-- The metadata of a field of a type: `field_type_meta`, `steit-derive/src/derive/field.rs:427-538`. A type parameter says so; primitives
say what they are; everything else refers to a type by name (unless it hides behind an alias). -/
def DescribesField (attrs : FieldAttrs) (t : Ty) (m : FieldTypeMeta) : Prop :=
  if attrs.param then ∃ p, m = .typeParam p
  else match primitiveMeta t with
    | some p => m = .type p
    | none => ∃ name args, m = .type (.ref name args)

/-- The metadata of fields. -/
def DescribesFields : Fields → List FieldMeta → Prop
  | .nil, ms => ms = []
  | .cons tag attrs t fs, ms => ∃ m ms', ms = m :: ms' ∧ m.tag = tag ∧ DescribesField attrs t m.ty ∧ DescribesFields fs ms'

/-- The first field with a tag, and its position. -/
def fieldAt : Fields → Nat → Option (Nat × FieldAttrs × Ty)
  | .nil, _ => none
  | .cons tag attrs t fs, n => if n = tag.toNat then some (0, attrs, t) else (fieldAt fs n).map fun (i, r) => (i + 1, r)

/-- The method of `Reader` for a primitive type (`steit-csharp/src/Codec/Reader.cs:45-71`). -/
def readMethod : Ty → Text
  | .uint .w8 => lit! "Byte"
  | .uint .w16 => lit! "UInt16"
  | .uint .w32 => lit! "UInt32"
  | .uint .w64 => lit! "UInt64"
  | .sint .w8 => lit! "SByte"
  | .sint .w16 => lit! "Int16"
  | .sint .w32 => lit! "Int32"
  | .sint .w64 => lit! "Int64"
  | .bool => lit! "Boolean"
  | .string => lit! "String"
  | _ => []

/-- Whence a field is read. -/
def sourceOf (attrs : FieldAttrs) (t : Ty) (type : Text) (n : Nat) : Source :=
  if attrs.param then .param type n else if primitive t then .method (readMethod t) else .state type n

/-- A class serves the fields of a message: for each tag, what its methods do. Type arguments are states as `isState` says. -/
structure Serves (isState : Text → Bool) (c : Class) (fs : Fields) : Prop where
  isEnum : c.isEnum = false
  /-- As many properties as fields. -/
  props : c.props.length = fs.tags.length
  /-- A tag of no field: no wire type, nothing nested, skipped. -/
  unknown : ∀ n, fieldAt fs n = none →
    (c.wire.at n).bind (wireAnswer isState) = some none ∧ (c.nested.at n).bind nestedAnswer = some .null ∧
    (c.replace.at n).bind replaceAnswer = some .skip
  /-- The tag of a field: its wire type is the one Rust writes. The field has a property. It is nested exactly if not a primitive,
  and then made by the constructor with the path of the class, extended by the tag. Replacing reads a value of its type into this property,
  with the path extended by the tag, and tells the handler of the property the tag, the new value and the old one. -/
  known : ∀ n i attrs t, fieldAt fs n = some (i, attrs, t) → ∃ type name, c.props[i]? = some (type, name) ∧
    (attrs.param = false → primitive t = true → type = readMethod t) ∧
    (c.wire.at n).bind (wireAnswer isState) = some (some (if wireOf t = 0 then .varint else .sized)) ∧
    (c.nested.at n).bind nestedAnswer = some (if attrs.param then .propIfState name else if primitive t then .null else .prop name) ∧
    (c.replace.at n).bind replaceAnswer =
      some (.assign ⟨name, n, sourceOf attrs t type n, name, lit! "On" ++ name ++ lit! "Update"⟩) ∧
    ((attrs.param = true ∨ primitive t = false) → ⟨name, if attrs.param then lit! "StateFactory.Construct<" ++ type ++ lit! ">"
      else lit! "new " ++ type, n⟩ ∈ c.made)
  /-- Nothing else is made. -/
  made : ∀ m ∈ c.made, ∃ n i attrs t type, fieldAt fs n = some (i, attrs, t) ∧ c.props[i]? = some (type, m.prop) ∧
    (attrs.param = true ∨ primitive t = false) ∧
    m = ⟨m.prop, if attrs.param then lit! "StateFactory.Construct<" ++ type ++ lit! ">" else lit! "new " ++ type, n⟩

/-- The class of an enum serves its variants, given by their tags and the names of their classes: for each tag, what the constructor and
the methods do. Unknown tags get no wire type, construct the variant with tag 0 and are skipped with all that follows. Without a tag, the
variant with tag 0 is constructed. -/
structure ServesEnum (isState : Text → Bool) (c : Class) (vs : List (Nat × Text)) : Prop where
  isEnum : c.isEnum = true
  start : c.start = some 0
  unknown : ∀ n, vs.lookup n = none → ∃ dflt, vs.lookup 0 = some dflt ∧ (c.wire.at n).bind (wireAnswer isState) = some none ∧
    (c.ctor.at n).bind newVariant? = some (dflt, 0) ∧ c.replace.at n = some (lit! "reader.SkipToEnd(); break;")
  known : ∀ n name, vs.lookup n = some name → (c.wire.at n).bind (wireAnswer isState) = some (some .sized) ∧
    (c.ctor.at n).bind newVariant? = some (name, n) ∧ (c.replace.at n).bind readVariant? = some (n, name, n)

/-- Type arguments are states exactly if no primitives. -/
def StatesTold (isState : Text → Bool) : Fields → List FieldMeta → Prop
  | .cons _ _ t fs, m :: ms => (∀ p, m.ty = .typeParam p → isState p.toList = !primitive t) ∧ StatesTold isState fs ms
  | _, _ => True

/-- Fields the generated code works for, see `GoodField`. -/
def GoodFields : Fields → Prop
  | .nil => True
  | .cons _ attrs t fs => GoodField attrs t ∧ GoodFields fs

end Steit.Gen.Spec
