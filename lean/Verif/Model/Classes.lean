import Verif.Model.CSharp
import Verif.Spec.Members

/-!
# Running generated classes

`Model/CSharp.lean` says what the client does with a type, generated classes included, as a function of the Rust type. Here generated
classes are run as they are in the generated text: types of properties, what constructors make, and the `switch`es of `GetWireType`,
`GetNested` and `ReplaceAt` are read off the text (`classesOf`) and interpreted, names of types looked up as C# does. The library around
them (`State.Replace`, `StateFactory`, the collections, `StateReplayer`) is the code of `steit-csharp/src` again.

Not read off the text: the bodies of `Deserialize` (construct, then `Replace`), `MaybeNotify` and `UpdateAndNotify`, of `GetNested`
of enums, and of `ReplayListPush`, `ReplayListPop` and `ReplayMapRemove` (which throw). They
are the same in all generated files (`csharp.rs:229-240`, `338-367`, `494-505`, `522-524`, `543-558`); that they are is proved,
`C69_struct_bodies` and `C69_enum_bodies`. As in `Model/CSharp.lean`, there
are no paths and no event handlers. `ValidateType` (`StateFactory.cs:40-44`) is left out: all types that can be named pass. C# checks types
before it runs anything; here types of values are not checked. `Exn.stuck` marks, besides endless loops, code that is not understood.
-/

namespace Steit.Gen

open Steit.Gen.Spec

/-! ## Types -/

/-- Types at run time, type parameters replaced. (Types mentioned in classes made by `steit/src/gen/generators/csharp.rs:624-657`.) -/
inductive Rt
  /-- of the namespace `System` -/
  | system (n : Text)
  /-- of the client library -/
  | library (n : Text) (args : List Rt)
  /-- the outer class of a generated file -/
  | message (n : Text) (args : List Rt)
  /-- a class in it; its type arguments are those of the class around -/
  | variant (n : Text) (args : List Rt) (v : Text)

/-- A generated file: its first class, and those inside it. (Files made by `steit/src/gen/generator.rs:25-61`.) -/
structure CsFile where
  outer : Class
  nested : List Class

/-- Generated files. (Files made by `steit/src/gen/generator.rs:25-61`.) -/
abbrev Project := List CsFile

/-- The project consisting of the given sources. (Files made by `steit/src/gen/generator.rs:25-61`.) -/
def projectOf (texts : List Text) : Project :=
  texts.filterMap fun t =>
    match classesOf t with
    | [] => none
    | c :: cs => some ⟨c, cs⟩

/-- The class with a name and a number of type parameters. (Classes made by `steit/src/gen/generators/csharp.rs:70-576`.) -/
def Project.find (P : Project) (n : Text) (arity : Nat) : Option CsFile :=
  List.find? (fun f => decide (bare f.outer.name = n) && decide ((paramsOf f.outer.name).length = arity)) P

/-- Primitive types. (`steit-csharp/src/State/StateFactory.cs:12-38`.) -/
inductive Prim
  | uint (w : Width)
  | sint (w : Width)
  | bool
  | string
  deriving DecidableEq

/-- The primitive type with a name in `System` (`StateFactory.cs:16-25`); also the method `Read…` with this name (`Codec/Reader.cs:45-71`). -/
def primOf (n : Text) : Option Prim :=
  if n = lit! "Byte" then some (.uint .w8)
  else if n = lit! "UInt16" then some (.uint .w16)
  else if n = lit! "UInt32" then some (.uint .w32)
  else if n = lit! "UInt64" then some (.uint .w64)
  else if n = lit! "SByte" then some (.sint .w8)
  else if n = lit! "Int16" then some (.sint .w16)
  else if n = lit! "Int32" then some (.sint .w32)
  else if n = lit! "Int64" then some (.sint .w64)
  else if n = lit! "Boolean" then some .bool
  else if n = lit! "String" then some .string
  else none

/-- The number of type parameters of a class of the library (`steit-csharp/src/Builtins`, `Collections`).
(`steit-csharp/src/Builtins/Option.cs:7`, `steit-csharp/src/Collections/Vector.cs:9`, `StateList.cs:10`, `StateMap.cs:10`.) -/
def libraryArity (n : Text) : Option Nat :=
  if n = lit! "Bytes" then some 0
  else if n = lit! "Vector" then some 1
  else if n = lit! "Option" then some 1
  else if n = lit! "StateList" then some 1
  else if n = lit! "StateMap" then some 1
  else none

/-- What a type parameter stands for. (Types mentioned in classes made by `steit/src/gen/generators/csharp.rs:624-657`.) -/
def argFor : List Text → List Rt → Text → Option Rt
  | p :: ps, t :: ts, x => if x = p then some t else argFor ps ts x
  | _, _, _ => none

/-- What a name with type arguments stands for inside a generated file, given what the type parameters stand for: C# looks among the
type parameters, the classes nested, the namespace, and last among what is imported.
(Classes made by `steit/src/gen/generators/csharp.rs:70-576`.) -/
def look (P : Project) (f : CsFile) (args : List Rt) (x : Text) (xs : List Rt) : Option Rt :=
  match xs with
  | [] =>
    match argFor (paramsOf f.outer.name) args x with
    | some t => some t
    | none =>
      if x ∈ f.nested.map (·.name) then some (.variant (bare f.outer.name) args x)
      else if (P.find x 0).isSome then some (.message x [])
      else if (primOf x).isSome then some (.system x)
      else if libraryArity x = some 0 then some (.library x [])
      else none
  | _ :: _ =>
    if (P.find x xs.length).isSome then some (.message x xs)
    else if libraryArity x = some xs.length then some (.library x xs)
    else none

/-- Not within a name of a type. (Types mentioned in classes made by `steit/src/gen/generators/csharp.rs:624-657`.) -/
def isTypePunct (c : Char) : Bool := c == '<' || c == '>' || c == ','

mutual
/-- Read `Name` or `Name<Arg, Arg>`, and what follows. (Types mentioned in classes made by `steit/src/gen/generators/csharp.rs:624-657`.) -/
def readTypeAt (lk : Text → List Rt → Option Rt) : Nat → Text → Option (Rt × Text)
  | 0, _ => none
  | n + 1, t =>
    let x := t.takeWhile fun c => !isTypePunct c
    match t.dropWhile fun c => !isTypePunct c with
    | '<' :: r => do
      let (ts, r) ← readArgsAt lk n r
      let t ← lk x ts
      some (t, r)
    | r => do
      let t ← lk x []
      some (t, r)

/-- Read `Arg, Arg>`. (Types mentioned in classes made by `steit/src/gen/generators/csharp.rs:624-657`.) -/
def readArgsAt (lk : Text → List Rt → Option Rt) : Nat → Text → Option (List Rt × Text)
  | 0, _ => none
  | n + 1, t => do
    let (a, r) ← readTypeAt lk n t
    match r with
    | '>' :: r => some ([a], r)
    | ',' :: ' ' :: r => do
      let (as, r) ← readArgsAt lk n r
      some (a :: as, r)
    | _ => none
end

/-- The type a text stands for inside a generated file.
(Types mentioned in classes made by `steit/src/gen/generators/csharp.rs:624-657`.) -/
def readType (P : Project) (f : CsFile) (args : List Rt) (t : Text) : Option Rt :=
  match readTypeAt (look P f args) (2 * t.length + 1) t with
  | some (t, []) => some t
  | _ => none

/-- `StateFactory.IsStateType`, `StateFactory.cs:36-38`. -/
def Rt.isState : Rt → Bool
  | .system _ => false
  | _ => true

/-- Whether `StateFactory.DeserializeNested` uses a nested reader, `StateFactory.cs:73-81`. -/
def Rt.isSized : Rt → Bool
  | .system n => primOf n == some .string
  | _ => true

/-! ## Objects -/

/-- Values of C#. (Classes made by `steit/src/gen/generators/csharp.rs:70-576`.) -/
inductive Val
  | null
  | uint (w : Width) (v : BitVec w.bits)
  | sint (w : Width) (v : BitVec w.bits)
  | bool (b : Bool)
  /-- maybe `null` -/
  | str (s : Option Str)
  /-- `Bytes` -/
  | bytes (bs : Bytes)
  /-- `Vector`, `StateList` -/
  | items (xs : List Val)
  /-- `StateMap` -/
  | entries (es : List (U32 × Val))
  /-- `Option` -/
  | opt (x : Option Val)
  /-- a message or a variant: its properties -/
  | inst (props : List Val)
  /-- an enum: `Tag` and `Variant` -/
  | enum (tag : U32) (variant : Val)

/-- `default`. (`steit-csharp/src/State/StateFactory.cs:12-38`.) -/
def Prim.default : Prim → Val
  | .uint w => .uint w 0#w.bits
  | .sint w => .sint w 0#w.bits
  | .bool => .bool false
  | .string => .str none

/-- The methods `Read…` of `Codec/Reader.cs:45-71`. -/
def Prim.read (ρ : Bytes → Str) : Prim → Bytes → Except Exn (Val × Bytes)
  | .uint w, bs => (csReadUInt w bs).map fun (v, r) => (.uint w v, r)
  | .sint w, bs => (csReadSInt w bs).map fun (v, r) => (.sint w v, r)
  | .bool, bs => (csReadBoolean bs).map fun (v, r) => (.bool v, r)
  | .string, bs => .ok (.str (some (csGetString ρ bs)), [])

/-- What a property holds before anything is assigned to it. (Properties made by `steit/src/gen/generators/csharp.rs:70-372`.) -/
def Rt.initial : Rt → Option Val
  | .system n => (primOf n).map Prim.default
  | _ => some .null

/-- Code not understood is stuck. (Classes made by `steit/src/gen/generators/csharp.rs:70-576`.) -/
def understood {α : Type} : Option α → Except Exn α
  | some x => .ok x
  | none => .error .stuck

/-- The position of a property. (Classes made by `steit/src/gen/generators/csharp.rs:70-576`.) -/
def propIndex : List (Text × Text) → Text → Option Nat
  | [], _ => none
  | (_, x) :: ps, y => if x = y then some 0 else (propIndex ps y).map (· + 1)

/-- `this.‹prop› = …` (Classes made by `steit/src/gen/generators/csharp.rs:70-576`.) -/
def setProp (c : Class) (prop : Text) (x : Val) : Val → Except Exn Val
  | .inst vs => do
    let i ← understood (propIndex c.props prop)
    .ok (.inst (vs.set i x))
  | _ => .error .stuck

/-- The class of a message or variant, and the file it is in. (Classes made by `steit/src/gen/generators/csharp.rs:70-576`.) -/
def Project.classOf (P : Project) : Rt → Option (CsFile × List Rt × Class)
  | .message n args => (P.find n args.length).map fun f => (f, args, f.outer)
  | .variant n args v => (P.find n args.length).bind fun f => (f.nested.find? fun c => decide (c.name = v)).map fun c => (f, args, c)
  | _ => none

/-- `new ‹type›` and `StateFactory.Construct<‹type›>` (`StateFactory.cs:47-54`): the type, and whether it may be a primitive one. -/
def how? (t : Text) : Option (Text × Bool) :=
  match after? (lit! "new ") t with
  | some u => some (u, false)
  | none => (between? (lit! "StateFactory.Construct<") (lit! ">") t).map fun u => (u, true)

/-- Assign to the properties what the constructor makes, in order. (Properties made by `steit/src/gen/generators/csharp.rs:70-372`.) -/
def assignMade (P : Project) (f : CsFile) (args : List Rt) (c : Class) (make : Rt → Except Exn Val) : List Made → Val → Except Exn Val
  | [], o => .ok o
  | m :: ms, o => do
    let (text, any) ← understood (how? m.how)
    let t ← understood (readType P f args text)
    if any || t.isState then
      let x ← make t
      let o ← setProp c m.prop x o
      assignMade P f args c make ms o
    else .error .stuck

/-- The properties before the constructor runs. (Properties made by `steit/src/gen/generators/csharp.rs:70-372`.) -/
def initials (P : Project) (f : CsFile) (args : List Rt) : List (Text × Text) → Except Exn (List Val)
  | [] => .ok []
  | p :: ps => do
    let t ← understood (readType P f args p.1)
    let x ← understood t.initial
    let xs ← initials P f args ps
    .ok (x :: xs)

/-- `StateFactory.Construct<T>` (`StateFactory.cs:47-54`) and `new T()`: collections are empty (`StateList.cs:14`, `StateMap.cs:14`,
`Vector.cs:13`, `Bytes.cs:12`), `Option` is `None` (`Option.cs:15-17`). In fuel: messages may contain each other. -/
def construct (P : Project) : Nat → Rt → Except Exn Val
  | 0, _ => .error .stuck
  | n + 1, t =>
    match t with
    | .system x => understood ((primOf x).map Prim.default)
    | .library x _ =>
      if x = lit! "Bytes" then .ok (.bytes [])
      else if x = lit! "Option" then .ok (.opt none)
      else if x = lit! "StateMap" then .ok (.entries [])
      else .ok (.items [])
    | t => do
      let (f, args, c) ← understood (P.classOf t)
      if c.isEnum then
        let tag ← understood c.start
        let stmt ← understood (c.ctor.at tag)
        let (v, _) ← understood (newVariant? stmt)
        let t ← understood (readType P f args v)
        let x ← construct P n t
        .ok (.enum (BitVec.ofNat 32 tag) x)
      else
        let xs ← initials P f args c.props
        assignMade P f args c (construct P n) c.made (.inst xs)

/-! ## Deserialization -/

/-- `GetWireType` of a generated class; the type parameters of `StateFactory.IsStateType(typeof(‹param›))` are looked up.
(Made by `steit/src/gen/generators/csharp.rs:70-576`.) -/
def getWireType (P : Project) (f : CsFile) (args : List Rt) (c : Class) (tag : U32) : Except Exn (Option WireType) := do
  let stmt ← understood (c.wire.at tag.toNat)
  understood (wireAnswer (fun p => ((readType P f args p).map Rt.isState).getD false) stmt)

/-- One round of the loop of `State.Replace`, `State/State.cs:24-57`. -/
def replaceStep {σ : Type} (getWireType : U32 → Except Exn (Option WireType))
    (replaceAt : U32 → WireType → Bytes → σ → Except Exn (σ × Bytes)) (v : σ) (bs : Bytes) : Except Exn (σ × Bytes) := do
  let ((tag, wireType), bs) ← csReadKey bs
  let expected ← getWireType tag
  match wireType with
  | .sized =>
    let (payload, rest) ← csGetNested bs
    if expected = some .varint then .ok (v, rest)
    else
      let (v, _) ← replaceAt tag .sized payload v
      .ok (v, rest)
  | .varint =>
    if expected = some .sized then
      let rest ← csSkipField .varint bs
      .ok (v, rest)
    else replaceAt tag .varint bs v

/-- `ReplaceAt` of the class of a struct or variant: skip, or read and assign. (Made by `steit/src/gen/generators/csharp.rs:70-576`.) -/
def replaceAt (P : Project) (ρ : Bytes → Str) (f : CsFile) (args : List Rt) (c : Class) (read : Rt → Bytes → Except Exn (Val × Bytes))
    (tag : U32) (wire : WireType) (bs : Bytes) (o : Val) : Except Exn (Val × Bytes) := do
  let stmt ← understood (c.replace.at tag.toNat)
  match ← understood (replaceAnswer stmt) with
  | .skip =>
    let rest ← csSkipField wire bs
    .ok (o, rest)
  | .assign a =>
    let (x, rest) ← match a.source with
      | .method m => do
        let p ← understood (primOf m)
        p.read ρ bs
      | .state text _ => do
        let t ← understood (readType P f args text)
        if t.isState then read t bs else .error .stuck
      | .param text _ => do
        let t ← understood (readType P f args text)
        read t bs
    let o ← setProp c a.prop x o
    .ok (o, rest)

/-- `ReplaceAt` of the class of an enum: `none` if all is skipped, otherwise tag and variant.
(Made by `steit/src/gen/generators/csharp.rs:70-576`.) -/
def readVariant (P : Project) (f : CsFile) (args : List Rt) (c : Class) (read : Rt → Bytes → Except Exn (Val × Bytes))
    (tag : U32) (bs : Bytes) : Except Exn (Option (U32 × Val)) := do
  let stmt ← understood (c.replace.at tag.toNat)
  if stmt = lit! "reader.SkipToEnd(); break;" then .ok none
  else
    let (tag, text, _) ← understood (readVariant? stmt)
    let t ← understood (readType P f args text)
    let (x, _) ← read t bs
    .ok (some (BitVec.ofNat 32 tag, x))

/-- `StateFactory.Deserialize<T>` (`StateFactory.cs:56-71`), that is `T.Deserialize(reader, path)` of a state: `Vector.cs:21-32`,
`StateList.cs:31-43`, `StateMap.cs:31-44`, `Option.cs:32-38`, `Bytes.cs:17-19`, generated classes `csharp.rs:229-240,494-505` with
`State.Replace`, `State/State.cs:17-58`. In fuel: messages may contain each other. -/
def deserialize (P : Project) (ρ : Bytes → Str) : Nat → Rt → Bytes → Except Exn (Val × Bytes)
  | 0, _, _ => .error .stuck
  | n + 1, t, bs =>
    match t with
    | .system x => do
      let p ← understood (primOf x)
      p.read ρ bs
    | .library x [] => if x = lit! "Bytes" then .ok (.bytes bs, []) else .error .stuck
    | .library x (a :: _) =>
      if x = lit! "Option" then
        if bs = [] then .ok (.opt none, [])
        else do
          let (v, rest) ← csNested a.isSized (deserialize P ρ n a) bs
          .ok (.opt (some v), rest)
      else if x = lit! "StateMap" then do
        let es ← untilEnd (csAddEntry (csNested a.isSized (deserialize P ρ n a))) bs.length [] bs
        .ok (.entries es, [])
      else do
        let xs ← untilEnd (csAddItem (csNested a.isSized (deserialize P ρ n a))) bs.length [] bs
        .ok (.items xs, [])
    | t => do
      let (f, args, c) ← understood (P.classOf t)
      let o ← construct P (n + 1) t
      if c.isEnum then
        let (tag, bs) ← csReadUInt32 bs
        match ← readVariant P f args c (deserialize P ρ n) tag bs with
        | some (tag, x) => .ok (.enum tag x, [])
        | none => .ok (o, [])
      else
        let o ← untilEnd (replaceStep (getWireType P f args c) (replaceAt P ρ f args c (deserialize P ρ n))) bs.length o bs
        .ok (o, [])

/-! ## Replay -/

/-- The switch of `StateReplayer.Replay`, `StateReplayer.cs:38-67`, on an object: `StateList.cs:45-95`, `StateMap.cs:46-84`,
`Vector.cs:34-44`, `Option.cs:40-49`, `Bytes.cs:21-31`, generated classes. -/
def perform (P : Project) (ρ : Bytes → Str) (n : Nat) (act : CsAct) (t : Rt) (o : Val) : Except Exn Val :=
  match t with
  | .system _ => .error .stuck
  | .library x args =>
    match args with
    | [a] =>
      if x = lit! "StateList" then
        match act, o with
        | .update tag value, .items xs =>
          if xs.length ≤ tag.toNat then .error .indexOutOfRange
          else do
            let (y, _) ← deserialize P ρ n a value
            .ok (.items (xs.set tag.toNat y))
        | .push item, .items xs => do
          let (y, _) ← deserialize P ρ n a item
          .ok (.items (xs ++ [y]))
        | .pop, .items xs => if xs.isEmpty then .error .invalidOperation else .ok (.items xs.dropLast)
        | .remove _, _ => .error .notSupported
        | _, _ => .error .stuck
      else if x = lit! "StateMap" then
        match act, o with
        | .update tag value, .entries es => do
          let (y, _) ← deserialize P ρ n a value
          .ok (.entries (dictSet tag y es))
        | .remove key, .entries es => if (es.lookup key).isNone then .error .keyNotFound else .ok (.entries (dictRemove key es))
        | .push _, _ => .error .notSupported
        | .pop, _ => .error .notSupported
        | _, _ => .error .stuck
      else
        match act with
        | .update _ _ => .ok o
        | _ => .error .notSupported
    | _ =>
      match act with
      | .update _ _ => .ok o
      | _ => .error .notSupported
  | t => do
    let (f, args, c) ← understood (P.classOf t)
    match act with
    | .update tag value =>
      match ← getWireType P f args c tag with
      | none => .ok o
      | some wire =>
        if c.isEnum then
          match ← readVariant P f args c (deserialize P ρ n) tag value with
          | some (tag, x) => .ok (.enum tag x)
          | none => .ok o
        else do
          let (o, _) ← replaceAt P ρ f args c (deserialize P ρ n) tag wire value o
          .ok o
    | _ => .error .notSupported

/-- Property `‹name›` of a generated object: its type, and what it holds. (Classes made by `steit/src/gen/generators/csharp.rs:70-576`.) -/
def getProp (P : Project) (f : CsFile) (args : List Rt) (c : Class) (prop : Text) : Val → Except Exn (Rt × Val)
  | .inst vs => do
    let i ← understood (propIndex c.props prop)
    let p ← understood c.props[i]?
    let t ← understood (readType P f args p.1)
    let x ← understood vs[i]?
    .ok (t, x)
  | _ => .error .stuck

/-- Follow a path by `GetNested` (`State.cs:9-15`), and perform the action at its end; nothing happens if `GetNested` returns null
(`StateReplayer.cs:34-36`). `GetNested` is that of `StateList.cs:50-52`, `StateMap.cs:51-53`, of generated messages, read off the text, or of
enums, `csharp.rs:522-524`; always null for the others. The class of the object in `Variant` is taken to be the one the constructor makes for
the tag. In fuel: the depth. -/
def performAt (P : Project) (ρ : Bytes → Str) (act : CsAct) : Nat → Rt → List U32 → Val → Except Exn Val
  | n, t, [], o => perform P ρ n act t o
  | 0, _, _ :: _, _ => .error .stuck
  | n + 1, t, k :: path, o =>
    match t with
    | .system _ => .error .stuck
    | .library x args =>
      match args with
      | [a] =>
        if x = lit! "StateList" then
          match o with
          | .items xs =>
            if a.isState then
              match xs[k.toNat]? with
              | none => .ok o
              | some y => do
                let y ← performAt P ρ act n a path y
                .ok (.items (xs.set k.toNat y))
            else .ok o
          | _ => .error .stuck
        else if x = lit! "StateMap" then
          match o with
          | .entries es =>
            if a.isState then
              match es.lookup k with
              | none => .ok o
              | some y => do
                let y ← performAt P ρ act n a path y
                .ok (.entries (dictPut k y es))
            else .ok o
          | _ => .error .stuck
        else .ok o
      | _ => .ok o
    | t => do
      let (f, args, c) ← understood (P.classOf t)
      if c.isEnum then
        match o with
        | .enum tag x =>
          if k = tag then do
            let stmt ← understood (c.ctor.at tag.toNat)
            let (v, _) ← understood (newVariant? stmt)
            let t ← understood (readType P f args v)
            let x ← performAt P ρ act n t path x
            .ok (.enum tag x)
          else .ok o
        | _ => .error .stuck
      else do
        let stmt ← understood (c.nested.at k.toNat)
        match ← understood (nestedAnswer stmt) with
        | .null => .ok o
        | .prop x => do
          let (t, v) ← getProp P f args c x o
          let v ← performAt P ρ act n t path v
          setProp c x v o
        | .propIfState x => do
          let (t, v) ← getProp P f args c x o
          if t.isState then
            let v ← performAt P ρ act n t path v
            setProp c x v o
          else .ok o

/-- `StateReplayer.Replay(ref root, entry)`, `StateReplayer.cs:16-69`. -/
def replayEntry (P : Project) (ρ : Bytes → Str) (n : Nat) (t : Rt) (o : Val) : Entry → Except Exn Val
  | .update path value =>
    match path.getLast? with
    | none => do
      let (o, _) ← deserialize P ρ n t value
      .ok o
    | some tag => performAt P ρ (.update tag value) n t path.dropLast o
  | .listPush path item => performAt P ρ (.push item) n t path o
  | .listPop path => performAt P ρ .pop n t path o
  | .mapRemove path key => performAt P ρ (.remove key) n t path o

/-- One round of `StateReplayer.Replay(ref root, reader)`, `StateReplayer.cs:10-13`; log entries are read as in `Model/CSharp.lean`. -/
def replayStepAt (P : Project) (ρ : Bytes → Str) (n : Nat) (t : Rt) (o : Val) (bs : Bytes) : Except Exn (Val × Bytes) := do
  let (payload, rest) ← csGetNested bs
  let (entry, _) ← logEntryTy.csDeserialize ρ payload
  let o ← replayEntry P ρ n t o (.ofCs entry)
  .ok (o, rest)

/-- `StateReplayer.Replay(ref root, reader)`, `StateReplayer.cs:9-14`. -/
def replay (P : Project) (ρ : Bytes → Str) (n : Nat) (t : Rt) (o : Val) (bs : Bytes) : Except Exn Val :=
  untilEnd (replayStepAt P ρ n t) bs.length o bs

end Steit.Gen
