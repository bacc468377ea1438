import Verif.Model.Log

/-!
# The C# client (`steit-csharp/src`) and the classes generated for it (`steit/src/gen/generators/csharp.rs`)

What the C# client does with bytes written by Rust: `Reader`, `State.Replace`, the collections, generated messages and
`StateReplayer`. Objects are represented by their data; not kept here, but in `Model/CSharpEvents.lean`, are

* `Path`s: objects never move in C#, the path of an object is only shown to event handlers. Only a `null` path makes a
  difference, see `Ty.csDeserializeRoot`;
* event handlers (`OnUpdate`, …): they are called before the change is made and are assumed to return.

Exceptions end the computation; what a failed call leaves half done is not modelled. `Encoding.UTF8.GetString` replaces
invalid sequences by U+FFFD in a way that depends on the version of .NET: the argument `ρ` of all functions below says how.
-/

namespace Steit

/-- The exceptions C# code throws, by type. `stuck` marks a loop that would never end (fuel ran out).
(`steit-csharp/src/Codec/ByteReader.cs:22-50`, `steit-csharp/src/Codec/Reader.cs:22-98`, `steit-csharp/src/State/StateFactory.cs:40-106`, `steit-csharp/src/Collections/StateList.cs:54-95`.) -/
inductive Exn
  /-- `EndOfStreamException`. -/
  | endOfStream
  /-- `ArgumentException`. -/
  | argument
  /-- `OverflowException` (array of negative length). -/
  | overflow
  /-- `IndexOutOfRangeException`. -/
  | indexOutOfRange
  /-- `InvalidOperationException`. -/
  | invalidOperation
  /-- `KeyNotFoundException`. -/
  | keyNotFound
  /-- `NotSupportedException`. -/
  | notSupported
  /-- `NullReferenceException`. -/
  | nullReference
  | stuck
  deriving DecidableEq, Repr

/-! ## `Codec/ByteReader.cs`, `Codec/Reader.cs`; a reader is the list of bytes not yet read -/

/-- `ByteReader.Read(int)`, `Codec/ByteReader.cs:30-42`: `new byte[count]` throws if `count` is negative. -/
def csTake (count : Int) (bs : Bytes) : Except Exn (Bytes × Bytes) :=
  if (bs.length : Int) < count then .error .endOfStream
  else if count < 0 then .error .overflow
  else .ok (bs.take count.toNat, bs.drop count.toNat)

/-- The loop of `ReadUnsignedVarint`, `Codec/Reader.cs:22-38`. C# takes the shift amount of a `ulong` modulo 64. The `int` holding
the offset wraps around (the code is compiled unchecked), which does not change the offset modulo 64. -/
def csVarintLoop : Bytes → BitVec 64 → Nat → Except Exn (BitVec 64 × Bytes)
  | [], _, _ => .error .endOfStream
  | octet :: bs, value, offset =>
    let value := value ||| ((octet &&& 0x7f#8).setWidth 64 <<< (offset % 64))
    if octet &&& 0x80#8 = 0#8 then .ok (value, bs) else csVarintLoop bs value (offset + 7)

/-- `ReadUnsignedVarint`, `Codec/Reader.cs:22-38`. -/
def csReadUnsigned (bs : Bytes) : Except Exn (BitVec 64 × Bytes) := csVarintLoop bs 0#64 0

/-- `ReadSignedVarint`, `Codec/Reader.cs:40-43`; `>>` on `long` is the arithmetic shift. -/
def csReadSigned (bs : Bytes) : Except Exn (BitVec 64 × Bytes) := do
  let (value, rest) ← csReadUnsigned bs
  .ok (value.sshiftRight 1 ^^^ -(value &&& 1#64), rest)

/-- `ReadByte` … `ReadUInt64`, `Codec/Reader.cs:45-48`: unchecked casts. -/
def csReadUInt (w : Width) (bs : Bytes) : Except Exn (BitVec w.bits × Bytes) := do
  let (value, rest) ← csReadUnsigned bs
  .ok (value.setWidth w.bits, rest)

/-- `ReadUInt32`, `Codec/Reader.cs:47`. -/
def csReadUInt32 (bs : Bytes) : Except Exn (U32 × Bytes) := csReadUInt .w32 bs

/-- `ReadSByte` … `ReadInt64`, `Codec/Reader.cs:50-53`: unchecked casts. -/
def csReadSInt (w : Width) (bs : Bytes) : Except Exn (BitVec w.bits × Bytes) := do
  let (value, rest) ← csReadSigned bs
  .ok (value.setWidth w.bits, rest)

/-- The loop of `ReadBoolean`, `Codec/Reader.cs:55-67`. -/
def csBoolLoop : Bytes → Bool → Except Exn (Bool × Bytes)
  | [], _ => .error .endOfStream
  | octet :: bs, value =>
    let value := value || (octet &&& 0x7f#8 != 0#8)
    if octet &&& 0x80#8 = 0#8 then .ok (value, bs) else csBoolLoop bs value

/-- `ReadBoolean`, `Codec/Reader.cs:55-67`. -/
def csReadBoolean (bs : Bytes) : Except Exn (Bool × Bytes) := csBoolLoop bs false

/-- `Encoding.UTF8.GetString` in `ReadString`, `Codec/Reader.cs:69-71`; a .NET string is represented by its UTF-8 form. -/
def csGetString (ρ : Bytes → Str) (bs : Bytes) : Str := if h : utf8Valid bs = true then ⟨bs, h⟩ else ρ bs

/-- `WireTypeHelper.New`, `Codec/WireType.cs:10-19`. -/
def csWireType (value : U32) : Except Exn WireType :=
  if value = 0#32 then .ok .varint else if value = 2#32 then .ok .sized else .error .argument

/-- `ReadKey`, `Codec/Reader.cs:73-78`. -/
def csReadKey (bs : Bytes) : Except Exn ((U32 × WireType) × Bytes) := do
  let (key, rest) ← csReadUInt32 bs
  let wireType ← csWireType (key &&& 7#32)
  .ok ((key >>> 3, wireType), rest)

/-- `ReadSize`, `Codec/Reader.cs:80-82`: the cast to `int` makes sizes from 2^31 on negative. -/
def csReadSize (bs : Bytes) : Except Exn (Int × Bytes) := do
  let (size, rest) ← csReadUInt32 bs
  .ok (size.toInt, rest)

/-- `GetNested`, `Codec/Reader.cs:100-103`: the nested reader, and what is left of this one. -/
def csGetNested (bs : Bytes) : Except Exn (Bytes × Bytes) := do
  let (size, rest) ← csReadSize bs
  csTake size rest

/-- `SkipField`, `Codec/Reader.cs:92-98`: a sized field comes with a reader of its own. -/
def csSkipField (wireType : WireType) (bs : Bytes) : Except Exn Bytes :=
  match wireType with
  | .varint => do
    let (_, rest) ← csReadBoolean bs
    .ok rest
  | .sized => .ok []

/-- `while (!reader.EndOfStream()) …`, in fuel.
(`steit-csharp/src/State/State.cs:17-60`, `steit-csharp/src/State/StateReplayer.cs:10-13`, `steit-csharp/src/Collections/StateList.cs:31-43`.) -/
def untilEnd {σ : Type} (step : σ → Bytes → Except Exn (σ × Bytes)) : Nat → σ → Bytes → Except Exn σ
  | _, v, [] => .ok v
  | 0, _, _ :: _ => .error .stuck
  | n + 1, v, b :: bs => do
    let (v', rest) ← step v (b :: bs)
    untilEnd step n v' rest

/-! ## Objects -/

mutual
/-- The C# object standing for a value: what `field_type`, `csharp.rs:624-657`, names. There is none for tuples and `HashMap`
(no `HasMeta`). A `StateMap` is a list of entries in no particular order. -/
@[reducible] def Ty.Cs : Ty → Type
  | .uint w => BitVec w.bits
  | .sint w => BitVec w.bits
  | .bool => Bool
  /- `null` or a string -/
  | .string => Option Str
  | .bytes => Bytes
  | .vec t => List t.Cs
  | .array _ t => List t.Cs
  | .tuple _ => Unit
  | .option t => Option t.Cs
  | .box t => t.Cs
  | .hashMap _ _ => Unit
  | .list t => List t.Cs
  | .map _ t => List (U32 × t.Cs)
  | .struct _ _ fs => fs.Cs
  | .enum _ _ fs vs => fs.Cs ⊕ vs.Cs

/-- The properties of a message. (Classes generated by `steit/src/gen/generators/csharp.rs:70-372`.) -/
@[reducible] def Fields.Cs : Fields → Type
  | .nil => Unit
  | .cons _ _ t fs => t.Cs × fs.Cs

/-- The current variant; `Tag` is its tag. (Classes generated by `steit/src/gen/generators/csharp.rs:374-576`.) -/
@[reducible] def Variants.Cs : Variants → Type
  | .nil => Empty
  | .cons _ _ fs vs => fs.Cs ⊕ vs.Cs
end

/-- `StateFactory.IsStateType`, `State/StateFactory.cs:36-38`: is the type an `IState`? -/
def Ty.isCsState : Ty → Bool
  | .uint _ => false
  | .sint _ => false
  | .bool => false
  | .string => false
  | .box t => t.isCsState
  | _ => true

/-- `IsSized[type.FullName]` for a primitive, `State/StateFactory.cs:27-28`. -/
def Ty.isCsString : Ty → Bool
  | .string => true
  | .box t => t.isCsString
  | _ => false

/-- The `case` of `GetWireType` generated for a field, `csharp.rs:247-263`. A type argument counts as varint unless it is an
`IState`. (The type of a boxed field is a `TypeMeta::Ref`.) -/
def csFieldWire (attrs : FieldAttrs) (t : Ty) : WireType :=
  if attrs.param then (if t.isCsState then .sized else .varint)
  else match t with
    | .uint _ => .varint
    | .sint _ => .varint
    | .bool => .varint
    | _ => .sized

mutual
/-- A newly constructed object. Primitives have their default (`null` for a string), nested states are constructed
(`csharp.rs:141-157`), collections are empty (`StateList.cs:14`, `StateMap.cs:14`, `Vector.cs:13`, `Bytes.cs:12`), `Option` is
`None` (`Option.cs:15-17`), an enum has its default variant (`csharp.rs:425-471`; the variant with tag 0,
`steit-derive/src/derive/enum.rs:101`). -/
def Ty.csNew : (t : Ty) → t.Cs
  | .uint w => 0#w.bits
  | .sint w => 0#w.bits
  | .bool => false
  | .string => none
  | .bytes => []
  | .vec _ => []
  | .array _ _ => []
  | .tuple _ => ()
  | .option _ => none
  | .box t => t.csNew
  | .hashMap _ _ => ()
  | .list _ => []
  | .map _ _ => []
  | .struct _ _ fs => fs.csNew
  | .enum _ _ fs _ => .inl fs.csNew

/-- The constructor of a message, `csharp.rs:114-159`. -/
def Fields.csNew : (fs : Fields) → fs.Cs
  | .nil => ()
  | .cons _ _ t fs => (t.csNew, fs.csNew)
end

/-- `Dictionary[key] = value`. (As used in `steit-csharp/src/Collections/StateMap.cs:31-71`.) -/
def dictSet {α : Type} (k : U32) (x : α) (d : List (U32 × α)) : List (U32 × α) := (k, x) :: d.filter (fun e => e.1 != k)

/-- `Dictionary.Remove(key)`. (As used in `steit-csharp/src/Collections/StateMap.cs:75-86`.) -/
def dictRemove {α : Type} (k : U32) (d : List (U32 × α)) : List (U32 × α) := d.filter (fun e => e.1 != k)

/-- The object stored under a key has changed; the dictionary itself has not. (As in `steit-csharp/src/Collections/StateMap.cs:51-53`.) -/
def dictPut {α : Type} (k : U32) (x : α) : List (U32 × α) → List (U32 × α)
  | [] => []
  | (j, y) :: d => if j = k then (j, x) :: d else (j, y) :: dictPut k x d

/-! ## Deserialization -/

/-- `StateFactory.DeserializeNested`, `State/StateFactory.cs:73-81`: states and strings are read by a nested reader, which is
dropped, other primitives from the reader itself. -/
def csNested {α : Type} (sized : Bool) (read : Bytes → Except Exn (α × Bytes)) (bs : Bytes) : Except Exn (α × Bytes) :=
  if sized then do
    let (payload, rest) ← csGetNested bs
    let (x, _) ← read payload
    .ok (x, rest)
  else read bs

/-- One round of the loops of `Vector.Deserialize` and `StateList.Deserialize`, `Vector.cs:26-29`, `StateList.cs:38-40`. -/
def csAddItem {α : Type} (read : Bytes → Except Exn (α × Bytes)) (items : List α) (bs : Bytes) :
    Except Exn (List α × Bytes) := do
  let (x, rest) ← read bs
  .ok (items ++ [x], rest)

/-- One round of the loop of `StateMap.Deserialize`, `StateMap.cs:37-41`: the wire type is ignored. -/
def csAddEntry {α : Type} (read : Bytes → Except Exn (α × Bytes)) (entries : List (U32 × α)) (bs : Bytes) :
    Except Exn (List (U32 × α) × Bytes) := do
  let ((tag, _), rest) ← csReadKey bs
  let (x, rest) ← read rest
  .ok (dictSet tag x entries, rest)

/-- One round of the loop of `State.Replace`, `State/State.cs:24-57`, given `GetWireType` and `ReplaceAt` of the message. -/
def csReplaceStep {σ : Type} (getWireType : U32 → Option WireType)
    (replaceAt : U32 → WireType → Bytes → σ → Except Exn (σ × Bytes)) (v : σ) (bs : Bytes) : Except Exn (σ × Bytes) := do
  let ((tag, wireType), bs) ← csReadKey bs
  match wireType with
  | .sized =>
    let (payload, rest) ← csGetNested bs
    if getWireType tag = some .varint then .ok (v, rest)
    else
      let (v, _) ← replaceAt tag .sized payload v
      .ok (v, rest)
  | .varint =>
    if getWireType tag = some .sized then
      let rest ← csSkipField .varint bs
      .ok (v, rest)
    else replaceAt tag .varint bs v

/-- `GetWireType` of a generated message, `csharp.rs:242-268`. -/
def Fields.csGetWireType : Fields → U32 → Option WireType
  | .nil, _ => none
  | .cons tag attrs t fs, tag' => if tag' = tag then some (csFieldWire attrs t) else fs.csGetWireType tag'

mutual
/-- `T.Deserialize(reader, path)` of a state, `StateFactory.DeserializePrimitive` of a primitive
(`State/StateFactory.cs:83-92`). Messages: `csharp.rs:229-240`, construct and `Replace`; `Option.cs:32-38`;
`Bytes.cs:17-19`; enums: `csharp.rs:494-505` with the first branch of `Replace` (`State.cs:18-22`) and the generated
`ReplaceAt` (`csharp.rs:526-541`), which leaves the default variant if it does not know the tag. -/
def Ty.csDeserialize (ρ : Bytes → Str) : (t : Ty) → Bytes → Except Exn (t.Cs × Bytes)
  | .uint w, bs => csReadUInt w bs
  | .sint w, bs => csReadSInt w bs
  | .bool, bs => csReadBoolean bs
  | .string, bs => .ok (some (csGetString ρ bs), [])
  | .bytes, bs => .ok (bs, [])
  | .vec t, bs => do
    let items ← untilEnd (csAddItem (csNested (t.isCsState || t.isCsString) (fun bs => t.csDeserialize ρ bs))) bs.length [] bs
    .ok (items, [])
  | .array _ t, bs => do
    let items ← untilEnd (csAddItem (csNested (t.isCsState || t.isCsString) (fun bs => t.csDeserialize ρ bs))) bs.length [] bs
    .ok (items, [])
  | .tuple _, _ => .error .notSupported
  | .option t, bs =>
    if bs = [] then .ok (none, [])
    else do
      let (x, rest) ← csNested (t.isCsState || t.isCsString) (fun bs => t.csDeserialize ρ bs) bs
      .ok (some x, rest)
  | .box t, bs => t.csDeserialize ρ bs
  | .hashMap _ _, _ => .error .notSupported
  | .list t, bs => do
    let items ← untilEnd (csAddItem (csNested (t.isCsState || t.isCsString) (fun bs => t.csDeserialize ρ bs))) bs.length [] bs
    .ok (items, [])
  | .map _ t, bs => do
    let entries ← untilEnd (csAddEntry (csNested (t.isCsState || t.isCsString) (fun bs => t.csDeserialize ρ bs))) bs.length [] bs
    .ok (entries, [])
  | .struct _ _ fs, bs => do
    let v ← untilEnd (csReplaceStep fs.csGetWireType (fun tag wire bs v => fs.csReplaceAt ρ tag wire bs v)) bs.length
      fs.csNew bs
    .ok (v, [])
  | .enum _ _ fs vs, bs => do
    let (variant, bs) ← csReadUInt32 bs
    if variant = 0#32 then
      let v ← untilEnd (csReplaceStep fs.csGetWireType (fun tag wire bs v => fs.csReplaceAt ρ tag wire bs v)) bs.length
        fs.csNew bs
      .ok (.inl v, [])
    else
      match ← vs.csVariant ρ variant bs with
      | some v => .ok (.inr v, [])
      | none => .ok (.inl fs.csNew, [])

/-- `ReplaceAt` of a generated message, `csharp.rs:297-336`. -/
def Fields.csReplaceAt (ρ : Bytes → Str) : (fs : Fields) → U32 → WireType → Bytes → fs.Cs → Except Exn (fs.Cs × Bytes)
  | .nil, _, wire, bs, v => do
    let rest ← csSkipField wire bs
    .ok (v, rest)
  | .cons tag _ t fs, tag', wire, bs, v =>
    if tag' = tag then do
      let (x, rest) ← t.csDeserialize ρ bs
      .ok ((x, v.2), rest)
    else do
      let (y, rest) ← fs.csReplaceAt ρ tag' wire bs v.2
      .ok ((v.1, y), rest)

/-- The `case` of a known variant in `ReplaceAt` of a generated enum, `csharp.rs:531-536`; `none` for an unknown tag. -/
def Variants.csVariant (ρ : Bytes → Str) : (vs : Variants) → U32 → Bytes → Except Exn (Option vs.Cs)
  | .nil, _, _ => .ok none
  | .cons tag _ fs vs, variant, bs =>
    if variant = tag then do
      let v ← untilEnd (csReplaceStep fs.csGetWireType (fun tag wire bs v => fs.csReplaceAt ρ tag wire bs v)) bs.length
        fs.csNew bs
      .ok (some (.inl v))
    else do
      let v ← vs.csVariant ρ variant bs
      .ok (v.map .inr)
end

/-- `X.Deserialize(reader)` called by the user without a path. The classes replace `null` by `Path.Root`, except
`Option.cs:32-38`, which goes on to call `path.GetNested(0)` for a nested state (`StateFactory.cs:77`). -/
def Ty.csDeserializeRoot (ρ : Bytes → Str) (t : Ty) (bs : Bytes) : Except Exn (t.Cs × Bytes) :=
  match t with
  | .option t' =>
    if bs ≠ [] ∧ t'.isCsState = true then
      match csGetNested bs with
      | .error e => .error e
      | .ok _ => .error .nullReference
    else (Ty.option t').csDeserialize ρ bs
  | t => t.csDeserialize ρ bs

/-! ## Replay -/

/-- What a log entry does to the state it addresses (`StateReplayer.cs:38-67`). -/
inductive CsAct
  /-- `container.ReplaceAt(tag, …)`, if `GetWireType(tag)` is not null. -/
  | update (tag : U32) (value : Bytes)
  | push (item : Bytes)
  | pop
  | remove (key : U32)

/-- `StateReplayer.Replay`, `StateReplayer.cs:39-46`, and the generated `ReplayListPush` etc. (`csharp.rs:338-344`) on a
message. -/
def Fields.csPerform (ρ : Bytes → Str) (fs : Fields) (act : CsAct) (v : fs.Cs) : Except Exn fs.Cs :=
  match act with
  | .update tag value =>
    match fs.csGetWireType tag with
    | none => .ok v
    | some wire => do
      let (v, _) ← fs.csReplaceAt ρ tag wire value v
      .ok v
  | _ => .error .notSupported

/-- The switch of `StateReplayer.Replay`, `StateReplayer.cs:38-67`, on a container: `StateList.cs:45-95`, `StateMap.cs:46-84`,
`Vector.cs:34-44`, `Option.cs:40-49`, `Bytes.cs:21-31`, generated messages and enums (`csharp.rs:507-558`). Primitives are
no containers. -/
def Ty.csPerform (ρ : Bytes → Str) : (t : Ty) → CsAct → t.Cs → Except Exn t.Cs
  | .list t, .update tag value, v =>
    if v.length ≤ tag.toNat then .error .indexOutOfRange
    else do
      let (x, _) ← t.csDeserialize ρ value
      .ok (v.set tag.toNat x)
  | .list t, .push item, v => do
    let (x, _) ← t.csDeserialize ρ item
    .ok (v ++ [x])
  | .list _, .pop, v => if v = [] then .error .invalidOperation else .ok v.dropLast
  | .list _, .remove _, _ => .error .notSupported
  | .map _ t, .update tag value, v => do
    let (x, _) ← t.csDeserialize ρ value
    .ok (dictSet tag x v)
  | .map _ _, .remove key, v => if (v.lookup key).isNone then .error .keyNotFound else .ok (dictRemove key v)
  | .map _ _, _, _ => .error .notSupported
  | .struct _ _ fs, act, v => fs.csPerform ρ act v
  | .enum _ _ fs vs, .update tag value, v =>
    if tag = 0#32 then do
      let x ← (Ty.struct false false fs).csDeserialize ρ value
      .ok (.inl x.1)
    else do
      match ← vs.csVariant ρ tag value with
      | some x => .ok (.inr x)
      | none => .ok v
  | .enum _ _ _ _, _, _ => .error .notSupported
  | .box t, act, v => t.csPerform ρ act v
  | _, .update _ _, v => .ok v
  | _, _, _ => .error .notSupported

/-- Follow a path by `GetNested` (`State.cs:9-15`), and perform the action at its end. -/
def descend {β : Type} (perform : β → Except Exn β) (below : U32 → List U32 → β → Except Exn β) :
    List U32 → β → Except Exn β
  | [], v => perform v
  | k :: path, v => below k path v

mutual
/-- Follow a non-empty path: `GetNested(k)` of the object, then the rest. Nothing happens if it returns null
(`StateReplayer.cs:34-36`): `StateList.cs:50-52`, `StateMap.cs:51-53`, generated messages `csharp.rs:270-295` and enums
`csharp.rs:522-524`; always null for the others. -/
def Ty.csBelow (ρ : Bytes → Str) (act : CsAct) : (t : Ty) → U32 → List U32 → t.Cs → Except Exn t.Cs
  | .list t, k, path, v =>
    if t.isCsState then
      match v[k.toNat]? with
      | none => .ok v
      | some x => do
        let x ← descend (t.csPerform ρ act) (fun k path v => t.csBelow ρ act k path v) path x
        .ok (v.set k.toNat x)
    else .ok v
  | .map _ t, k, path, v =>
    if t.isCsState then
      match v.lookup k with
      | none => .ok v
      | some x => do
        let x ← descend (t.csPerform ρ act) (fun k path v => t.csBelow ρ act k path v) path x
        .ok (dictPut k x v)
    else .ok v
  | .struct _ _ fs, k, path, v => fs.csBelow ρ act k path v
  | .enum _ _ fs vs, k, path, v =>
    match v with
    | .inl x =>
      if k = 0#32 then do
        let x ← descend (fs.csPerform ρ act) (fun k path v => fs.csBelow ρ act k path v) path x
        .ok (.inl x)
      else .ok (.inl x)
    | .inr x => do
      let x ← vs.csBelow ρ act k path x
      .ok (.inr x)
  | .box t, k, path, v => t.csBelow ρ act k path v
  | _, _, _, v => .ok v

/-- `GetNested` of a message, `csharp.rs:270-295`. -/
def Fields.csBelow (ρ : Bytes → Str) (act : CsAct) : (fs : Fields) → U32 → List U32 → fs.Cs → Except Exn fs.Cs
  | .nil, _, _, v => .ok v
  | .cons tag _ t fs, k, path, v =>
    if k = tag then
      if t.isCsState then do
        let x ← descend (t.csPerform ρ act) (fun k path v => t.csBelow ρ act k path v) path v.1
        .ok (x, v.2)
      else .ok v
    else do
      let y ← fs.csBelow ρ act k path v.2
      .ok (v.1, y)

/-- `GetNested` of an enum, `csharp.rs:522-524`: only the current variant. -/
def Variants.csBelow (ρ : Bytes → Str) (act : CsAct) : (vs : Variants) → U32 → List U32 → vs.Cs → Except Exn vs.Cs
  | .nil, _, _, v => .ok v
  | .cons tag _ fs vs, k, path, v =>
    match v with
    | .inl x =>
      if k = tag then do
        let x ← descend (fs.csPerform ρ act) (fun k path v => fs.csBelow ρ act k path v) path x
        .ok (.inl x)
      else .ok (.inl x)
    | .inr x => do
      let x ← vs.csBelow ρ act k path x
      .ok (.inr x)
end

/-- Perform an action at a path. (`steit-csharp/src/State/State.cs:9-15`, `steit-csharp/src/State/StateReplayer.cs:32-68`.) -/
def Ty.csAt (ρ : Bytes → Str) (t : Ty) (act : CsAct) (path : List U32) (v : t.Cs) : Except Exn t.Cs :=
  descend (t.csPerform ρ act) (t.csBelow ρ act) path v

/-- `StateReplayer.Replay(ref root, entry)`, `StateReplayer.cs:16-69`: the last component of the path of an update is the field
to be replaced; without one the root is. -/
def Ty.csReplayEntry (ρ : Bytes → Str) (t : Ty) (v : t.Cs) : Entry → Except Exn t.Cs
  | .update path value =>
    match path.getLast? with
    | none => do
      let (v, _) ← t.csDeserialize ρ value
      .ok v
    | some tag => t.csAt ρ (.update tag value) path.dropLast v
  | .listPush path item => t.csAt ρ (.push item) path v
  | .listPop path => t.csAt ρ .pop path v
  | .mapRemove path key => t.csAt ρ (.remove key) path v

/-- The entry a deserialized `LogEntry` is (`State/LogEntry.cs` is the class generated for `logEntryTy`). -/
def Entry.ofCs (v : logEntryTy.Cs) : Entry :=
  match v with
  | .inl (path, value, ()) => .update path value
  | .inr (.inl (path, item, ())) => .listPush path item
  | .inr (.inr (.inl (path, ()))) => .listPop path
  | .inr (.inr (.inr (.inl (path, key, ())))) => .mapRemove path key

/-- One round of `StateReplayer.Replay(ref root, reader)`, `StateReplayer.cs:10-13`. -/
def Ty.csReplayStep (ρ : Bytes → Str) (t : Ty) (v : t.Cs) (bs : Bytes) : Except Exn (t.Cs × Bytes) := do
  let (payload, rest) ← csGetNested bs
  let (entry, _) ← logEntryTy.csDeserialize ρ payload
  let v ← t.csReplayEntry ρ v (.ofCs entry)
  .ok (v, rest)

/-- `StateReplayer.Replay(ref root, reader)`, `StateReplayer.cs:9-14`. -/
def Ty.csReplay (ρ : Bytes → Str) (t : Ty) (v : t.Cs) (bs : Bytes) : Except Exn t.Cs :=
  untilEnd (t.csReplayStep ρ) bs.length v bs

end Steit
