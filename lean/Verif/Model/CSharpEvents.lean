import Verif.Model.CSharp

/-!
# The C# client, with the paths of its objects and the events it raises

`Model/CSharp.lean` once more, with two things that are left out there: every state object has a `Path` (given to its constructor),
and replaying tells event handlers what is about to change. Reading bytes is shared with `Model/CSharp.lean`; the two are proved to
agree (`Lemmas/CSharpEvents.lean`).

* A `Path` is the list of its tags, `Path.Root` the empty list, `path.GetNested(tag)` appends (`State/Path.cs:5-20`). Only a state
  constructed by the user without a path gets `Path.Root` in place of `null`; here a path is always given. (An `Option` is the
  exception, see `Ty.csDeserializeRoot`.)
* Handlers are called one after the other and are assumed to return without touching the state. An event is recorded whether or not
  a handler is registered.
-/

namespace Steit

/-- A state object: its `Path` (`State/IState.cs:7`) and what it holds. -/
structure Obj (α : Type) where
  path : List U32
  data : α

mutual
/-- The C# object standing for a value, as `Ty.Cs`, with the `Path` of every `IState`: `Bytes.cs:9`, `Vector.cs:10`, `Option.cs:8`,
`StateList.cs:11`, `StateMap.cs:11`, generated messages `csharp.rs:100` and enums `csharp.rs:409`. The variants of an enum are
messages. -/
@[reducible] def Ty.CsObj : Ty → Type
  | .uint w => BitVec w.bits
  | .sint w => BitVec w.bits
  | .bool => Bool
  | .string => Option Str
  | .bytes => Obj Bytes
  | .vec t => Obj (List t.CsObj)
  | .array _ t => Obj (List t.CsObj)
  | .tuple _ => Unit
  | .option t => Obj (Option t.CsObj)
  | .box t => t.CsObj
  | .hashMap _ _ => Unit
  | .list t => Obj (List t.CsObj)
  | .map _ t => Obj (List (U32 × t.CsObj))
  | .struct _ _ fs => Obj fs.CsObj
  | .enum _ _ fs vs => Obj (Obj fs.CsObj ⊕ vs.CsObj)

/-- The properties of a message, as `Fields.Cs`. (Classes generated by `steit/src/gen/generators/csharp.rs:70-372`.) -/
@[reducible] def Fields.CsObj : Fields → Type
  | .nil => Unit
  | .cons _ _ t fs => t.CsObj × fs.CsObj

/-- The current variant, as `Variants.Cs`. (Classes generated by `steit/src/gen/generators/csharp.rs:374-576`.) -/
@[reducible] def Variants.CsObj : Variants → Type
  | .nil => Empty
  | .cons _ _ fs vs => Obj fs.CsObj ⊕ vs.CsObj
end

/-- A variant object seen as an `IState`. (`steit-csharp/src/State/IEnumState.cs:4-8`.) -/
structure AnyVariant where
  fs : Fields
  obj : Obj fs.CsObj

/-- The `EventArgs` given to handlers, `State/Event/*.cs`. The container is represented by its `Path`, values come with their
type. -/
inductive CsEvent
  /-- `FieldUpdateEventArgs.cs:4-16`. -/
  | fieldUpdate (container : List U32) (tag : U32) (t : Ty) (newValue oldValue : t.CsObj)
  /-- `VariantUpdateEventArgs.cs:4-27`. -/
  | variantUpdate (container : List U32) (newTag : U32) (newVariant : AnyVariant) (oldTag : U32) (oldVariant : AnyVariant)
  /-- `ListPushEventArgs.cs:5-15`. -/
  | listPush (container : List U32) (tag : U32) (t : Ty) (item : t.CsObj)
  /-- `ListPopEventArgs.cs:5-15`. -/
  | listPop (container : List U32) (tag : U32) (t : Ty) (item : t.CsObj)
  /-- `MapInsertEventArgs.cs:5-15`. -/
  | mapInsert (container : List U32) (tag : U32) (t : Ty) (value : t.CsObj)
  /-- `MapRemoveEventArgs.cs:5-15`. -/
  | mapRemove (container : List U32) (tag : U32) (t : Ty) (value : t.CsObj)

/-- `if (shouldNotify) { … Invoke(…) }`.
(`steit-csharp/src/Collections/StateList.cs:54-91`, `steit-csharp/src/Collections/StateMap.cs:55-84`.) -/
def raised (shouldNotify : Bool) (event : CsEvent) : List CsEvent := if shouldNotify then [event] else []

mutual
/-- A newly constructed object, as `Ty.csNew`: `new T(path)`, `StateFactory.Construct<T>(path)` (`StateFactory.cs:46-54`). -/
def Ty.csConstruct : (t : Ty) → List U32 → t.CsObj
  | .uint w, _ => 0#w.bits
  | .sint w, _ => 0#w.bits
  | .bool, _ => false
  | .string, _ => none
  | .bytes, path => ⟨path, []⟩
  | .vec _, path => ⟨path, []⟩
  | .array _ _, path => ⟨path, []⟩
  | .tuple _, _ => ()
  | .option _, path => ⟨path, none⟩
  | .box t, path => t.csConstruct path
  | .hashMap _ _, _ => ()
  | .list _, path => ⟨path, []⟩
  | .map _ _, path => ⟨path, []⟩
  | .struct _ _ fs, path => ⟨path, fs.csConstruct path⟩
  | .enum _ _ fs _, path => ⟨path, .inl ⟨path ++ [0#32], fs.csConstruct (path ++ [0#32])⟩⟩

/-- The constructor of a message with this path, `csharp.rs:114-159`: nested states get `this.Path.GetNested(tag)`. -/
def Fields.csConstruct : (fs : Fields) → List U32 → fs.CsObj
  | .nil, _ => ()
  | .cons tag _ t fs, path => (t.csConstruct (path ++ [tag]), fs.csConstruct path)
end

/-- `Tag` and `Variant` of a generated enum which does not have its default variant, `csharp.rs:411-412`. -/
def Variants.csCurrent : (vs : Variants) → vs.CsObj → U32 × AnyVariant
  | .cons tag _ fs _, .inl x => (tag, ⟨fs, x⟩)
  | .cons _ _ _ vs, .inr x => vs.csCurrent x

/-- `Tag` and `Variant` of a generated enum, `csharp.rs:411-412`. -/
def csCurrent (fs : Fields) (vs : Variants) : Obj fs.CsObj ⊕ vs.CsObj → U32 × AnyVariant
  | .inl x => (0#32, ⟨fs, x⟩)
  | .inr x => vs.csCurrent x

/-- `UpdateAndNotify` of a generated enum, `csharp.rs:547-558`: the event (the change itself is made by the caller). -/
def csVariantEvent (fs : Fields) (vs : Variants) (shouldNotify : Bool) (path : List U32) (newVariant oldVariant : Obj fs.CsObj ⊕ vs.CsObj) :
    List CsEvent :=
  raised shouldNotify (.variantUpdate path (csCurrent fs vs newVariant).1 (csCurrent fs vs newVariant).2
    (csCurrent fs vs oldVariant).1 (csCurrent fs vs oldVariant).2)

/-! ## Deserialization -/

/-- One round of the loops of `Vector.Deserialize` and `StateList.Deserialize`, `Vector.cs:23-30`, `StateList.cs:35-40`: `tag` counts
the items. -/
def csAddItemAt {α : Type} (read : List U32 → Bytes → Except Exn ((α × List CsEvent) × Bytes)) (path : List U32)
    (s : List α × List CsEvent) (bs : Bytes) : Except Exn ((List α × List CsEvent) × Bytes) := do
  let (x, rest) ← read (path ++ [BitVec.ofNat 32 s.1.length]) bs
  .ok ((s.1 ++ [x.1], s.2 ++ x.2), rest)

/-- One round of the loop of `StateMap.Deserialize`, `StateMap.cs:37-41`. -/
def csAddEntryAt {α : Type} (read : List U32 → Bytes → Except Exn ((α × List CsEvent) × Bytes)) (path : List U32)
    (s : List (U32 × α) × List CsEvent) (bs : Bytes) : Except Exn ((List (U32 × α) × List CsEvent) × Bytes) := do
  let ((tag, _), rest) ← csReadKey bs
  let (x, rest) ← read (path ++ [tag]) rest
  .ok ((dictSet tag x.1 s.1, s.2 ++ x.2), rest)

/-- What a primitive or a leaf reads, without events. (`steit-csharp/src/State/StateFactory.cs:83-92`.) -/
def quiet {α β : Type} (f : α → β) (r : Except Exn (α × Bytes)) : Except Exn ((β × List CsEvent) × Bytes) := do
  let (x, rest) ← r
  .ok ((f x, []), rest)

mutual
/-- `T.Deserialize(reader, path)` of a state, `StateFactory.DeserializePrimitive` of a primitive, as `Ty.csDeserialize`, with the
events raised meanwhile. Items get `path.GetNested(tag)` (`StateFactory.cs:65-81`), messages and enums are first constructed with
the path, then `Replace(reader, shouldNotify: false)` (`csharp.rs:229-240`, `494-505`). -/
def Ty.csDeserializeAt (ρ : Bytes → Str) : (t : Ty) → List U32 → Bytes → Except Exn ((t.CsObj × List CsEvent) × Bytes)
  | .uint w, _, bs => quiet id (csReadUInt w bs)
  | .sint w, _, bs => quiet id (csReadSInt w bs)
  | .bool, _, bs => quiet id (csReadBoolean bs)
  | .string, _, bs => .ok ((some (csGetString ρ bs), []), [])
  | .bytes, path, bs => .ok ((⟨path, bs⟩, []), [])
  | .vec t, path, bs => do
    let (items, events) ← untilEnd (csAddItemAt (fun path bs => csNested (t.isCsState || t.isCsString)
      (fun bs => t.csDeserializeAt ρ path bs) bs) path) bs.length ([], []) bs
    .ok ((⟨path, items⟩, events), [])
  | .array _ t, path, bs => do
    let (items, events) ← untilEnd (csAddItemAt (fun path bs => csNested (t.isCsState || t.isCsString)
      (fun bs => t.csDeserializeAt ρ path bs) bs) path) bs.length ([], []) bs
    .ok ((⟨path, items⟩, events), [])
  | .tuple _, _, _ => .error .notSupported
  | .option t, path, bs =>
    if bs = [] then .ok ((⟨path, none⟩, []), [])
    else do
      let ((x, events), rest) ← csNested (t.isCsState || t.isCsString) (fun bs => t.csDeserializeAt ρ (path ++ [0#32]) bs) bs
      .ok ((⟨path, some x⟩, events), rest)
  | .box t, path, bs => t.csDeserializeAt ρ path bs
  | .hashMap _ _, _, _ => .error .notSupported
  | .list t, path, bs => do
    let (items, events) ← untilEnd (csAddItemAt (fun path bs => csNested (t.isCsState || t.isCsString)
      (fun bs => t.csDeserializeAt ρ path bs) bs) path) bs.length ([], []) bs
    .ok ((⟨path, items⟩, events), [])
  | .map _ t, path, bs => do
    let (entries, events) ← untilEnd (csAddEntryAt (fun path bs => csNested (t.isCsState || t.isCsString)
      (fun bs => t.csDeserializeAt ρ path bs) bs) path) bs.length ([], []) bs
    .ok ((⟨path, entries⟩, events), [])
  | .struct _ _ fs, path, bs => do
    let (v, events) ← untilEnd (csReplaceStep fs.csGetWireType (fun tag wire bs v => fs.csReplaceAtObj ρ false path tag wire bs v))
      bs.length (fs.csConstruct path, []) bs
    .ok ((⟨path, v⟩, events), [])
  | .enum _ _ fs vs, path, bs => do
    let (variant, bs) ← csReadUInt32 bs
    if variant = 0#32 then
      let (v, events) ← untilEnd (csReplaceStep fs.csGetWireType
        (fun tag wire bs v => fs.csReplaceAtObj ρ false (path ++ [0#32]) tag wire bs v)) bs.length (fs.csConstruct (path ++ [0#32]), []) bs
      .ok ((⟨path, .inl ⟨path ++ [0#32], v⟩⟩, events ++ csVariantEvent fs vs false path (.inl ⟨path ++ [0#32], v⟩)
        (.inl ⟨path ++ [0#32], fs.csConstruct (path ++ [0#32])⟩)), [])
    else
      match ← vs.csVariantAt ρ path variant bs with
      | some (v, events) => .ok ((⟨path, .inr v⟩, events ++ csVariantEvent fs vs false path (.inr v)
          (.inl ⟨path ++ [0#32], fs.csConstruct (path ++ [0#32])⟩)), [])
      | none => .ok ((⟨path, .inl ⟨path ++ [0#32], fs.csConstruct (path ++ [0#32])⟩⟩, []), [])

/-- `ReplaceAt` of a generated message whose `Path` is `this`, `csharp.rs:297-336`: `MaybeNotify` (`csharp.rs:346-366`) is given the
new value, which has been read by then, and the old one. Takes and returns the properties and the events so far. -/
def Fields.csReplaceAtObj (ρ : Bytes → Str) (shouldNotify : Bool) (this : List U32) : (fs : Fields) → U32 → WireType → Bytes →
    fs.CsObj × List CsEvent → Except Exn ((fs.CsObj × List CsEvent) × Bytes)
  | .nil, _, wire, bs, s => do
    let rest ← csSkipField wire bs
    .ok (s, rest)
  | .cons tag _ t fs, tag', wire, bs, s =>
    if tag' = tag then do
      let ((x, events), rest) ← t.csDeserializeAt ρ (this ++ [tag]) bs
      .ok (((x, s.1.2), s.2 ++ events ++ raised shouldNotify (.fieldUpdate this tag t x s.1.1)), rest)
    else do
      let ((y, events), rest) ← fs.csReplaceAtObj ρ shouldNotify this tag' wire bs (s.1.2, s.2)
      .ok (((s.1.1, y), events), rest)

/-- The `case` of a known variant in `ReplaceAt` of a generated enum whose `Path` is `this`, `csharp.rs:531-536`: the variant is
deserialized with `this.Path.GetNested(tag)`. -/
def Variants.csVariantAt (ρ : Bytes → Str) (this : List U32) : (vs : Variants) → U32 → Bytes →
    Except Exn (Option (vs.CsObj × List CsEvent))
  | .nil, _, _ => .ok none
  | .cons tag _ fs vs, variant, bs =>
    if variant = tag then do
      let (v, events) ← untilEnd (csReplaceStep fs.csGetWireType
        (fun tag' wire bs v => fs.csReplaceAtObj ρ false (this ++ [tag]) tag' wire bs v)) bs.length (fs.csConstruct (this ++ [tag]), []) bs
      .ok (some (.inl ⟨this ++ [tag], v⟩, events))
    else do
      let v ← vs.csVariantAt ρ this variant bs
      .ok (v.map fun x => (.inr x.1, x.2))
end

/-! ## Replay -/

/-- An action on a message, as `Fields.csPerform`, with the events raised.
(Classes generated by `steit/src/gen/generators/csharp.rs:70-576`, `steit-csharp/src/State/State.cs:9-15`.) -/
def Fields.csPerformObj (ρ : Bytes → Str) (fs : Fields) (act : CsAct) (o : Obj fs.CsObj) : Except Exn (Obj fs.CsObj × List CsEvent) :=
  match act with
  | .update tag value =>
    match fs.csGetWireType tag with
    | none => .ok (o, [])
    | some wire => do
      let ((v, events), _) ← fs.csReplaceAtObj ρ true o.path tag wire value (o.data, [])
      .ok (⟨o.path, v⟩, events)
  | _ => .error .notSupported

/-- An action on a container, as `Ty.csPerform`, with the events raised: `StateList.cs:54-91`, `StateMap.cs:55-84`, generated
messages (`csharp.rs:297-366`) and enums (`csharp.rs:526-558`). `(UInt32) this.Count` is the number of items. -/
def Ty.csPerformObj (ρ : Bytes → Str) : (t : Ty) → CsAct → t.CsObj → Except Exn (t.CsObj × List CsEvent)
  | .list t, .update tag value, o =>
    match o.data[tag.toNat]? with
    | none => .error .indexOutOfRange
    | some old => do
      let ((x, events), _) ← t.csDeserializeAt ρ (o.path ++ [tag]) value
      .ok (⟨o.path, o.data.set tag.toNat x⟩, events ++ raised true (.fieldUpdate o.path tag t x old))
  | .list t, .push item, o => do
    let ((x, events), _) ← t.csDeserializeAt ρ (o.path ++ [BitVec.ofNat 32 o.data.length]) item
    .ok (⟨o.path, o.data ++ [x]⟩, events ++ [.listPush o.path (BitVec.ofNat 32 o.data.length) t x])
  | .list t, .pop, o =>
    match o.data.getLast? with
    | none => .error .invalidOperation
    | some x => .ok (⟨o.path, o.data.dropLast⟩, [.listPop o.path (BitVec.ofNat 32 (o.data.length - 1)) t x])
  | .list _, .remove _, _ => .error .notSupported
  | .map _ t, .update tag value, o => do
    let ((x, events), _) ← t.csDeserializeAt ρ (o.path ++ [tag]) value
    .ok (⟨o.path, dictSet tag x o.data⟩, events ++ match o.data.lookup tag with
      | some old => raised true (.fieldUpdate o.path tag t x old)
      | none => raised true (.mapInsert o.path tag t x))
  | .map _ t, .remove key, o =>
    match o.data.lookup key with
    | none => .error .keyNotFound
    | some x => .ok (⟨o.path, dictRemove key o.data⟩, [.mapRemove o.path key t x])
  | .map _ _, _, _ => .error .notSupported
  | .struct _ _ fs, act, o => fs.csPerformObj ρ act o
  | .enum _ _ fs vs, .update tag value, o =>
    if tag = 0#32 then do
      let ((x, events), _) ← (Ty.struct false false fs).csDeserializeAt ρ (o.path ++ [0#32]) value
      .ok (⟨o.path, .inl x⟩, events ++ csVariantEvent fs vs true o.path (.inl x) o.data)
    else do
      match ← vs.csVariantAt ρ o.path tag value with
      | some (x, events) => .ok (⟨o.path, .inr x⟩, events ++ csVariantEvent fs vs true o.path (.inr x) o.data)
      | none => .ok (o, [])
  | .enum _ _ _ _, _, _ => .error .notSupported
  | .box t, act, o => t.csPerformObj ρ act o
  | _, .update _ _, o => .ok (o, [])
  | _, _, _ => .error .notSupported

/-- Follow a path by `GetNested` and perform the action at its end, as `descend`. (`steit-csharp/src/State/State.cs:9-15`.) -/
def descendObj {β : Type} (perform : β → Except Exn (β × List CsEvent)) (below : U32 → List U32 → β → Except Exn (β × List CsEvent)) :
    List U32 → β → Except Exn (β × List CsEvent)
  | [], o => perform o
  | k :: path, o => below k path o

mutual
/-- Follow a non-empty path, as `Ty.csBelow`: nothing happens and no event is raised if `GetNested` returns null.
(Classes generated by `steit/src/gen/generators/csharp.rs:70-576`, `steit-csharp/src/State/State.cs:9-15`.) -/
def Ty.csBelowObj (ρ : Bytes → Str) (act : CsAct) : (t : Ty) → U32 → List U32 → t.CsObj → Except Exn (t.CsObj × List CsEvent)
  | .list t, k, path, o =>
    if t.isCsState then
      match o.data[k.toNat]? with
      | none => .ok (o, [])
      | some x => do
        let (x, events) ← descendObj (t.csPerformObj ρ act) (fun k path o => t.csBelowObj ρ act k path o) path x
        .ok (⟨o.path, o.data.set k.toNat x⟩, events)
    else .ok (o, [])
  | .map _ t, k, path, o =>
    if t.isCsState then
      match o.data.lookup k with
      | none => .ok (o, [])
      | some x => do
        let (x, events) ← descendObj (t.csPerformObj ρ act) (fun k path o => t.csBelowObj ρ act k path o) path x
        .ok (⟨o.path, dictPut k x o.data⟩, events)
    else .ok (o, [])
  | .struct _ _ fs, k, path, o => do
    let (v, events) ← fs.csBelowObj ρ act k path o.data
    .ok (⟨o.path, v⟩, events)
  | .enum _ _ fs vs, k, path, o =>
    match o.data with
    | .inl x =>
      if k = 0#32 then do
        let (x, events) ← descendObj (fs.csPerformObj ρ act) (fun k path o => do
          let (v, events) ← fs.csBelowObj ρ act k path o.data
          .ok (⟨o.path, v⟩, events)) path x
        .ok (⟨o.path, .inl x⟩, events)
      else .ok (o, [])
    | .inr x => do
      let (x, events) ← vs.csBelowObj ρ act k path x
      .ok (⟨o.path, .inr x⟩, events)
  | .box t, k, path, o => t.csBelowObj ρ act k path o
  | _, _, _, o => .ok (o, [])

/-- `GetNested` of a message, as `Fields.csBelow`.
(Classes generated by `steit/src/gen/generators/csharp.rs:70-576`, `steit-csharp/src/State/State.cs:9-15`.) -/
def Fields.csBelowObj (ρ : Bytes → Str) (act : CsAct) : (fs : Fields) → U32 → List U32 → fs.CsObj → Except Exn (fs.CsObj × List CsEvent)
  | .nil, _, _, v => .ok (v, [])
  | .cons tag _ t fs, k, path, v =>
    if k = tag then
      if t.isCsState then do
        let (x, events) ← descendObj (t.csPerformObj ρ act) (fun k path o => t.csBelowObj ρ act k path o) path v.1
        .ok ((x, v.2), events)
      else .ok (v, [])
    else do
      let (y, events) ← fs.csBelowObj ρ act k path v.2
      .ok ((v.1, y), events)

/-- `GetNested` of an enum, as `Variants.csBelow`.
(Classes generated by `steit/src/gen/generators/csharp.rs:70-576`, `steit-csharp/src/State/State.cs:9-15`.) -/
def Variants.csBelowObj (ρ : Bytes → Str) (act : CsAct) : (vs : Variants) → U32 → List U32 → vs.CsObj →
    Except Exn (vs.CsObj × List CsEvent)
  | .nil, _, _, v => .ok (v, [])
  | .cons tag _ fs vs, k, path, v =>
    match v with
    | .inl x =>
      if k = tag then do
        let (x, events) ← descendObj (fs.csPerformObj ρ act) (fun k path o => do
          let (v, events) ← fs.csBelowObj ρ act k path o.data
          .ok (⟨o.path, v⟩, events)) path x
        .ok (.inl x, events)
      else .ok (.inl x, [])
    | .inr x => do
      let (x, events) ← vs.csBelowObj ρ act k path x
      .ok (.inr x, events)
end

/-- The `Path` of a state. (Primitives have none; `Replay` is declared for `T : IState`.) (`steit-csharp/src/State/IState.cs:6-19`.) -/
def Ty.csPath : (t : Ty) → t.CsObj → List U32
  | .uint _, _ => []
  | .sint _, _ => []
  | .bool, _ => []
  | .string, _ => []
  | .bytes, o => o.path
  | .vec _, o => o.path
  | .array _ _, o => o.path
  | .tuple _, _ => []
  | .option _, o => o.path
  | .box t, o => t.csPath o
  | .hashMap _ _, _ => []
  | .list _, o => o.path
  | .map _ _, o => o.path
  | .struct _ _ _, o => o.path
  | .enum _ _ _ _, o => o.path

/-- Perform an action at a path, as `Ty.csAt`.
(Classes generated by `steit/src/gen/generators/csharp.rs:70-576`, `steit-csharp/src/State/State.cs:9-15`.) -/
def Ty.csAtObj (ρ : Bytes → Str) (t : Ty) (act : CsAct) (path : List U32) (o : t.CsObj) : Except Exn (t.CsObj × List CsEvent) :=
  descendObj (t.csPerformObj ρ act) (t.csBelowObj ρ act) path o

/-- `StateReplayer.Replay(ref root, entry)`, `StateReplayer.cs:16-69`, as `Ty.csReplayEntry`: a new root gets `root.Path`
(`StateReplayer.cs:26-27`). -/
def Ty.csReplayEntryObj (ρ : Bytes → Str) (t : Ty) (o : t.CsObj) : Entry → Except Exn (t.CsObj × List CsEvent)
  | .update path value =>
    match path.getLast? with
    | none => do
      let (s, _) ← t.csDeserializeAt ρ (t.csPath o) value
      .ok s
    | some tag => t.csAtObj ρ (.update tag value) path.dropLast o
  | .listPush path item => t.csAtObj ρ (.push item) path o
  | .listPop path => t.csAtObj ρ .pop path o
  | .mapRemove path key => t.csAtObj ρ (.remove key) path o

/-- One round of `StateReplayer.Replay(ref root, reader)`, `StateReplayer.cs:10-13`. The `LogEntry` read is a state itself, whose
path nobody looks at. -/
def Ty.csReplayStepObj (ρ : Bytes → Str) (t : Ty) (s : t.CsObj × List CsEvent) (bs : Bytes) :
    Except Exn ((t.CsObj × List CsEvent) × Bytes) := do
  let (payload, rest) ← csGetNested bs
  let (entry, _) ← logEntryTy.csDeserialize ρ payload
  let (o, events) ← t.csReplayEntryObj ρ s.1 (.ofCs entry)
  .ok ((o, s.2 ++ events), rest)

/-- `StateReplayer.Replay(ref root, reader)`, `StateReplayer.cs:9-14`: the new root, and the events raised. -/
def Ty.csReplayObj (ρ : Bytes → Str) (t : Ty) (o : t.CsObj) (bs : Bytes) : Except Exn (t.CsObj × List CsEvent) :=
  untilEnd (t.csReplayStepObj ρ) bs.length (o, []) bs

end Steit
