import Verif.Model.CSharpEvents

/-!
# What paths and events of the C# client should say

`Ty.held` looks a value up by the tags leading to it. The `Path` of an object should be those tags, and an event should tell what is
held there before and after.
-/

namespace Steit.Spec
open Steit

/-- Something held by a C# state: the value of a field or an element, or the current variant of an enum. -/
inductive Held
  | value (t : Ty) (x : t.CsObj)
  | variant (fs : Fields) (x : Obj fs.CsObj)

/-- `whole` at the end of the path, otherwise something inside. -/
def heldFrom (whole : Held) (inside : U32 → List U32 → Option Held) : List U32 → Option Held
  | [] => some whole
  | k :: path => inside k path

mutual
/-- What is held below an object: the elements of a collection under their index, values of a map under their key, the value of an
option under 0, properties of a message and the current variant of an enum under their tag. -/
def _root_.Steit.Ty.heldIn : (t : Ty) → U32 → List U32 → t.CsObj → Option Held
  | .vec t, k, path, o => (o.data[k.toNat]?).bind fun x => heldFrom (.value t x) (fun k path => t.heldIn k path x) path
  | .array _ t, k, path, o => (o.data[k.toNat]?).bind fun x => heldFrom (.value t x) (fun k path => t.heldIn k path x) path
  | .list t, k, path, o => (o.data[k.toNat]?).bind fun x => heldFrom (.value t x) (fun k path => t.heldIn k path x) path
  | .map _ t, k, path, o => (o.data.lookup k).bind fun x => heldFrom (.value t x) (fun k path => t.heldIn k path x) path
  | .option t, k, path, o =>
    if k = 0#32 then o.data.bind fun x => heldFrom (.value t x) (fun k path => t.heldIn k path x) path else none
  | .box t, k, path, o => t.heldIn k path o
  | .struct _ _ fs, k, path, o => fs.heldIn k path o.data
  | .enum _ _ fs vs, k, path, o =>
    match o.data with
    | .inl x => if k = 0#32 then heldFrom (.variant fs x) (fun k path => fs.heldIn k path x.data) path else none
    | .inr x => vs.heldIn k path x
  | _, _, _, _ => none

/-- As `Ty.heldIn`, for the properties of a message. -/
def _root_.Steit.Fields.heldIn : (fs : Fields) → U32 → List U32 → fs.CsObj → Option Held
  | .nil, _, _, _ => none
  | .cons tag _ t fs, k, path, v =>
    if k = tag then heldFrom (.value t v.1) (fun k path => t.heldIn k path v.1) path else fs.heldIn k path v.2

/-- As `Ty.heldIn`, for the current variant. -/
def _root_.Steit.Variants.heldIn : (vs : Variants) → U32 → List U32 → vs.CsObj → Option Held
  | .nil, _, _, _ => none
  | .cons tag _ fs vs, k, path, v =>
    match v with
    | .inl x => if k = tag then heldFrom (.variant fs x) (fun k path => fs.heldIn k path x.data) path else none
    | .inr x => vs.heldIn k path x
end

/-- What the tags lead to. -/
def _root_.Steit.Ty.held (t : Ty) (path : List U32) (o : t.CsObj) : Option Held := heldFrom (.value t o) (fun k path => t.heldIn k path o) path

/-- The `Path` an object says it has; primitives have none. (There are no C# objects for tuples and `HashMap`s.) -/
def _root_.Steit.Ty.pathOf : (t : Ty) → t.CsObj → Option (List U32)
  | .bytes, o => some o.path
  | .vec _, o => some o.path
  | .array _ _, o => some o.path
  | .option _, o => some o.path
  | .box t, o => t.pathOf o
  | .list _, o => some o.path
  | .map _ _, o => some o.path
  | .struct _ _ _, o => some o.path
  | .enum _ _ _ _, o => some o.path
  | _, _ => none

/-- The `Path` of something held. -/
def Held.path : Held → Option (List U32)
  | .value t x => t.pathOf x
  | .variant _ x => some x.path

/-- Every object found in `o` tells where: its `Path` is `root` followed by the tags leading to it. -/
def Situated (t : Ty) (root : List U32) (o : t.CsObj) : Prop :=
  ∀ tags h p, t.held tags o = some h → h.path = some p → p = root ++ tags

/-! ### Events -/

/-- The `Path` of the container. -/
def _root_.Steit.CsEvent.container : CsEvent → List U32
  | .fieldUpdate container _ _ _ _ => container
  | .variantUpdate container _ _ _ _ => container
  | .listPush container _ _ _ => container
  | .listPop container _ _ _ => container
  | .mapInsert container _ _ _ => container
  | .mapRemove container _ _ _ => container

/-- Where in the container, and what will be held there, if anything. -/
def _root_.Steit.CsEvent.after : CsEvent → U32 × Option Held
  | .fieldUpdate _ tag t new _ => (tag, some (.value t new))
  | .variantUpdate _ tag new _ _ => (tag, some (.variant new.fs new.obj))
  | .listPush _ tag t x => (tag, some (.value t x))
  | .listPop _ tag _ _ => (tag, none)
  | .mapInsert _ tag t x => (tag, some (.value t x))
  | .mapRemove _ tag _ _ => (tag, none)

/-- Where in the container, and what is held there when the event is raised, if anything. -/
def _root_.Steit.CsEvent.before : CsEvent → U32 × Option Held
  | .fieldUpdate _ tag t _ old => (tag, some (.value t old))
  | .variantUpdate _ _ _ tag old => (tag, some (.variant old.fs old.obj))
  | .listPush _ tag _ _ => (tag, none)
  | .listPop _ tag t x => (tag, some (.value t x))
  | .mapInsert _ tag _ _ => (tag, none)
  | .mapRemove _ tag t x => (tag, some (.value t x))

/-- Neither contains the other. -/
def Apart (p q : List U32) : Prop := ¬ p <+: q ∧ ¬ q <+: p

/-- The event tells how `o` becomes `o'`, `held` saying what an object holds: the tags lead to the container, whose `Path` it names;
there `before` is held in `o` and `after` in `o'`; everything else is held in both. -/
structure Announces {β : Type} (held : List U32 → β → Option Held) (tags : List U32) (o : β) (event : CsEvent) (o' : β) : Prop where
  container : ∃ h, held tags o = some h ∧ h.path = some event.container
  before : held (tags ++ [event.before.1]) o = event.before.2
  after : held (tags ++ [event.after.1]) o' = event.after.2
  gone : event.before.1 ≠ event.after.1 → held (tags ++ [event.before.1]) o' = none
  others : ∀ q, Apart q (tags ++ [event.before.1]) → Apart q (tags ++ [event.after.1]) → held q o' = held q o

/-- An event of the kind an entry calls for, raised by the container the entry addresses in a root at `root`. -/
def Answers (root : List U32) : Entry → CsEvent → Prop
  | .update path _, .fieldUpdate container tag _ _ _ => container ++ [tag] = root ++ path
  | .update path _, .mapInsert container tag _ _ => container ++ [tag] = root ++ path
  | .update path _, .variantUpdate container tag _ _ _ => container ++ [tag] = root ++ path
  | .listPush path _, .listPush container _ _ _ => container = root ++ path
  | .listPop path, .listPop container _ _ _ => container = root ++ path
  | .mapRemove path key, .mapRemove container tag _ _ => container = root ++ path ∧ tag = key
  | _, _ => False

/-- The number of items of a list. -/
def _root_.Steit.Ty.count : (t : Ty) → t.CsObj → Nat
  | .list _, o => o.data.length
  | .box t, o => t.count o
  | _, _ => 0

/-- The lists in `o` are of a length that can be counted by `UInt32`. (`Count` is an `int` in C#.) -/
def Roomy {β : Type} (held : List U32 → β → Option Held) (o : β) : Prop :=
  ∀ tags t x, held tags o = some (.value t x) → t.count x < 2 ^ 32

/-- The events raised while a log is replayed on a root at `root`: one for each entry, in order, announcing the change made, except
that an entry replacing the root raises none. -/
inductive Narrated (t : Ty) (root : List U32) : t.CsObj → List Entry → List CsEvent → t.CsObj → Prop
  | nil (o : t.CsObj) : Narrated t root o [] [] o
  | root {o o' o'' : t.CsObj} {value : Bytes} {es : List Entry} {events : List CsEvent} :
    Narrated t root o' es events o'' → Narrated t root o (.update [] value :: es) events o''
  | inner {o o' o'' : t.CsObj} {e : Entry} {tags : List U32} {event : CsEvent} {es : List Entry} {events : List CsEvent} :
    Answers root e event → Announces t.held tags o event o' → Narrated t root o' es events o'' →
      Narrated t root o (e :: es) (event :: events) o''

/-- The roots a program can have: constructed with a path, deserialized with it, or the result of replaying a log, of whatever bytes,
on such a root. -/
inductive Reached (ρ : Bytes → Str) (t : Ty) (root : List U32) : t.CsObj → Prop
  | constructed : Reached ρ t root (t.csConstruct root)
  | deserialized {bs rest : Bytes} {o : t.CsObj} {events : List CsEvent} :
    t.csDeserializeAt ρ root bs = .ok ((o, events), rest) → Reached ρ t root o
  | replayed {bs : Bytes} {o o' : t.CsObj} {events : List CsEvent} :
    Reached ρ t root o → t.csReplayObj ρ o bs = .ok (o', events) → Reached ρ t root o'

/-- While the entries are replayed on `o`, lists have a length that can be counted by `UInt32`. -/
def StaysRoomy (ρ : Bytes → Str) (t : Ty) (o : t.CsObj) (es : List Entry) : Prop :=
  ∀ n o', (es.take n).foldlM (fun o e => (t.csReplayEntryObj ρ o e).map Prod.fst) o = .ok o' → Roomy t.held o'

/-! ### Objects with the right paths -/

mutual
/-- The object holding this data whose `Path` is `path`, everything in it being where it should. -/
def _root_.Steit.Ty.place : (t : Ty) → List U32 → t.Cs → t.CsObj
  | .uint _, _, v => v
  | .sint _, _, v => v
  | .bool, _, v => v
  | .string, _, v => v
  | .bytes, path, v => ⟨path, v⟩
  | .vec t, path, v => ⟨path, v.mapIdx fun i x => t.place (path ++ [BitVec.ofNat 32 i]) x⟩
  | .array _ t, path, v => ⟨path, v.mapIdx fun i x => t.place (path ++ [BitVec.ofNat 32 i]) x⟩
  | .tuple _, _, v => v
  | .option t, path, v => ⟨path, v.map fun x => t.place (path ++ [0#32]) x⟩
  | .box t, path, v => t.place path v
  | .hashMap _ _, _, v => v
  | .list t, path, v => ⟨path, v.mapIdx fun i x => t.place (path ++ [BitVec.ofNat 32 i]) x⟩
  | .map _ t, path, v => ⟨path, v.map fun e => (e.1, t.place (path ++ [e.1]) e.2)⟩
  | .struct _ _ fs, path, v => ⟨path, fs.place path v⟩
  | .enum _ _ fs vs, path, v => ⟨path, match v with
    | .inl x => .inl ⟨path ++ [0#32], fs.place (path ++ [0#32]) x⟩
    | .inr x => .inr (vs.place path x)⟩

/-- As `Ty.place`, for the properties of a message at this path. -/
def _root_.Steit.Fields.place : (fs : Fields) → List U32 → fs.Cs → fs.CsObj
  | .nil, _, _ => ()
  | .cons tag _ t fs, path, v => (t.place (path ++ [tag]) v.1, fs.place path v.2)

/-- As `Ty.place`, for the variant of an enum at this path. -/
def _root_.Steit.Variants.place : (vs : Variants) → List U32 → vs.Cs → vs.CsObj
  | .nil, _, v => v
  | .cons tag _ fs vs, path, v =>
    match v with
    | .inl x => .inl ⟨path ++ [tag], fs.place (path ++ [tag]) x⟩
    | .inr x => .inr (vs.place path x)
end

end Steit.Spec
