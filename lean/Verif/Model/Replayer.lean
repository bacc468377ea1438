import Verif.Model.Classes
import Verif.Model.LogEntryFile

/-!
# `StateReplayer` with the class of log entries

`replay` in `Model/Classes.lean` reads log entries by the client model. Here they are read by the class in the text of a file (that of
`steit-csharp/src/State/LogEntry.cs`, `Model/LogEntryFile.lean`), and `StateReplayer` looks at its properties.
-/

namespace Steit.Gen

open Steit.Gen.Spec

/-- A constant such as `LogEntry.UpdateTag`, read off the text. (`steit-csharp/src/State/LogEntry.cs:11-14`.) -/
def constOf (text name : Text) : Option Nat :=
  (linesOf text).findSome? fun l => (between? (lit! "public const UInt32 " ++ name ++ lit! " = ") (lit! ";") (unindented l)).bind number?

/-- Where the object in `Variant` has a property: `entry.‹variant›Variant.‹prop›`. `‹variant›Variant` is null if the object is of another
class (`LogEntry.cs:21-24`), which is the one the constructor makes for the tag, as in `performAt`. (`StateReplayer.cs:26`, `43`, `50`, `62`, `71-83`.) -/
def slotOf (P : Project) (variant prop : Text) (tag : U32) : Except Exn Nat := do
  let (_, _, c) ← understood (P.classOf (.message (lit! "LogEntry") []))
  let stmt ← understood (c.ctor.at tag.toNat)
  let (made, _) ← understood (newVariant? stmt)
  if made = variant then do
    let (_, _, c) ← understood (P.classOf (.variant (lit! "LogEntry") [] variant))
    understood (propIndex c.props prop)
  else .error .nullReference

/-- What a property of the variant holds, see `slotOf`. (`steit-csharp/src/State/StateReplayer.cs:16-84`.) -/
def variantProp (P : Project) (variant prop : Text) (tag : U32) : Val → Except Exn Val
  | .inst vs => do
    let i ← slotOf P variant prop tag
    understood vs[i]?
  | _ => .error .stuck

/-- The items of a `Vector<UInt32>`, `new List<UInt32>(GetPath(entry))` in `StateReplayer.cs:17`. -/
def numbersOf : List Val → Except Exn (List U32)
  | [] => .ok []
  | .uint .w32 v :: vs => do
    let ns ← numbersOf vs
    .ok (v :: ns)
  | _ :: _ => .error .stuck

/-- `GetPath`, `steit-csharp/src/State/StateReplayer.cs:71-83`, for a variant. -/
def entryPath (P : Project) (variant : Text) (tag : U32) (o : Val) : Except Exn (List U32) := do
  match ← variantProp P variant (lit! "FlattenPath") tag o with
  | .items vs => numbersOf vs
  | _ => .error .stuck

/-- `Value` or `Item`, `new ByteReader(...)` in `StateReplayer.cs:26`, `43`, `50`. -/
def payloadOf (P : Project) (variant prop : Text) (tag : U32) (o : Val) : Except Exn Bytes := do
  match ← variantProp P variant prop tag o with
  | .bytes bs => .ok bs
  | _ => .error .stuck

/-- What `StateReplayer.Replay(ref root, entry)` gets out of an entry, `StateReplayer.cs:16-84`: `GetPath`, which throws for unknown tags, then
the value, the item or the key. Simplified: the code gets the latter after it has followed the path; getting them does not throw, as the variant has
the class of its tag. -/
def entryOf (text : Text) : Val → Except Exn Entry
  | .enum tag o =>
    let P := projectOf [text]
    let is (name : Text) := constOf text name = some tag.toNat
    if is (lit! "UpdateTag") then do
      let path ← entryPath P (lit! "Update") tag o
      let value ← payloadOf P (lit! "Update") (lit! "Value") tag o
      .ok (.update path value)
    else if is (lit! "ListPushTag") then do
      let path ← entryPath P (lit! "ListPush") tag o
      let item ← payloadOf P (lit! "ListPush") (lit! "Item") tag o
      .ok (.listPush path item)
    else if is (lit! "ListPopTag") then do
      let path ← entryPath P (lit! "ListPop") tag o
      .ok (.listPop path)
    else if is (lit! "MapRemoveTag") then do
      let path ← entryPath P (lit! "MapRemove") tag o
      match ← variantProp P (lit! "MapRemove") (lit! "Key") tag o with
      | .uint .w32 key => .ok (.mapRemove path key)
      | _ => .error .stuck
    else .error .invalidOperation
  | _ => .error .stuck

/-- One round of `StateReplayer.Replay(ref root, reader)`, `StateReplayer.cs:10-13`, with the class of log entries in a text. In fuel for
the latter, `k`: the depth of entries. -/
def replayStepBy (text : Text) (k : Nat) (P : Project) (ρ : Bytes → Str) (n : Nat) (t : Rt) (o : Val) (bs : Bytes) : Except Exn (Val × Bytes) := do
  let (payload, rest) ← csGetNested bs
  let (v, _) ← deserialize (projectOf [text]) ρ k (.message (lit! "LogEntry") []) payload
  let entry ← entryOf text v
  let o ← replayEntry P ρ n t o entry
  .ok (o, rest)

/-- `StateReplayer.Replay(ref root, reader)`, `StateReplayer.cs:9-14`, with the class of log entries in a text. -/
def replayBy (text : Text) (k : Nat) (P : Project) (ρ : Bytes → Str) (n : Nat) (t : Rt) (o : Val) (bs : Bytes) : Except Exn Val :=
  untilEnd (replayStepBy text k P ρ n t) bs.length o bs

end Steit.Gen
