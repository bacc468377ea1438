import Verif.Model.CSharp

/-!
# What a C# client holds when a replay throws
-/

namespace Steit

/-- `StateReplayer.Replay(ref root, reader)`, `steit-csharp/src/State/StateReplayer.cs:9-14`, as `Ty.csReplay`, but telling what `root`
holds in the end, and the exception thrown if there was one. `root` is touched only by `Replay(ref root, entry)`, after the entry has
been read. Simplification: an exception thrown by `Replay(ref root, entry)` itself is taken to leave `root` as it was (it may leave
the object addressed half changed). -/
def Ty.csReplayLeft (ρ : Bytes → Str) (t : Ty) : Nat → t.Cs → Bytes → t.Cs × Option Exn
  | _, v, [] => (v, none)
  | 0, v, _ :: _ => (v, some .stuck)
  | n + 1, v, b :: bs =>
    match csGetNested (b :: bs) with
    | .error e => (v, some e)
    | .ok (payload, rest) =>
      match logEntryTy.csDeserialize ρ payload with
      | .error e => (v, some e)
      | .ok (entry, _) =>
        match t.csReplayEntry ρ v (.ofCs entry) with
        | .error e => (v, some e)
        | .ok v => t.csReplayLeft ρ n v rest

end Steit
