import Verif.Model.Replay
import Verif.Model.CSharpLeft

/-! # A replica that is sent one message after another

For the statements about replicas that hold the same data and are sent the same messages. -/

namespace Steit.Spec

/-- A program that replays one message after another and carries on whatever happens: the value it holds in the end, and what each
replay reported (`none`: `Ok(())`). A program that does not survive a panic, or that gives up at the first error, holds what this one
holds after the messages until then. -/
def replayEach {α : Type} (d : Dict α) (m : Mode) : α → List Bytes → α × List (Option Err)
  | v, [] => (v, [])
  | v, bs :: messages =>
    match replay d m v bs with
    | .ok v' _ => ((replayEach d m v' messages).1, none :: (replayEach d m v' messages).2)
    | .err v' e => ((replayEach d m v' messages).1, some e :: (replayEach d m v' messages).2)

/-- The same, for a C# client: the object it holds in the end, and the exceptions the replays threw. -/
def csReplayEach (ρ : Bytes → Str) (t : Ty) : t.Cs → List Bytes → t.Cs × List (Option Exn)
  | c, [] => (c, [])
  | c, bs :: messages =>
    ((csReplayEach ρ t (t.csReplayLeft ρ bs.length c bs).1 messages).1,
      (t.csReplayLeft ρ bs.length c bs).2 :: (csReplayEach ρ t (t.csReplayLeft ρ bs.length c bs).1 messages).2)

end Steit.Spec
