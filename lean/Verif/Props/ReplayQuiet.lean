import Verif.Lemmas.ReplayExec
import Verif.Model.Interleave

/-!
# Replaying does not log: property C26

`replayX t.dictX` (`Verif/Model/ReplayExec.lean`) is `State::replay` as code that may use any logger at any point.
-/

namespace Steit

/-- C26: replaying any bytes on any value, with or without success, leaves all loggers as they are, entries and pause counts alike, and
has the result that the other theorems about `replay` are about. -/
theorem C26_replay_does_not_log (t : Ty) (m : Mode) (v : t.El) (bs : Bytes) (w : World) :
    replayX t.dictX m v bs w = (.ok (replay t.dict m v bs), w) := by
  rw [replayX_eq (silent t)]
  rfl

/-- C26: replaying never waits for a logger: at no point of it is there an action that other threads could come before or after. -/
theorem C26_replay_takes_no_lock (t : Ty) (m : Mode) (v : t.El) (bs : Bytes) (ls ls' : Nat → LoggerSt) (x : Exec (Res t.El)) :
    ¬ (replayX t.dictX m v bs).Step ls ls' x := by
  rw [replayX_eq (silent t)]
  exact nofun

/-- C26 for `merge` and `deserialize`: reading a value, into an object that may be part of a logged state or into a new one, does not
log either. -/
theorem C26_reading_does_not_log (t : Ty) (m : Mode) (v : t.El) (bs : Bytes) (w : World) :
    t.dictX.merge m v bs w = (.ok (t.dict.merge m v bs), w) ∧
      (do let v ← t.dictX.dflt
          t.dictX.merge m v bs : Exec (Res t.El)) w = (.ok (t.dict.merge m t.dict.dflt bs), w) := by
  rw [(silent t).merge, (silent t).dflt, Exec.pure_bind, (silent t).merge]
  exact ⟨rfl, rfl⟩

/-- C26, what follows for a replica that has a log of its own: after replaying, calls on it log what they would log on an object that had
come to its value in any other way, and nothing of what was replayed. -/
theorem C26_no_echo (t : Ty) (m : Mode) (v v' : t.El) (bs rest : Bytes) (h : replay t.dict m v bs = .ok v' rest) (op : t.Op) (w : World) :
    (do match ← replayX t.dictX m v bs with
        | .ok v' _ => t.run m op v'
        | .err v' _ => pure v' : Exec t.El) w = t.run m op v' w := by
  rw [replayX_eq (silent t), Exec.pure_bind, h]

/-- Not vacuous: a list replays `push(7)`; its logger stays empty. Calling `push` with the same effect logs an entry. -/
example : ∃ v', replayX (Ty.list (.uint .w8)).dictX .debug ⟨⟨1, []⟩, []⟩ [4#8, 8#8, 10#8, 1#8, 7#8] ⟨fun _ => ⟨0, []⟩, fun _ _ => 0⟩ =
      (.ok (.ok v' []), ⟨fun _ => ⟨0, []⟩, fun _ _ => 0⟩) ∧ v'.items = [7#8] :=
  ⟨⟨⟨1, []⟩, [7#8]⟩, by rw [C26_replay_does_not_log]; rfl, rfl⟩

example : ((Ty.list (.uint .w8)).run .debug (.push 7#8) ⟨⟨1, []⟩, []⟩ ⟨fun _ => ⟨0, []⟩, fun _ _ => 0⟩).1 = .ok ⟨⟨1, []⟩, [7#8]⟩ ∧
    (((Ty.list (.uint .w8)).run .debug (.push 7#8) ⟨⟨1, []⟩, []⟩ ⟨fun _ => ⟨0, []⟩, fun _ _ => 0⟩).2.loggers 1).entries =
      [.listPush [] [7#8]] :=
  ⟨rfl, rfl⟩

end Steit
