import Verif.Spec.PeersKeys
import Verif.Spec.Encoding

/-!
# Specification: programs that start again from a snapshot

As `Spec/Peers.lean`; and a program can forget its state, and go on with a snapshot of another one.
-/

namespace Steit.Spec

/-- What happens next: a move, or program `j` starts again from a snapshot of program `i`. -/
inductive Event (ι : Type) (t : Ty)
  | move (x : Move ι t)
  | restart (i j : Option ι) (μ : Prog.Mem)

section
variable {ι : Type} {t : Ty} [DecidableEq ι]

/-- One event; `none` if it fails. To start again, program `j` reads the bytes written by `i`, attaches its own logger (`set_runtime`), keeps
its own log, and takes over how much of the log of everybody is in the snapshot. -/
def event (b : Builds ι) (s : Option ι → Peer ι t) : Event ι t → Option (Option ι → Peer ι t)
  | .move x => move b s x
  | .restart i j μ =>
    match t.dict.toBytesFrom (b.mode i) μ (s i).value with
    | .ok snapshot =>
      match t.dict.deserialize (b.mode j) snapshot with
      | .ok (v, _) => some (setPeer s j { s j with value := t.dict.setRuntime ⟨b.logger j, []⟩ v, seen := known b s i })
      | _ => none
    | _ => none

/-- Any number of events, in any order. -/
def events (b : Builds ι) : (Option ι → Peer ι t) → List (Event ι t) → Option (Option ι → Peer ι t)
  | s, [] => some s
  | s, x :: xs => (event b s x).bind (fun s => events b s xs)

/-- Moves are as before; who starts again has all that it logged in the snapshot, which is smaller than 4 GiB. -/
def EventOk (b : Builds ι) (owned : Option ι → Entry → Prop) (s : Option ι → Peer ι t) : Event ι t → Prop
  | .move x => MoveOk b owned s x
  | .restart i j _ => known b s i j = (logOf b s j).length ∧ (encode t (s i).value).length < 2 ^ 32

/-- This is so for every event, in the state it meets. -/
def EventsOk (b : Builds ι) (owned : Option ι → Entry → Prop) : (Option ι → Peer ι t) → List (Event ι t) → Prop
  | _, [] => True
  | s, x :: xs => EventOk b owned s x ∧ ∀ s', event b s x = some s' → EventsOk b owned s' xs
end

end Steit.Spec
