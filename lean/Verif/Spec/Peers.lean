import Verif.Spec.History
import Verif.Spec.Compact

/-!
# Specification: programs that change one state together

Every program has the whole state. Each changes what is its own, and reads what the others log.
-/

namespace Steit.Spec

/-- Whose entry it is. Program `some i` has the object at `own i`; program `none` has everything else. -/
def Owned {ι : Type} (own : ι → List U32) : Option ι → Entry → Prop
  | some i, e => Within (own i) e
  | none, e => ∀ i, Aside (own i) e

/-- The objects of different programs are different, and none is inside another. -/
def OwnApart {ι : Type} (own : ι → List U32) : Prop := ∀ i j, i ≠ j → ¬ own i <+: own j

/-- All the objects exist. -/
def HasOwn {ι : Type} (own : ι → List U32) (t : Ty) (v : t.El) : Prop := ∀ i, ∃ s u put, Part t v (own i) s u put

open Classical in
/-- The entries of program `k` in a log; `owned` says whose entry an entry is. -/
noncomputable def entriesOf {ι : Type} (owned : Option ι → Entry → Prop) (k : Option ι) (es : List Entry) : List Entry :=
  es.filter (fun e => decide (owned k e))

/-- A program: the state as it has it, its logger (in `world`), and how many entries it has read of the log of each of the others. -/
structure Peer (ι : Type) (t : Ty) where
  value : t.El
  world : World
  seen : Option ι → Nat

/-- How the programs were built, and which logger each has. -/
structure Builds (ι : Type) where
  mode : Option ι → Mode
  logger : Option ι → Nat

/-- What happens next: a program makes a call, or is sent the next `n` entries of the log of another one, as bytes, and replays them. -/
inductive Move (ι : Type) (t : Ty)
  | call (i : Option ι) (op : t.Op)
  | read (i j : Option ι) (n : Nat) (μ : Nat → Prog.Mem)

section
variable {ι : Type} {t : Ty} [DecidableEq ι]

/-- All that a program has logged so far. -/
def logOf (b : Builds ι) (s : Option ι → Peer ι t) (i : Option ι) : List Entry := ((s i).world.loggers (b.logger i)).entries

/-- How many entries of program `k` are in the state of `i`: all of its own, and what it has read of the others'. -/
def known (b : Builds ι) (s : Option ι → Peer ι t) (i k : Option ι) : Nat := if k = i then (logOf b s i).length else (s i).seen k

/-- The entries sent by `.read i j n _`. -/
def sent (b : Builds ι) (s : Option ι → Peer ι t) (i j : Option ι) (n : Nat) : List Entry := ((logOf b s j).drop ((s i).seen j)).take n

/-- One program changes. -/
def setPeer (s : Option ι → Peer ι t) (i : Option ι) (p : Peer ι t) : Option ι → Peer ι t := fun j => if j = i then p else s j

/-- One move; `none` if a call panics, a log cannot be written, or a replay fails. -/
def move (b : Builds ι) (s : Option ι → Peer ι t) : Move ι t → Option (Option ι → Peer ι t)
  | .call i op =>
    match t.run (b.mode i) op (s i).value (s i).world with
    | (.ok v, w) => some (setPeer s i { s i with value := v, world := w })
    | _ => none
  | .read i j n μ =>
    match (BufferLogger.mk (sent b s i j n)).bytes (b.mode j) μ with
    | .ok bytes =>
      match replay t.dict (b.mode i) (s i).value bytes with
      | .ok v _ => some (setPeer s i { s i with
          value := v, seen := fun k => if k = j then (s i).seen k + (sent b s i j n).length else (s i).seen k })
      | _ => none
    | _ => none

/-- Any number of moves, in any order. -/
def moves (b : Builds ι) : (Option ι → Peer ι t) → List (Move ι t) → Option (Option ι → Peer ι t)
  | s, [] => some s
  | s, x :: xs => (move b s x).bind (fun s => moves b s xs)

/-- A call is one replicas can follow, and what it logs is about what belongs to the program; nobody reads their own log. -/
def MoveOk (b : Builds ι) (owned : Option ι → Entry → Prop) (s : Option ι → Peer ι t) : Move ι t → Prop
  | .call i op => OpAddr t op (s i).value ∧ OpSync t op (s i).value ∧
      ∀ v w, t.run (b.mode i) op (s i).value (s i).world = (.ok v, w) → ∀ e ∈ (w.loggers (b.logger i)).entries, owned i e ∧ Fits e
  | .read i j _ _ => i ≠ j

/-- This is so for every move, in the state it meets. -/
def MovesOk (b : Builds ι) (owned : Option ι → Entry → Prop) : (Option ι → Peer ι t) → List (Move ι t) → Prop
  | _, [] => True
  | s, x :: xs => MoveOk b owned s x ∧ ∀ s', move b s x = some s' → MovesOk b owned s' xs
end

end Steit.Spec
