import Verif.Model.Log

/-! # Specification of logs -/

namespace Steit.Spec

/-- The payload of an entry. -/
def payload : Entry → Bytes
  | .update _ value => value
  | .listPush _ item => item
  | .listPop _ => []
  | .mapRemove _ _ => []

/-- The address of an entry. -/
def address : Entry → List U32
  | .update path _ => path
  | .listPush path _ => path
  | .listPop path => path
  | .mapRemove path _ => path

/-- An entry below the 4 GiB limit of messages: at most five bytes per path element, and headers. -/
def Fits (e : Entry) : Prop := 5 * (address e).length + (payload e).length + 64 < 2 ^ 32

/-- A logger as a client sees it: how many pauses are outstanding and what has been recorded. -/
structure Recorder where
  depth : Nat
  recorded : List Entry

/-- The calls on a logger. -/
inductive LogCall
  | log (e : Entry)
  | pause
  | unpause

/-- Entries are recorded while no pause is outstanding; surplus unpauses do nothing. -/
def Recorder.step (r : Recorder) : LogCall → Recorder
  | .log e => if r.depth = 0 then { r with recorded := r.recorded ++ [e] } else r
  | .pause => { r with depth := r.depth + 1 }
  | .unpause => { r with depth := r.depth - 1 }

/-- Outstanding pauses after some calls. -/
def depthAfter : List LogCall → Nat → Nat
  | [], d => d
  | .log _ :: cs, d => depthAfter cs d
  | .pause :: cs, d => depthAfter cs (d + 1)
  | .unpause :: cs, d => depthAfter cs (d - 1)

/-- Number of pause calls. -/
def pauses : List LogCall → Nat
  | [] => 0
  | .pause :: cs => pauses cs + 1
  | _ :: cs => pauses cs

end Steit.Spec
