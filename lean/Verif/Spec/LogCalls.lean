import Verif.Spec.Log

/-! # Specification: draining a buffer logger -/

namespace Steit.Spec

/-- Calls on a buffer logger. -/
inductive BufferCall
  | log (e : Entry)
  | clear
  | pluck
  | pluckBytes
  | bytes

/-- Is the next call that empties the buffer a `clear`? -/
def clearedNext : List BufferCall → Bool
  | [] => false
  | .clear :: _ => true
  | .pluck :: _ => false
  | .pluckBytes :: _ => false
  | .log _ :: cs => clearedNext cs
  | .bytes :: cs => clearedNext cs

/-- The logged entries, in order, except those that were in the buffer when it was cleared. -/
def survivors : List BufferCall → List Entry
  | [] => []
  | .log e :: cs => if clearedNext cs then survivors cs else e :: survivors cs
  | .clear :: cs => survivors cs
  | .pluck :: cs => survivors cs
  | .pluckBytes :: cs => survivors cs
  | .bytes :: cs => survivors cs

/-- Number of unpause calls. -/
def unpauses : List LogCall → Nat
  | [] => 0
  | .unpause :: cs => unpauses cs + 1
  | _ :: cs => unpauses cs

end Steit.Spec
