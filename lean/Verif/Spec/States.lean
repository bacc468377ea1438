import Verif.Spec.Only

/-!
# Specification: a process with several states

A process holds states of types `T i`, each with a logger of its own. It makes API calls on them in any order; the arguments of a call
may be computed from all the states, as a program does that copies or moves objects from one state to another.
-/

namespace Steit.Spec

variable {ι : Type} [DecidableEq ι]

/-- The states, with one of them replaced. -/
def putState (T : ι → Ty) (v : ∀ i, (T i).El) (i : ι) (x : (T i).El) : ∀ j, (T j).El :=
  fun j => if h : i = j then h ▸ x else v j

/-- One step of a process: the state called, and the call. -/
structure ProcStep (T : ι → Ty) where
  target : ι
  call : (∀ i, (T i).El) → (T target).Op

/-- A process making one call after the other. -/
def together (T : ι → Ty) (m : Mode) : List (ProcStep T) → (∀ i, (T i).El) → Exec (∀ i, (T i).El)
  | [], v => pure v
  | s :: steps, v => do
    let x ← (T s.target).run m (s.call v) (v s.target)
    together T m steps (putState T v s.target x)

/-- Every call is, in the states it meets, one replicas can follow, and its closures leave other loggers alone. -/
def TogetherSync (T : ι → Ty) (m : Mode) : List (ProcStep T) → (∀ i, (T i).El) → World → Prop
  | [], _, _ => True
  | s :: steps, v, w => OpAddr (T s.target) (s.call v) (v s.target) ∧ OpSync (T s.target) (s.call v) (v s.target) ∧
      OpOnly (T s.target) (s.call v) ∧
      ∀ x w', (T s.target).run m (s.call v) (v s.target) w = (.ok x, w') → TogetherSync T m steps (putState T v s.target x) w'

end Steit.Spec
