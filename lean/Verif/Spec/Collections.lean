import Verif.Spec.History

/-! # Specification of lists and maps, as sequences and finite maps -/

namespace Steit.Spec

/-- Calls on a sequence. -/
inductive SeqOp (α : Type)
  | push (x : α)
  | pop
  | swapRemove (i : Nat)

/-- A sequence without its `i`-th element, whose place the last one takes. -/
def swapRemoved {α : Type} (xs : List α) (i : Nat) : List α :=
  match xs.getLast? with
  | none => xs
  | some last =>
    if i + 1 < xs.length then xs.take i ++ last :: (xs.drop (i + 1)).dropLast
    else if i + 1 = xs.length then xs.take i
    else xs

/-- What a call does to a sequence. -/
def SeqOp.apply {α : Type} (xs : List α) : SeqOp α → List α
  | .push x => xs ++ [x]
  | .pop => xs.take (xs.length - 1)
  | .swapRemove i => swapRemoved xs i

/-- The API calls on a list, as calls on a sequence of values without runtimes. -/
def SeqOp.ofCall {t : Ty} : SeqOp t.El → (Ty.list t).Op
  | .push x => .push x
  | .pop => .pop
  | .swapRemove i => .swapRemove i

/-- Forget runtimes. -/
def SeqOp.strip {t : Ty} : SeqOp t.El → SeqOp t.El
  | .push x => .push (Spec.strip t x)
  | .pop => .pop
  | .swapRemove i => .swapRemove i

/-- The value's runtimes are those of a child of some object. -/
def Placed (t : Ty) (x : t.El) : Prop := ∃ (rt : Rt) (k : U32), At t (rt.nested k) x

/-- A pushed value can be sent, and its runtimes belong to one object (whichever). -/
def SeqOp.Ok {t : Ty} : SeqOp t.El → Prop
  | .push x => Sendable t x ∧ ∃ rt, At t rt x
  | _ => True

/-- Calls on a finite map. -/
inductive FinOp (α : Type)
  | insert (k : U32) (x : α)
  | remove (k : U32)

/-- What a call does to a partial function. -/
def FinOp.apply {α : Type} (f : U32 → Option α) : FinOp α → U32 → Option α
  | .insert k x => fun j => if j = k then some x else f j
  | .remove k => fun j => if j = k then none else f j

/-- The API calls on a map. -/
def FinOp.ofCall {kt : KeyTy} {t : Ty} : FinOp t.El → (Ty.map kt t).Op
  | .insert k x => .insert k x
  | .remove k => .remove k

end Steit.Spec
