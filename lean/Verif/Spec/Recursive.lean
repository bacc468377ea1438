import Verif.Model.Recursive
import Verif.Spec.History

/-!
# Specification: the same value in two unrollings

`RTy.Same` says that two values have the same shape and the same content, given what this means for the messages mentioned by name.
`SameAt` says it for two unrollings of one message; no value at which an unrolling stops is the same as anything.
-/

namespace Steit.Spec

/-- Two lists of the same length with corresponding items. -/
def SameItems {α β : Type} (R : α → β → Prop) : List α → List β → Prop
  | [], [] => True
  | x :: xs, y :: ys => R x y ∧ SameItems R xs ys
  | _, _ => False

/-- Both absent, or both present and corresponding. -/
def SameOption {α β : Type} (R : α → β → Prop) : Option α → Option β → Prop
  | none, none => True
  | some x, some y => R x y
  | _, _ => False

/-- Corresponding components. -/
def SamePair {α β α' β' : Type} (R : α → α' → Prop) (Q : β → β' → Prop) (x : α × β) (y : α' × β') : Prop :=
  R x.1 y.1 ∧ Q x.2 y.2

/-- On the same side, and corresponding. -/
def SameSum {α β α' β' : Type} (R : α → α' → Prop) (Q : β → β' → Prop) : α ⊕ β → α' ⊕ β' → Prop
  | .inl x, .inl y => R x y
  | .inr x, .inr y => Q x y
  | _, _ => False

mutual
/-- Values of one type with the same shape and content, runtimes included, where `P i` says so for the message `i`. -/
def RTy.Same {A B : Nat → Ty} (P : ∀ i, (A i).El → (B i).El → Prop) : (t : RTy) → (t.fill A).El → (t.fill B).El → Prop
  | .named i => P i
  | .uint _ => Eq
  | .sint _ => Eq
  | .bool => Eq
  | .string => Eq
  | .bytes => Eq
  | .vec t => SameItems (RTy.Same P t)
  | .array _ t => fun x y => SameItems (RTy.Same P t) x.1 y.1
  | .tuple ts => RTys.Same P ts
  | .option t => SameOption (RTy.Same P t)
  | .box t => RTy.Same P t
  | .hashMap k v => SameItems (SamePair (RTy.Same P k) (RTy.Same P v))
  | .list t => fun x y => x.rt = y.rt ∧ SameItems (RTy.Same P t) x.items y.items
  | .map _ t => fun x y => x.rt = y.rt ∧ SameItems (SamePair Eq (RTy.Same P t)) x.entries y.entries
  | .struct _ _ fs => fun x y => x.rt = y.rt ∧ RFields.Same P fs x.fields y.fields
  | .enum _ _ fs vs => fun x y => x.rt = y.rt ∧ SameSum (RFields.Same P fs) (RVariants.Same P vs) x.val y.val

/-- Tuples with the same components. -/
def RTys.Same {A B : Nat → Ty} (P : ∀ i, (A i).El → (B i).El → Prop) : (ts : RTys) → (ts.fill A).El → (ts.fill B).El → Prop
  | .nil => fun _ _ => True
  | .cons t ts => SamePair (RTy.Same P t) (RTys.Same P ts)

/-- The same fields. -/
def RFields.Same {A B : Nat → Ty} (P : ∀ i, (A i).El → (B i).El → Prop) :
    (fs : RFields) → (fs.fill A).El → (fs.fill B).El → Prop
  | .nil => fun _ _ => True
  | .cons _ _ t fs => SamePair (RTy.Same P t) (RFields.Same P fs)

/-- The same variant with the same fields. -/
def RVariants.Same {A B : Nat → Ty} (P : ∀ i, (A i).El → (B i).El → Prop) :
    (vs : RVariants) → (vs.fill A).El → (vs.fill B).El → Prop
  | .nil => fun _ _ => False
  | .cons _ _ fs vs => SameSum (RFields.Same P fs) (RVariants.Same P vs)
end

/-- The same value of message `i` in two unrollings. Where one of them stops there is no such value. -/
def SameAt (D : Decls) (S S' : Nat → Ty) : (n n' : Nat) → (i : Nat) → (unroll D S n i).El → (unroll D S' n' i).El → Prop
  | n + 1, n' + 1, i => RTy.Same (A := unroll D S n) (B := unroll D S' n') (SameAt D S S' n n') (D i)
  | 0, _, _ => fun _ _ => False
  | _ + 1, 0, _ => fun _ _ => False

/-- A call in two unrollings ends alike: both succeed with the same value and leave the same input, or both fail with the same
error, leaving the same value behind. -/
def SameRes {α β : Type} (R : α → β → Prop) : Res α → Res β → Prop
  | .ok x rest, .ok y rest' => R x y ∧ rest = rest'
  | .err x e, .err y e' => R x y ∧ e = e'
  | _, _ => False

/-! ## The same calls -/

/-- Two pieces of code that log: from every world they go to the same world, and they return corresponding values or panic alike. -/
def SameRun {α β : Type} (R : α → β → Prop) (x : Exec α) (y : Exec β) : Prop :=
  ∀ w : World, (x.run w).2 = (y.run w).2 ∧
    match (x.run w).1, (y.run w).1 with
    | .ok a, .ok b => R a b
    | .error e, .error e' => e = e'
    | _, _ => False

/-- The same call on a list. -/
def SameListOp {α β ω ω' : Type} (R : α → β → Prop) (Q : ω → ω' → Prop) : ListOp α ω → ListOp β ω' → Prop
  | .item i op, .item i' op' => i = i' ∧ Q op op'
  | .push x, .push y => R x y
  | .pushWith f, .pushWith g => ∀ rt, SameRun R (f rt) (g rt)
  | .pop, .pop => True
  | .swapRemove i, .swapRemove i' => i = i'
  | _, _ => False

/-- The same call on a map. -/
def SameMapOp {α β ω ω' : Type} (R : α → β → Prop) (Q : ω → ω' → Prop) : MapOp α ω → MapOp β ω' → Prop
  | .value k op, .value k' op' => k = k' ∧ Q op op'
  | .insert k x, .insert k' y => k = k' ∧ R x y
  | .insertWith k f, .insertWith k' g => k = k' ∧ ∀ rt, SameRun R (f rt) (g rt)
  | .remove k, .remove k' => k = k'
  | _, _ => False

/-- The same call concerning a field. -/
def SameFieldOp {α β ω ω' : Type} (R : α → β → Prop) (Q : ω → ω' → Prop) : FieldOp α ω → FieldOp β ω' → Prop
  | .inner op, .inner op' => Q op op'
  | .set x, .set y => R x y
  | .setWith f, .setWith g => ∀ rt, SameRun R (f rt) (g rt)
  | _, _ => False

mutual
/-- The same call, with the same arguments, on the same object inside, where `P i` and `Q i` say so for values of and calls on
the message `i`. -/
def RTy.SameOp {A B : Nat → Ty} (P : ∀ i, (A i).El → (B i).El → Prop) (Q : ∀ i, (A i).Op → (B i).Op → Prop) :
    (t : RTy) → (t.fill A).Op → (t.fill B).Op → Prop
  | .named i => Q i
  | .box t => RTy.SameOp P Q t
  | .list t => SameListOp (RTy.Same P t) (RTy.SameOp P Q t)
  | .map _ t => SameMapOp (RTy.Same P t) (RTy.SameOp P Q t)
  | .struct true _ fs => RFields.SameOp P Q fs
  | .enum true _ fs vs => SameSum (RFields.SameOp P Q fs) (RVariants.SameOp P Q vs)
  | .uint _ => fun op => nomatch op
  | .sint _ => fun op => nomatch op
  | .bool => fun op => nomatch op
  | .string => fun op => nomatch op
  | .bytes => fun op => nomatch op
  | .vec _ => fun op => nomatch op
  | .array _ _ => fun op => nomatch op
  | .tuple _ => fun op => nomatch op
  | .option _ => fun op => nomatch op
  | .hashMap _ _ => fun op => nomatch op
  | .struct false _ _ => fun op => nomatch op
  | .enum false _ _ _ => fun op => nomatch op

/-- The same call concerning the same field. -/
def RFields.SameOp {A B : Nat → Ty} (P : ∀ i, (A i).El → (B i).El → Prop) (Q : ∀ i, (A i).Op → (B i).Op → Prop) :
    (fs : RFields) → (fs.fill A).Op → (fs.fill B).Op → Prop
  | .nil => fun op => nomatch op
  | .cons _ _ t fs => SameSum (SameFieldOp (RTy.Same P t) (RTy.SameOp P Q t)) (RFields.SameOp P Q fs)

/-- The same call concerning a field of the same variant. -/
def RVariants.SameOp {A B : Nat → Ty} (P : ∀ i, (A i).El → (B i).El → Prop) (Q : ∀ i, (A i).Op → (B i).Op → Prop) :
    (vs : RVariants) → (vs.fill A).Op → (vs.fill B).Op → Prop
  | .nil => fun op => nomatch op
  | .cons _ _ fs vs => SameSum (RFields.SameOp P Q fs) (RVariants.SameOp P Q vs)
end

/-- The same call on message `i` in two unrollings, on an object that is not right above where one of them stops. -/
def SameOpAt (D : Decls) (S S' : Nat → Ty) : (n n' : Nat) → (i : Nat) → (unroll D S n i).Op → (unroll D S' n' i).Op → Prop
  | n + 2, n' + 2, i =>
    RTy.SameOp (A := unroll D S (n + 1)) (B := unroll D S' (n' + 1)) (SameAt D S S' (n + 1) (n' + 1))
      (SameOpAt D S S' (n + 1) (n' + 1)) (D i)
  | 0, _, _ => fun _ _ => False
  | 1, _, _ => fun _ _ => False
  | _ + 2, 0, _ => fun _ _ => False
  | _ + 2, 1, _ => fun _ _ => False

end Steit.Spec
