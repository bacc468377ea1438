import Verif.Spec.History
import Verif.Model.Attempt

/-!
# Specification: programs that survive failing calls
-/

namespace Steit.Spec

mutual
/-- The call is a `swap_remove` of an item that is not the last one: the only method that logs two entries at once. -/
def Swaps : (t : Ty) → t.Op → t.El → Prop
  | .box t, op, v => Swaps t op v
  | .list t, op, v =>
    match op with
    | .item i op => ∃ x, v.items[i]? = some x ∧ Swaps t op x
    | .swapRemove i => i + 1 < v.items.length
    | _ => False
  | .map _ t, op, v =>
    match op with
    | .value k op => ∃ e ∈ v.entries, e.1 = k ∧ Swaps t op e.2
    | _ => False
  | .struct true _ fs, op, v => SwapsFields fs op v.fields
  | .enum true _ fs vs, op, v =>
    match op, v.val with
    | .inl op, .inl x => SwapsFields fs op x
    | .inr op, .inr x => SwapsVariant vs op x
    | _, _ => False
  | _, _, _ => False

/-- Fields. -/
def SwapsFields : (fs : Fields) → fs.Op → fs.El → Prop
  | .nil, _, _ => False
  | .cons _ _ t _, .inl op, v =>
    match op with
    | .inner op => Swaps t op v.1
    | _ => False
  | .cons _ _ _ fs, .inr op, v => SwapsFields fs op v.2

/-- Variants. -/
def SwapsVariant : (vs : Variants) → vs.Op → vs.El → Prop
  | .nil, _, _ => False
  | .cons _ _ fs vs, op, v =>
    match op, v with
    | .inl op, .inl x => SwapsFields fs op x
    | .inr op, .inr x => SwapsVariant vs op x
    | _, _ => False
end

mutual
/-- The call is a setter of a field of a variant that is not the current one of its enum, so it first switches the variant. -/
def Switches : (t : Ty) → t.Op → t.El → Prop
  | .box t, op, v => Switches t op v
  | .list t, op, v =>
    match op with
    | .item i op => ∃ x, v.items[i]? = some x ∧ Switches t op x
    | _ => False
  | .map _ t, op, v =>
    match op with
    | .value k op => ∃ e ∈ v.entries, e.1 = k ∧ Switches t op e.2
    | _ => False
  | .struct true _ fs, op, v => SwitchesFields fs op v.fields
  | .enum true _ fs vs, op, v =>
    match op, v.val with
    | .inl op, .inl x => SwitchesFields fs op x
    | .inr op, .inr x => SwitchesVariant vs op x
    | .inl op, .inr _ => fs.isSet op = true
    | .inr op, .inl _ => vs.isSet op = true
  | _, _, _ => False

/-- Fields. -/
def SwitchesFields : (fs : Fields) → fs.Op → fs.El → Prop
  | .nil, _, _ => False
  | .cons _ _ t _, .inl op, v =>
    match op with
    | .inner op => Switches t op v.1
    | _ => False
  | .cons _ _ _ fs, .inr op, v => SwitchesFields fs op v.2

/-- Variants. -/
def SwitchesVariant : (vs : Variants) → vs.Op → vs.El → Prop
  | .nil, _, _ => False
  | .cons _ _ fs vs, op, v =>
    match op, v with
    | .inl op, .inl x => SwitchesFields fs op x
    | .inr op, .inr x => SwitchesVariant vs op x
    | .inl op, .inr _ => fs.isSet op = true
    | .inr op, .inl _ => vs.isSet op = true
end

/-- The logger accepts the first of the next two entries and refuses the second. -/
def RefusesSecond (w : Fallible) : Prop := w.verdicts 0 = .stored ∧ w.verdicts 1 ≠ .stored

/-- A program making one call after the other, going on when one panics. -/
def tries (t : Ty) (m : Mode) : List t.Op → t.El → Fallible → t.El × Fallible
  | [], v, w => (v, w)
  | op :: ops, v, w => tries t m ops (t.attempt m op v w).1.self (t.attempt m op v w).2

/-- Every call is one replicas can follow, in the state it meets, and none is a `swap_remove` of whose two entries only the first
is recorded. -/
def TriesSync (t : Ty) (m : Mode) : List t.Op → t.El → Fallible → Prop
  | [], _, _ => True
  | op :: ops, v, w => OpAddr t op v ∧ OpSync t op v ∧ ¬ (Swaps t op v ∧ RefusesSecond w) ∧
    TriesSync t m ops (t.attempt m op v w).1.self (t.attempt m op v w).2

end Steit.Spec
