import Verif.Spec.History

/-! # Specification: code that uses one logger only -/

namespace Steit.Spec

/-- No logger but the given one is written to, paused or unpaused, whether the code ends normally or panics. -/
def Only {α : Type} (id : Nat) (x : Exec α) : Prop := ∀ w i, i ≠ id → (x w).2.loggers i = w.loggers i

mutual
/-- The closures passed in a call use the logger of the runtime they are given only, and the call is not on an object in a
`no_state` field (which has a runtime of its own). -/
def OpOnly : (t : Ty) → t.Op → Prop
  | .box t, op => OpOnly t op
  | .list t, op =>
    match op with
    | .item _ op => OpOnly t op
    | .pushWith f => ∀ rt, Only rt.logger (f rt)
    | _ => True
  | .map _ t, op =>
    match op with
    | .value _ op => OpOnly t op
    | .insertWith _ f => ∀ rt, Only rt.logger (f rt)
    | _ => True
  | .struct true _ fs, op => OpOnlyFields fs op
  | .enum true _ fs vs, op =>
    match op with
    | .inl op => OpOnlyFields fs op
    | .inr op => OpOnlyVariant vs op
  | _, _ => True

/-- Fields. -/
def OpOnlyFields : (fs : Fields) → fs.Op → Prop
  | .nil, _ => True
  | .cons _ attrs t _, .inl op =>
    match op with
    | .inner op => attrs.noState = false ∧ OpOnly t op
    | .setWith f => ∀ rt, Only rt.logger (f rt)
    | .set _ => True
  | .cons _ _ _ fs, .inr op => OpOnlyFields fs op

/-- Variants. -/
def OpOnlyVariant : (vs : Variants) → vs.Op → Prop
  | .nil, _ => True
  | .cons _ _ fs _, .inl op => OpOnlyFields fs op
  | .cons _ _ _ vs, .inr op => OpOnlyVariant vs op
end

end Steit.Spec
