import Verif.Spec.Part
import Verif.Spec.Log

/-!
# Specification: entries that concern an object, and entries that do not

For leaving entries out of a log, and for changing their order.
-/

namespace Steit.Spec

/-- The entry is addressed to the object at `p` or to something inside of it. -/
def Within (p : List U32) (e : Entry) : Prop := p <+: address e

instance (p : List U32) (e : Entry) : Decidable (Within p e) := inferInstanceAs (Decidable (p <+: address e))

/-- The entry leaves the object at `p` alone: it is addressed elsewhere, or it pushes to a list around the object, or removes another
value from a map around it. -/
def Aside (p : List U32) : Entry → Prop
  | .update q _ => ¬ p <+: q ∧ ¬ q <+: p
  | .listPush q _ => ¬ p <+: q
  | .listPop q => ¬ p <+: q ∧ ¬ q <+: p
  | .mapRemove q k => ¬ p <+: q ∧ ¬ q ++ [k] <+: p

/-- The entry replaces or removes the object at `p`, or something around it. -/
def Erases (p : List U32) : Entry → Prop
  | .update q _ => q <+: p
  | .mapRemove q k => q ++ [k] <+: p
  | .listPush _ _ => False
  | .listPop _ => False

/-- The log without the entries for the object at `p`. -/
def without (p : List U32) (es : List Entry) : List Entry := es.filter (fun e => !decide (Within p e))

/-- Entries for an object are left out of a log, on account of a later entry `e` that replaces or removes the object. Nothing is said about
the state the log is for: that the object exists is seen from the log. -/
inductive Omits : List Entry → List Entry → Prop
  /-- The log has an update of the object, which is kept. -/
  | updated {before es later : List Entry} {p : List U32} {b : Bytes} {e : Entry} : (∀ x ∈ es, Within p x ∨ Aside p x) → Erases p e →
      Omits (before ++ .update p b :: (es ++ e :: later)) (before ++ .update p b :: (without p es ++ e :: later))
  /-- Something else happens to the object first. -/
  | existed {before es later : List Entry} {p : List U32} {x e : Entry} : Within p x → (∀ b, x ≠ .update p b) →
      (∀ x ∈ es, Within p x ∨ Aside p x) → Erases p e → Omits (before ++ x :: (es ++ e :: later)) (before ++ (without p es ++ e :: later))

/-- Any number of times. -/
inductive Compacted : List Entry → List Entry → Prop
  | refl {es : List Entry} : Compacted es es
  | step {es es' es'' : List Entry} : Compacted es es' → Omits es' es'' → Compacted es es''

end Steit.Spec
