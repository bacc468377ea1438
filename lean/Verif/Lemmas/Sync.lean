import Verif.Lemmas.Follow

/-! # Replicas follow API calls -/

namespace Steit
open Spec

/-- A call runs without panic, leaves a value the wire can carry, logs some entries, and applying these to any object equal to
the one before the call makes it equal to the one after. -/
def Synced (t : Ty) (m : Mode) (op : t.Op) (v : t.El) (rt : Rt) (w : World) : Prop :=
  ∃ v' w' es, t.run m op v w = (.ok v', w') ∧ Carried t v' ∧ Logged rt w w' es ∧
    ∀ m' r rt', At t rt' r → strip t r = strip t v → ∃ r', Applies (t.dict.handle m') r es r' ∧ strip t r' = strip t v'

/-- All admissible calls on a type are synced. -/
def Syncs (t : Ty) : Prop :=
  ∀ m op v rt w, At t rt v → Carried t v → OpAddr t op v → OpSync t op v → Synced t m op v rt w

/-- Types with API calls are states. -/
theorem isState_of_op : (t : Ty) → t.Op → t.isState = true
  | .uint _, op => nomatch op
  | .sint _, op => nomatch op
  | .bool, op => nomatch op
  | .string, op => nomatch op
  | .bytes, op => nomatch op
  | .vec _, op => nomatch op
  | .array _ _, op => nomatch op
  | .tuple _, op => nomatch op
  | .option _, op => nomatch op
  | .hashMap _ _, op => nomatch op
  | .struct false _ _, op => nomatch op
  | .enum false _ _ _, op => nomatch op
  | .box t, op => isState_of_op t op
  | .list _, _ => rfl
  | .map _ _, _ => rfl
  | .struct true _ _, _ => rfl
  | .enum true _ _ _, _ => rfl

theorem syncs (t : Ty) (ht : t.WF) : Syncs t := by
  intro m op v rt w hv hc ha ho
  obtain ⟨v', w', es, h1, h2, h3, h4⟩ := tells t ht m op v rt w hv hc ha ho
  exact ⟨v', w', es, h1, h2, h3, fun m' r rt' hr hs => follows_steps ht (isState_of_op t op) m' h4 hr hs⟩

end Steit
