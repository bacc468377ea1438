import Verif.Model.Ty

/-!
# Specification: every object inside a state knows its own address

`At t rt v`: the object `v` of type `t` sits at `rt` (a logger and a path), and every state object inside it carries that
logger and the path of field numbers leading to it; no two of them share an address, since the keys of a map are distinct.
Objects behind a type that does not implement `State`, or in a
`no_state` field, are not part of the hierarchy: they form little hierarchies of their own (`∃ rt'`).
-/

namespace Steit.Spec

mutual
/-- See the head of the file. -/
def At : (t : Ty) → Rt → t.El → Prop
  | .uint _, _, _ => True
  | .sint _, _, _ => True
  | .bool, _, _ => True
  | .string, _, _ => True
  | .bytes, _, _ => True
  | .vec t, _, v => ∀ x ∈ v, ∃ rt', At t rt' x
  | .array _ t, _, v => ∀ x ∈ v.1, ∃ rt', At t rt' x
  | .tuple ts, _, v => AtTuple ts v
  | .option t, _, v => ∀ x ∈ v, ∃ rt', At t rt' x
  | .box t, rt, v => At t rt v
  | .hashMap k w, _, v => ∀ e ∈ v, (∃ rt', At k rt' e.1) ∧ ∃ rt', At w rt' e.2
  | .list t, rt, v => v.rt = rt ∧ ∀ i x, v.items[i]? = some x → At t (rt.nested (fieldNo i)) x
  | .map _ t, rt, v => v.rt = rt ∧ (v.entries.map (·.1)).Nodup ∧ ∀ e ∈ v.entries, At t (rt.nested e.1) e.2
  | .struct ds _ fs, rt, v => (ds = true → v.rt = rt) ∧ AtFields fs ds rt v.fields
  | .enum ds _ fs vs, rt, v =>
    match v.val with
    | .inl x => (ds = true → v.rt = rt.nested 0#32) ∧ AtFields fs ds (rt.nested 0#32) x
    | .inr x => AtVariant vs ds rt v.rt x

/-- Tuples are no state. -/
def AtTuple : (ts : Tys) → ts.El → Prop
  | .nil, _ => True
  | .cons t ts, v => (∃ rt', At t rt' v.1) ∧ AtTuple ts v.2

/-- A field of a state message sits at its tag. -/
def AtFields : (fs : Fields) → (deriveState : Bool) → Rt → fs.El → Prop
  | .nil, _, _, _ => True
  | .cons tag attrs t fs, ds, rt, v =>
    (if ds && !attrs.noState then At t (rt.nested tag) v.1 else ∃ rt', At t rt' v.1) ∧ AtFields fs ds rt v.2

/-- The fields of a variant sit below the variant's tag; the enum stores the runtime of the variant (`own`). -/
def AtVariant : (vs : Variants) → (deriveState : Bool) → Rt → (own : Rt) → vs.El → Prop
  | .nil, _, _, _, v => nomatch v
  | .cons tag _ fs vs, ds, rt, own, v =>
    match v with
    | .inl x => (ds = true → own = rt.nested tag) ∧ AtFields fs ds (rt.nested tag) x
    | .inr x => AtVariant vs ds rt own x
end

end Steit.Spec
