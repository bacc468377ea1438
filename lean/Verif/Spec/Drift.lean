import Verif.Spec.Part

/-!
# Specification: calls elsewhere

`Elsewhere t m p v w v' w'`: any number of calls on objects in a state, none of them the object at path `p`, inside of it, or around it,
lead from `v` to `v'` (and from world `w` to `w'`).
-/

namespace Steit.Spec

/-- See the head of the file. Every call is within the side conditions of C24. -/
inductive Elsewhere (t : Ty) (m : Mode) (p : List U32) (v : t.El) (w : World) : t.El → World → Prop
  | start : Elsewhere t m p v w v w
  | call {v1 : t.El} {w1 w2 : World} {q : List U32} {s : Ty} {u u' : s.El} {put : s.El → t.El} {op : s.Op} :
      Elsewhere t m p v w v1 w1 → Part t v1 q s u put → ¬ p <+: q → ¬ q <+: p → OpAddr s op u → OpSync s op u →
      s.run m op u w1 = (.ok u', w2) → Elsewhere t m p v w (put u') w2

end Steit.Spec
