import Verif.Spec.Chunks

/-!
# Specification: message schemas that differ in some fields
-/

namespace Steit.Spec

/-- Two values of a message agree on every field whose tag is not `n`. -/
def AgreeExcept : (fs : Fields) → (n : U32) → fs.El → fs.El → Prop
  | .nil, _, _, _ => True
  | .cons tag _ _ fs, n, a, b => (tag ≠ n → a.1 = b.1) ∧ AgreeExcept fs n a.2 b.2

/-- Tags of the fields of the variant with tag `n` (none if there is no such variant). -/
def fieldTagsOf : Variants → (n : U32) → List U32
  | .nil, _ => []
  | .cons tag _ fs vs, n => if n = tag then fs.tags else fieldTagsOf vs n

/-- A change of schema: fields present before and after, and fields added, in any order. -/
inductive Evo where
  | nil
  | keep (tag : U32) (attrs : FieldAttrs) (t : Ty) (rest : Evo)
  | add (tag : U32) (attrs : FieldAttrs) (t : Ty) (rest : Evo)

/-- The schema before the change. -/
@[reducible] def Evo.old : Evo → Fields
  | .nil => .nil
  | .keep tag attrs t e => .cons tag attrs t e.old
  | .add _ _ _ e => e.old

/-- The schema after the change. -/
@[reducible] def Evo.new : Evo → Fields
  | .nil => .nil
  | .keep tag attrs t e => .cons tag attrs t e.new
  | .add tag attrs t e => .cons tag attrs t e.new

/-- The part of a new value an old program knows. -/
def Evo.narrow : (e : Evo) → e.new.El → e.old.El
  | .nil, _ => ()
  | .keep _ _ _ e, v => (v.1, e.narrow v.2)
  | .add _ _ _ e, v => e.narrow v.2

/-- An old value as a new program should see it: added fields at the defaults of their types. -/
def Evo.widen : (e : Evo) → e.old.El → e.new.El
  | .nil, _ => ()
  | .keep _ _ _ e, v => (v.1, e.widen v.2)
  | .add _ _ t e, v => (t.dict.dflt, e.widen v)

end Steit.Spec
