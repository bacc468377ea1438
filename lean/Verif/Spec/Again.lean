import Verif.Spec.CSharp
import Verif.Model.Log

/-! # Log entries that arrive more than once

For the statements about entries a replica has already seen: a snapshot taken before the log was drained, a message delivered twice. -/

namespace Steit.Spec

/-- Only fields and whole values are written: nothing is pushed, popped or removed. -/
def Updates (es : List Entry) : Prop := ∀ e ∈ es, ∃ path value, e = .update path value

/-- The entries `es` arrive as `es'`: in order, each one or more times before the next. -/
inductive Repeats : List Entry → List Entry → Prop
  | done : Repeats [] []
  | next {e : Entry} {es es' : List Entry} : Repeats es es' → Repeats (e :: es) (e :: es')
  | again {e : Entry} {es es' : List Entry} : Repeats (e :: es) es' → Repeats (e :: es) (e :: es')

mutual
/-- Objects of a C# client that are equal, except that a dictionary may list its entries in another order. What is only ever written
as a whole (`Vector`, `Option`, `Bytes` and primitives) has to be equal as it is. -/
def Alike : (t : Ty) → t.Cs → t.Cs → Prop
  | .box t, c, c' => Alike t c c'
  | .list t, c, c' => List.Forall₂ (Alike t) c c'
  | .map _ t, c, c' => ∀ k, Option.Rel (Alike t) (c.lookup k) (c'.lookup k)
  | .struct _ _ fs, c, c' => AlikeFields fs c c'
  | .enum _ _ fs vs, c, c' =>
    match c, c' with
    | .inl x, .inl y => AlikeFields fs x y
    | .inr x, .inr y => AlikeVariant vs x y
    | _, _ => False
  | .uint _, c, c' => c = c'
  | .sint _, c, c' => c = c'
  | .bool, c, c' => c = c'
  | .string, c, c' => c = c'
  | .bytes, c, c' => c = c'
  | .vec _, c, c' => c = c'
  | .array _ _, c, c' => c = c'
  | .tuple _, c, c' => c = c'
  | .option _, c, c' => c = c'
  | .hashMap _ _, c, c' => c = c'

/-- Field by field. -/
def AlikeFields : (fs : Fields) → fs.Cs → fs.Cs → Prop
  | .nil, _, _ => True
  | .cons _ _ t fs, c, c' => Alike t c.1 c'.1 ∧ AlikeFields fs c.2 c'.2

/-- The same variant, field by field. -/
def AlikeVariant : (vs : Variants) → vs.Cs → vs.Cs → Prop
  | .nil, _, _ => True
  | .cons _ _ fs vs, c, c' =>
    match c, c' with
    | .inl x, .inl y => AlikeFields fs x y
    | .inr x, .inr y => AlikeVariant vs x y
    | _, _ => False
end

end Steit.Spec
