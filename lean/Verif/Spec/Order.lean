import Verif.Spec.Recursive
import Verif.Spec.Equal

/-!
# The order in which hash maps iterate

The standard library does not say in which order a `HashMap` yields its entries; two maps with the same entries, in one process or in
two, may differ in it. `Shuffle t v w`: `w` is `v` with the entries of every `HashMap` inside of it, at any depth, in any other order.
All else is the same: the items of a `List` or a `Vec` and the entries of a `Map` (an `IndexMap`, which does have an order) are in the
same order, and fields that are excluded from comparison count. Runtimes do not.
-/

namespace Steit.Spec

/-- The same entries in any order. -/
def Reordered {α β : Type} (R : α → β → Prop) (a : List α) (b : List β) : Prop := ∃ c, SameItems R a c ∧ c.Perm b

mutual
/-- See the head of the file. -/
def Shuffle : (t : Ty) → t.El → t.El → Prop
  | .uint _ => Eq
  | .sint _ => Eq
  | .bool => Eq
  | .string => Eq
  | .bytes => Eq
  | .vec t => SameItems (Shuffle t)
  | .array _ t => fun x y => SameItems (Shuffle t) x.1 y.1
  | .tuple ts => ShuffleTuple ts
  | .option t => SameOption (Shuffle t)
  | .box t => Shuffle t
  | .hashMap k v => Reordered (SamePair (Shuffle k) (Shuffle v))
  | .list t => fun x y => SameItems (Shuffle t) x.items y.items
  | .map _ t => fun x y => SameItems (SamePair Eq (Shuffle t)) x.entries y.entries
  | .struct _ _ fs => fun x y => ShuffleFields fs x.fields y.fields
  | .enum _ _ fs vs => fun x y => SameSum (ShuffleFields fs) (ShuffleVariant vs) x.val y.val

/-- Component-wise. -/
def ShuffleTuple : (ts : Tys) → ts.El → ts.El → Prop
  | .nil => fun _ _ => True
  | .cons t ts => SamePair (Shuffle t) (ShuffleTuple ts)

/-- Field-wise. -/
def ShuffleFields : (fs : Fields) → fs.El → fs.El → Prop
  | .nil => fun _ _ => True
  | .cons _ _ t fs => SamePair (Shuffle t) (ShuffleFields fs)

/-- The same variant, field-wise. -/
def ShuffleVariant : (vs : Variants) → vs.El → vs.El → Prop
  | .nil => fun _ _ => False
  | .cons _ _ fs vs => SameSum (ShuffleFields fs) (ShuffleVariant vs)
end

end Steit.Spec
