import Verif.Spec.Encoding

/-! # How big a value is, and how much of it a byte can make -/

namespace Steit.Spec

mutual
/-- The size of a value: its objects, and the bytes of its strings. -/
def weight : (t : Ty) → t.El → Nat
  | .uint _, _ => 1
  | .sint _, _ => 1
  | .bool, _ => 1
  | .string, v => 1 + v.bytes.length
  | .bytes, v => 1 + v.length
  | .vec t, v => 1 + (v.map (weight t)).sum
  | .array _ t, v => 1 + (v.1.map (weight t)).sum
  | .tuple ts, v => 1 + weightTuple ts v
  | .option t, v => 1 + (v.toList.map (weight t)).sum
  | .box t, v => weight t v
  | .hashMap k w, v => 1 + (v.map (fun e => weight k e.1 + weight w e.2)).sum
  | .list t, v => 1 + (v.items.map (weight t)).sum
  | .map _ t, v => 1 + (v.entries.map (fun e => 1 + weight t e.2)).sum
  | .struct _ _ fs, v => 1 + weightFields fs v.fields
  | .enum _ _ fs vs, v =>
    1 + match v.val with
      | .inl x => weightFields fs x
      | .inr x => weightVariant vs x

/-- Of the components together. -/
def weightTuple : (ts : Tys) → ts.El → Nat
  | .nil, _ => 0
  | .cons t ts, v => weight t v.1 + weightTuple ts v.2

/-- Of the fields together. -/
def weightFields : (fs : Fields) → fs.El → Nat
  | .nil, _ => 0
  | .cons _ _ t fs, v => weight t v.1 + weightFields fs v.2

/-- Of the fields of the current variant. -/
def weightVariant : (vs : Variants) → vs.El → Nat
  | .nil, _ => 0
  | .cons _ _ fs vs, v =>
    match v with
    | .inl x => weightFields fs x
    | .inr x => weightVariant vs x
end

mutual
/-- The size of the declaration of a type, arrays counted with all their items: every byte of a message makes at most this
much. -/
def growth : Ty → Nat
  | .uint _ => 1
  | .sint _ => 1
  | .bool => 1
  | .string => 1
  | .bytes => 1
  | .vec t => 1 + growth t
  | .array n t => 1 + (n + 1) * growth t
  | .tuple ts => 1 + growthTuple ts
  | .option t => 1 + growth t
  | .box t => growth t
  | .hashMap k w => 1 + growth k + growth w
  | .list t => 1 + growth t
  | .map _ t => 1 + growth t
  | .struct _ _ fs => 1 + growthFields fs
  | .enum _ _ fs vs => 1 + growthFields fs + growthVariants vs

/-- Of all components. -/
def growthTuple : Tys → Nat
  | .nil => 0
  | .cons t ts => growth t + growthTuple ts

/-- Of all fields. -/
def growthFields : Fields → Nat
  | .nil => 0
  | .cons _ _ t fs => growth t + growthFields fs

/-- Of all variants. -/
def growthVariants : Variants → Nat
  | .nil => 0
  | .cons _ _ fs vs => growthFields fs + growthVariants vs
end

end Steit.Spec
