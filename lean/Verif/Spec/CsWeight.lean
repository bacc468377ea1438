import Verif.Model.CSharp

/-! # How big the objects of a C# client are, and how much of them a byte can make -/

namespace Steit.Spec

mutual
/-- The size of a client's value: its objects, and the bytes of its strings, in UTF-8. -/
def csWeight : (t : Ty) → t.Cs → Nat
  | .uint _, _ => 1
  | .sint _, _ => 1
  | .bool, _ => 1
  | .string, v => 1 + (v.toList.map (fun s => s.bytes.length)).sum
  | .bytes, v => 1 + v.length
  | .vec t, v => 1 + (v.map (csWeight t)).sum
  | .array _ t, v => 1 + (v.map (csWeight t)).sum
  | .tuple _, _ => 1
  | .option t, v => 1 + (v.toList.map (csWeight t)).sum
  | .box t, v => csWeight t v
  | .hashMap _ _, _ => 1
  | .list t, v => 1 + (v.map (csWeight t)).sum
  | .map _ t, v => 1 + (v.map (fun e => 1 + csWeight t e.2)).sum
  | .struct _ _ fs, v => 1 + csWeightFields fs v
  | .enum _ _ fs vs, v =>
    1 + match v with
      | .inl x => csWeightFields fs x
      | .inr x => csWeightVariant vs x

/-- Of the properties together. -/
def csWeightFields : (fs : Fields) → fs.Cs → Nat
  | .nil, _ => 0
  | .cons _ _ t fs, v => csWeight t v.1 + csWeightFields fs v.2

/-- Of the properties of the current variant. -/
def csWeightVariant : (vs : Variants) → vs.Cs → Nat
  | .nil, _ => 0
  | .cons _ _ fs vs, v =>
    match v with
    | .inl x => csWeightFields fs x
    | .inr x => csWeightVariant vs x
end

mutual
/-- The size of the declaration of a type: every byte of a message makes at most this much. A string counts three, for a byte
that is no UTF-8 may be read as U+FFFD, which takes three. -/
def csGrowth : Ty → Nat
  | .uint _ => 1
  | .sint _ => 1
  | .bool => 1
  | .string => 3
  | .bytes => 1
  | .vec t => 1 + csGrowth t
  | .array _ t => 1 + csGrowth t
  | .tuple _ => 1
  | .option t => 1 + csGrowth t
  | .box t => csGrowth t
  | .hashMap _ _ => 1
  | .list t => 1 + csGrowth t
  | .map _ t => 1 + csGrowth t
  | .struct _ _ fs => 1 + csGrowthFields fs
  | .enum _ _ fs vs => 1 + csGrowthFields fs + csGrowthVariants vs

/-- Of all properties. -/
def csGrowthFields : Fields → Nat
  | .nil => 0
  | .cons _ _ t fs => csGrowth t + csGrowthFields fs

/-- Of all variants. -/
def csGrowthVariants : Variants → Nat
  | .nil => 0
  | .cons _ _ fs vs => csGrowthFields fs + csGrowthVariants vs
end

/-- What is asked of the replacement of bytes that are no UTF-8 (`Encoding.UTF8.GetString`): no byte becomes more than one
U+FFFD. -/
def Replaces (ρ : Bytes → Str) : Prop := ∀ bs, (ρ bs).bytes.length ≤ 3 * bs.length

end Steit.Spec
