import Mathlib.Data.List.Forall2
import Verif.Model.Ty

/-!
# What it means for two values to be equal

Written without reference to the generated comparison: equal data, item by item, field by field; maps are equal when they
have the same entries in whatever order; runtimes and caches do not matter, nor do the fields the user excluded.
-/

namespace Steit.Spec

mutual
/-- Equal values. -/
def Equal : (t : Ty) → t.El → t.El → Prop
  | .uint _, a, b => a = b
  | .sint _, a, b => a = b
  | .bool, a, b => a = b
  | .string, a, b => a.bytes = b.bytes
  | .bytes, a, b => a = b
  | .vec t, a, b => List.Forall₂ (Equal t) a b
  | .array _ t, a, b => List.Forall₂ (Equal t) a.1 b.1
  | .tuple ts, a, b => EqualTuple ts a b
  | .option t, a, b => (a = none ∧ b = none) ∨ ∃ x y, a = some x ∧ b = some y ∧ Equal t x y
  | .box t, a, b => Equal t a b
  | .hashMap k v, a, b => ∃ c, List.Forall₂ (fun e e' => Equal k e.1 e'.1 ∧ Equal v e.2 e'.2) a c ∧ c.Perm b
  | .list t, a, b => List.Forall₂ (Equal t) a.items b.items
  | .map _ t, a, b => ∃ c, List.Forall₂ (fun e e' => e.1 = e'.1 ∧ Equal t e.2 e'.2) a.entries c ∧ c.Perm b.entries
  | .struct _ _ fs, a, b => EqualFields fs a.fields b.fields
  | .enum _ _ fs vs, a, b =>
    (∃ x y, a.val = .inl x ∧ b.val = .inl y ∧ EqualFields fs x y) ∨
    (∃ x y, a.val = .inr x ∧ b.val = .inr y ∧ EqualVariant vs x y)

/-- Component-wise. -/
def EqualTuple : (ts : Tys) → ts.El → ts.El → Prop
  | .nil, _, _ => True
  | .cons t ts, a, b => Equal t a.1 b.1 ∧ EqualTuple ts a.2 b.2

/-- In all fields that are not excluded. -/
def EqualFields : (fs : Fields) → fs.El → fs.El → Prop
  | .nil, _, _ => True
  | .cons _ attrs t fs, a, b => (attrs.noEqHash = false → Equal t a.1 b.1) ∧ EqualFields fs a.2 b.2

/-- The same variant, with equal fields. -/
def EqualVariant : (vs : Variants) → vs.El → vs.El → Prop
  | .nil, _, _ => False
  | .cons _ _ fs vs, a, b =>
    (∃ x y, a = .inl x ∧ b = .inl y ∧ EqualFields fs x y) ∨ (∃ x y, a = .inr x ∧ b = .inr y ∧ EqualVariant vs x y)
end

mutual
/-- What `HashMap` and `IndexMap` ensure wherever they occur in a value: no two entries have equal keys. -/
def Keyed : (t : Ty) → t.El → Prop
  | .vec t, v => ∀ x ∈ v, Keyed t x
  | .array _ t, v => ∀ x ∈ v.1, Keyed t x
  | .tuple ts, v => KeyedTuple ts v
  | .option t, v => ∀ x ∈ v, Keyed t x
  | .box t, v => Keyed t v
  | .hashMap k w, v => (∀ e ∈ v, Keyed k e.1 ∧ Keyed w e.2) ∧ v.Pairwise (fun e e' => ¬ Equal k e.1 e'.1)
  | .list t, v => ∀ x ∈ v.items, Keyed t x
  | .map _ t, v => (∀ e ∈ v.entries, Keyed t e.2) ∧ (v.entries.map (·.1)).Nodup
  | .struct _ _ fs, v => KeyedFields fs v.fields
  | .enum _ _ fs vs, v =>
    match v.val with
    | .inl x => KeyedFields fs x
    | .inr x => KeyedVariant vs x
  | _, _ => True

/-- Component-wise. -/
def KeyedTuple : (ts : Tys) → ts.El → Prop
  | .nil, _ => True
  | .cons t ts, v => Keyed t v.1 ∧ KeyedTuple ts v.2

/-- Field-wise. -/
def KeyedFields : (fs : Fields) → fs.El → Prop
  | .nil, _ => True
  | .cons _ _ t fs, v => Keyed t v.1 ∧ KeyedFields fs v.2

/-- In the current variant. -/
def KeyedVariant : (vs : Variants) → vs.El → Prop
  | .nil, _ => True
  | .cons _ _ fs vs, v =>
    match v with
    | .inl x => KeyedFields fs x
    | .inr x => KeyedVariant vs x
end

mutual
/-- No field is excluded from hashing without being excluded from comparison too. -/
def FullyHashed : Ty → Prop
  | .vec t => FullyHashed t
  | .array _ t => FullyHashed t
  | .tuple ts => FullyHashedTuple ts
  | .option t => FullyHashed t
  | .box t => FullyHashed t
  | .list t => FullyHashed t
  | .struct _ _ fs => FullyHashedFields fs
  | .enum _ _ fs vs => FullyHashedFields fs ∧ FullyHashedVariants vs
  | _ => True

/-- In all components. -/
def FullyHashedTuple : Tys → Prop
  | .nil => True
  | .cons t ts => FullyHashed t ∧ FullyHashedTuple ts

/-- In all fields. -/
def FullyHashedFields : Fields → Prop
  | .nil => True
  | .cons _ attrs t fs => (attrs.noEqHash = false → attrs.noHash = false ∧ FullyHashed t) ∧ FullyHashedFields fs

/-- In all variants. -/
def FullyHashedVariants : Variants → Prop
  | .nil => True
  | .cons _ _ fs vs => FullyHashedFields fs ∧ FullyHashedVariants vs
end

end Steit.Spec
