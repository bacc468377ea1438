import Verif.Spec.Encoding
import Verif.Spec.Log

/-!
# What can be left of a value whose encoding is cut short

Written down over the types only: `Blank` is a value of which nothing was said, `Remains t w v` says that `w` is one of the values
that can be left of `v`. Runtimes do not matter.
-/

namespace Steit.Spec

/-- Reading was given up with an ordinary io error. -/
def Refused (e : Err) : Prop := e = .unexpectedEof ∨ e = .invalidData

mutual
/-- A value nothing was said about: zero, empty, the variant with tag 0, and so on inside. -/
def Blank : (t : Ty) → t.El → Prop
  | .uint _, v => v = 0
  | .sint _, v => v = 0
  | .bool, v => v = false
  | .string, v => v.bytes = []
  | .bytes, v => v = []
  | .vec _, v => v = []
  | .array _ t, v => ∀ x ∈ v.1, Blank t x
  | .tuple ts, v => BlankTuple ts v
  | .option _, v => v = none
  | .box t, v => Blank t v
  | .hashMap _ _, v => v = []
  | .list _, v => v.items = []
  | .map _ _, v => v.entries = []
  | .struct _ _ fs, v => BlankFields fs v.fields
  | .enum _ _ fs _, v =>
    match v.val with
    | .inl x => BlankFields fs x
    | .inr _ => False

/-- All components. -/
def BlankTuple : (ts : Tys) → ts.El → Prop
  | .nil, _ => True
  | .cons t ts, v => Blank t v.1 ∧ BlankTuple ts v.2

/-- All fields. -/
def BlankFields : (fs : Fields) → fs.El → Prop
  | .nil, _ => True
  | .cons _ _ t fs, v => Blank t v.1 ∧ BlankFields fs v.2
end

/-- A first part of the items, whole (`S`) but for the last of them, which may be a remainder (`R`). -/
def RemainsItems {α : Type} (S R : α → α → Prop) : List α → List α → Prop
  | [], _ => True
  | _ :: _, [] => False
  | x :: xs, y :: ys => (S x y ∧ RemainsItems S R xs ys) ∨ (xs = [] ∧ R x y)

/-- Some whole elements, then at most one remainder, then blanks (`B`). -/
def RemainsArray {α : Type} (S R : α → α → Prop) (B : α → Prop) : List α → List α → Prop
  | [], _ => True
  | _ :: _, [] => False
  | x :: xs, y :: ys => (S x y ∧ RemainsArray S R B xs ys) ∨ ((R x y ∨ B x) ∧ ∀ z ∈ xs, B z)

mutual
/-- `w` is what can be left of `v`. -/
def Remains : (t : Ty) → (w v : t.El) → Prop
  | .uint _, w, v => w = v
  | .sint _, w, v => w = v
  | .bool, w, v => w = v
  | .string, w, v => w.bytes <+: v.bytes
  | .bytes, w, v => w <+: v
  | .vec t, w, v => RemainsItems (Same t) (Remains t) w v
  | .array _ t, w, v => RemainsArray (Same t) (Remains t) (Blank t) w.1 v.1
  | .tuple ts, w, v => RemainsTuple ts w v
  | .option t, w, v => RemainsItems (Same t) (Remains t) w.toList v.toList
  | .box t, w, v => Remains t w v
  | .hashMap k t, w, v =>
    RemainsItems (fun e e' => Same k e.1 e'.1 ∧ Same t e.2 e'.2) (fun e e' => Same k e.1 e'.1 ∧ Remains t e.2 e'.2) w v
  | .list t, w, v => RemainsItems (Same t) (Remains t) w.items v.items
  | .map _ t, w, v =>
    RemainsItems (fun e e' => e.1 = e'.1 ∧ Same t e.2 e'.2) (fun e e' => e.1 = e'.1 ∧ Remains t e.2 e'.2) w.entries v.entries
  | .struct _ _ fs, w, v => RemainsFields fs w.fields v.fields
  | .enum _ _ fs vs, w, v =>
    match w.val, v.val with
    | .inl x, .inl y => RemainsFields fs x y
    | .inr x, .inr y => RemainsVariant vs x y
    | _, _ => False

/-- All components are whole, but for the last one, which may be a remainder. -/
def RemainsTuple : (ts : Tys) → (w v : ts.El) → Prop
  | .nil, _, _ => True
  | .cons t .nil, w, v => Remains t w.1 v.1
  | .cons t (.cons t' ts), w, v => Same t w.1 v.1 ∧ RemainsTuple (.cons t' ts) w.2 v.2

/-- Some whole fields, then at most one remainder, then blanks. -/
def RemainsFields : (fs : Fields) → (w v : fs.El) → Prop
  | .nil, _, _ => True
  | .cons _ _ t fs, w, v =>
    (Same t w.1 v.1 ∧ RemainsFields fs w.2 v.2) ∨ ((Remains t w.1 v.1 ∨ Blank t w.1) ∧ BlankFields fs w.2)

/-- The same variant. -/
def RemainsVariant : (vs : Variants) → (w v : vs.El) → Prop
  | .nil, _, _ => True
  | .cons _ _ fs vs, w, v =>
    match w, v with
    | .inl x, .inl y => RemainsFields fs x y
    | .inr x, .inr y => RemainsVariant vs x y
    | _, _ => False
end

/-- What can be left of a log entry: the same kind of entry with the same path and part of its payload, or with the first elements of
its path and no payload (key 0). -/
def CutEntry : (left whole : Entry) → Prop
  | .update p' v', .update p v => (p' = p ∧ v' <+: v) ∨ (p' <+: p ∧ v' = [])
  | .listPush p' v', .listPush p v => (p' = p ∧ v' <+: v) ∨ (p' <+: p ∧ v' = [])
  | .listPop p', .listPop p => p' <+: p
  | .mapRemove p' k', .mapRemove p k => (p' = p ∧ k' = k) ∨ (p' <+: p ∧ k' = 0)
  | _, _ => False

end Steit.Spec
