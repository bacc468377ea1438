import Verif.Spec.Encoding
import Verif.Model.CSharp
import Verif.Spec.History
import Mathlib.Data.List.Forall2

/-!
# What it means that a C# object shows the data of a Rust value

Only the types of values and objects are shared with the model.
-/

namespace Steit.Spec

mutual
/-- The C# object `c` holds the same data as the Rust value `v`. A null string stands for the empty string; entries of a
`StateMap` have no order. -/
def Shows : (t : Ty) → t.El → t.Cs → Prop
  | .uint _, v, c => c = v
  | .sint _, v, c => c = v
  | .bool, v, c => c = v
  | .string, v, c => c = some v ∨ (c = none ∧ v.bytes = [])
  | .bytes, v, c => c = v
  | .vec t, v, c => List.Forall₂ (Shows t) v c
  | .array _ t, v, c => List.Forall₂ (Shows t) v.1 c
  | .tuple _, _, _ => False
  | .option t, v, c => Option.Rel (Shows t) v c
  | .box t, v, c => Shows t v c
  | .hashMap _ _, _, _ => False
  | .list t, v, c => List.Forall₂ (Shows t) v.items c
  | .map _ t, v, c => ∀ k, Option.Rel (Shows t) (v.entries.lookup k) (c.lookup k)
  | .struct _ _ fs, v, c => ShowsFields fs v.fields c
  | .enum _ _ fs vs, v, c =>
    match v.val, c with
    | .inl x, .inl y => ShowsFields fs x y
    | .inr x, .inr y => ShowsVariant vs x y
    | _, _ => False

/-- Field by field. -/
def ShowsFields : (fs : Fields) → fs.El → fs.Cs → Prop
  | .nil, _, _ => True
  | .cons _ _ t fs, v, c => Shows t v.1 c.1 ∧ ShowsFields fs v.2 c.2

/-- The same variant, field by field. -/
def ShowsVariant : (vs : Variants) → vs.El → vs.Cs → Prop
  | .nil, v, _ => nomatch v
  | .cons _ _ fs vs, v, c =>
    match v, c with
    | .inl x, .inl y => ShowsFields fs x y
    | .inr x, .inr y => ShowsVariant vs x y
    | _, _ => False
end

/-- Does the type stand for a C# primitive, possibly boxed in Rust? -/
def primitive : Ty → Bool
  | .uint _ => true
  | .sint _ => true
  | .bool => true
  | .string => true
  | .box t => primitive t
  | _ => false

/-- Does the type stand for a C# string? -/
def textual : Ty → Bool
  | .string => true
  | .box t => textual t
  | _ => false

/-- Fields for which the generated code works: a boxed field is not a boxed primitive (the generated code does not compile), a
field whose type is a type parameter is not a string (the generated code takes it for a varint). -/
def GoodField (attrs : FieldAttrs) (t : Ty) : Prop :=
  if attrs.param then textual t = false
  else match t with
    | .box t => primitive t = false
    | _ => True

mutual
/-- Types with a working C# counterpart: no tuples, no `HashMap`s, fields as said above. -/
def Mirrored : Ty → Prop
  | .uint _ => True
  | .sint _ => True
  | .bool => True
  | .string => True
  | .bytes => True
  | .vec t => Mirrored t
  | .array _ t => Mirrored t
  | .tuple _ => False
  | .option t => Mirrored t
  | .box t => Mirrored t
  | .hashMap _ _ => False
  | .list t => Mirrored t
  | .map _ t => Mirrored t
  | .struct _ _ fs => MirroredFields fs
  | .enum _ _ fs vs => MirroredFields fs ∧ MirroredVariants vs

/-- All fields. -/
def MirroredFields : Fields → Prop
  | .nil => True
  | .cons _ attrs t fs => GoodField attrs t ∧ Mirrored t ∧ MirroredFields fs

/-- All variants. -/
def MirroredVariants : Variants → Prop
  | .nil => True
  | .cons _ _ fs vs => MirroredFields fs ∧ MirroredVariants vs
end

mutual
/-- Values whose encoding C# can read: `i64`s are in `[-2^62, 2^62)`, map keys can be written and are distinct. -/
def Legible : (t : Ty) → t.El → Prop
  | .uint _, _ => True
  | .sint w, v => w = .w64 → -(2 ^ 62 : Int) ≤ v.toInt ∧ v.toInt < 2 ^ 62
  | .bool, _ => True
  | .string, _ => True
  | .bytes, _ => True
  | .vec t, v => ∀ x ∈ v, Legible t x
  | .array _ t, v => ∀ x ∈ v.1, Legible t x
  | .tuple ts, v => LegibleTuple ts v
  | .option t, v => ∀ x ∈ v, Legible t x
  | .box t, v => Legible t v
  | .hashMap k w, v => ∀ e ∈ v, Legible k e.1 ∧ Legible w e.2
  | .list t, v => ∀ x ∈ v.items, Legible t x
  | .map _ t, v => (∀ e ∈ v.entries, e.1.toNat < 2 ^ 29 ∧ Legible t e.2) ∧ (v.entries.map (·.1)).Nodup
  | .struct _ _ fs, v => LegibleFields fs v.fields
  | .enum _ _ fs vs, v =>
    match v.val with
    | .inl x => LegibleFields fs x
    | .inr x => LegibleVariant vs x

/-- Component-wise. -/
def LegibleTuple : (ts : Tys) → ts.El → Prop
  | .nil, _ => True
  | .cons t ts, v => Legible t v.1 ∧ LegibleTuple ts v.2

/-- Field-wise. -/
def LegibleFields : (fs : Fields) → fs.El → Prop
  | .nil, _ => True
  | .cons _ _ t fs, v => Legible t v.1 ∧ LegibleFields fs v.2

/-- In the current variant. -/
def LegibleVariant : (vs : Variants) → vs.El → Prop
  | .nil, _ => True
  | .cons _ _ fs vs, v =>
    match v with
    | .inl x => LegibleFields fs x
    | .inr x => LegibleVariant vs x
end

/-- An entry below the 2 GiB limit of the C# client: at most five bytes per path element, and headers. -/
def CsFits (e : Entry) : Prop := 5 * (address e).length + (payload e).length + 64 < 2 ^ 31

/-- A Rust source and a C# client in rounds, as `rounds`. -/
def csRounds (t : Ty) (ρ : Bytes → Str) (m : Mode) (μ : Nat → Prog.Mem) (id : Nat) :
    List (List t.Op) → t.El → t.Cs → World → Option (t.El × t.Cs × World)
  | [], v, c, w => some (v, c, w)
  | ops :: rest, v, c, w =>
    match calls t m ops v w with
    | (.error _, _) => none
    | (.ok v', w') =>
      match (BufferLogger.mk (w'.loggers id).entries).bytes m μ with
      | .error _ => none
      | .ok bytes =>
        match t.csReplay ρ c bytes with
        | .error _ => none
        | .ok c' => csRounds t ρ m μ id rest v' c' (drained id w')

/-- Admissible rounds, as `RoundsSync`. -/
def CsRoundsSync (t : Ty) (m : Mode) (id : Nat) : List (List t.Op) → t.El → World → Prop
  | [], _, _ => True
  | ops :: rest, v, w => CallsSync t m ops v w ∧
    ∀ v' w', calls t m ops v w = (.ok v', w') →
      (∀ e ∈ (w'.loggers id).entries, CsFits e) ∧ CsRoundsSync t m id rest v' (drained id w')

end Steit.Spec
