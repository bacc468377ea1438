import Verif.Spec.CSharp
import Verif.Spec.Revision

/-!
# Specification: a C# client generated from another revision of the type

`r.wr` is the type of the Rust program that writes data and logs, `r.rd` the one the classes of the client were generated from.
What the client should make of a value is `see` (`Verif/Spec/Revision.lean`), the same as for a Rust program.
-/

namespace Steit.Spec

mutual
/-- A new object of the class shows the default of the type: there is no array in it, whose default has as many items as the array
is long in Rust, and none in C#. -/
def Bare : Ty → Prop
  | .array _ _ => False
  | .tuple _ => False
  | .hashMap _ _ => False
  | .box t => Bare t
  | .struct _ _ fs => BareFields fs
  | .enum _ _ fs _ => BareFields fs
  | _ => True

/-- All fields. -/
def BareFields : Fields → Prop
  | .nil => True
  | .cons _ _ t fs => Bare t ∧ BareFields fs
end

/-- The reader knows all variants of the writer. -/
def RevVariants.Complete : RevVariants → Prop
  | .nil => True
  | .keep _ _ _ _ vs => vs.Complete
  | .add _ _ _ _ => False
  | .drop _ _ _ vs => vs.Complete

/-- Tags of all variants, known to either. -/
def RevVariants.tags : RevVariants → List U32
  | .nil => []
  | .keep tag _ _ _ vs => tag :: vs.tags
  | .add tag _ _ vs => tag :: vs.tags
  | .drop tag _ _ vs => tag :: vs.tags

mutual
/-- What the client shows in place of something it cannot find in the data is the default of the type: fields only the client knows
are `Bare`, and so is the default variant of an enum if there are variants only the writer knows. The tags of these mean nothing to
the client. -/
def Rev.Bare : Rev → Prop
  | .vec r => r.Bare
  | .array _ r => r.Bare
  | .option r => r.Bare
  | .box r => r.Bare
  | .list r => r.Bare
  | .map _ _ r => r.Bare
  | .vecList r => r.Bare
  | .listVec r => r.Bare
  | .optionVec r => r.Bare
  | .boxed r => r.Bare
  | .unboxed r => r.Bare
  | .struct _ _ _ _ fs => fs.Bare
  | .enum _ _ _ _ fs vs => fs.Bare ∧ vs.Bare ∧ (vs.Complete ∨ BareFields fs.rd ∧ vs.tags.Nodup)
  | _ => True

/-- Field-wise. -/
def RevFields.Bare : RevFields → Prop
  | .nil => True
  | .keep _ _ _ r fs => r.Bare ∧ fs.Bare
  | .add _ _ _ fs => fs.Bare
  | .drop _ _ t fs => Spec.Bare t ∧ fs.Bare
  | .retype _ _ _ _ t fs => Spec.Bare t ∧ fs.Bare

/-- Variant-wise. -/
def RevVariants.Bare : RevVariants → Prop
  | .nil => True
  | .keep _ _ _ fs vs => fs.Bare ∧ vs.Bare
  | .add _ _ _ vs => vs.Bare
  | .drop _ _ _ vs => vs.Bare
end

mutual
/-- Values of the writer that the client can read: as `Legible`, but nothing is asked of fields and variants the client does not
know. -/
def LegibleRev : (r : Rev) → r.wr.El → Prop
  | .same t, v => Legible t v
  | .uint _ _, _ => True
  | .sint w _, v => w = .w64 → -(2 ^ 62 : Int) ≤ v.toInt ∧ v.toInt < 2 ^ 62
  | .flag _, _ => True
  | .hide _, _ => True
  | .vec r, v => ∀ x ∈ v, LegibleRev r x
  | .array _ r, v => ∀ x ∈ v.1, LegibleRev r x
  | .tuple _, _ => False
  | .option r, v => ∀ x ∈ v, LegibleRev r x
  | .box r, v => LegibleRev r v
  | .hashMap _ _, _ => False
  | .list r, v => ∀ x ∈ v.items, LegibleRev r x
  | .map _ _ r, v => (∀ e ∈ v.entries, e.1.toNat < 2 ^ 29 ∧ LegibleRev r e.2) ∧ (v.entries.map (·.1)).Nodup
  | .vecList r, v => ∀ x ∈ v, LegibleRev r x
  | .listVec r, v => ∀ x ∈ v.items, LegibleRev r x
  | .optionVec r, v => ∀ x ∈ v, LegibleRev r x
  | .boxed r, v => LegibleRev r v
  | .unboxed r, v => LegibleRev r v
  | .struct _ _ _ _ fs, v => LegibleRevFields fs v.fields
  | .enum _ _ _ _ fs vs, v =>
    match v.val with
    | .inl x => LegibleRevFields fs x
    | .inr x => LegibleRevVariant vs x

/-- Field-wise. -/
def LegibleRevFields : (fs : RevFields) → fs.wr.El → Prop
  | .nil, _ => True
  | .keep _ _ _ r fs, v => LegibleRev r v.1 ∧ LegibleRevFields fs v.2
  | .add _ _ _ fs, v => LegibleRevFields fs v.2
  | .drop _ _ _ fs, v => LegibleRevFields fs v
  | .retype _ _ _ _ _ fs, v => LegibleRevFields fs v.2

/-- In the current variant. -/
def LegibleRevVariant : (vs : RevVariants) → vs.wr.El → Prop
  | .nil, v => nomatch v
  | .keep _ _ _ fs vs, v =>
    match v with
    | .inl x => LegibleRevFields fs x
    | .inr x => LegibleRevVariant vs x
  | .add _ _ _ vs, v =>
    match v with
    | .inl _ => True
    | .inr x => LegibleRevVariant vs x
  | .drop _ _ _ vs, v => LegibleRevVariant vs v
end

mutual
/-- What entries of the log are addressed to has kept its kind: no field that entries can reach changed its wire type, no `List` that
entries can reach became a `Vec`. Entries reach below lists, maps, and fields of structs and enums that derive `State`. -/
def Rev.Steady : Rev → Prop
  | .box r => r.Steady
  | .list r => r.Steady
  | .map _ _ r => r.Steady
  | .listVec _ => False
  | .hide _ => False
  | .boxed r => r.Steady
  | .unboxed r => r.Steady
  | .struct true _ _ _ fs => fs.Steady
  | .enum true _ _ _ fs vs => fs.Steady ∧ vs.Steady
  | _ => True

/-- Field-wise. -/
def RevFields.Steady : RevFields → Prop
  | .nil => True
  | .keep _ attrs _ r fs => (attrs.noState = false → r.Steady) ∧ fs.Steady
  | .add _ _ _ fs => fs.Steady
  | .drop _ _ _ fs => fs.Steady
  | .retype _ attrs _ _ _ fs => attrs.noState = true ∧ fs.Steady

/-- Variant-wise. -/
def RevVariants.Steady : RevVariants → Prop
  | .nil => True
  | .keep _ _ _ fs vs => fs.Steady ∧ vs.Steady
  | .add _ _ _ vs => vs.Steady
  | .drop _ _ _ vs => vs.Steady
end

/-- A Rust source and a C# client with another revision of the type, in rounds: see `csRounds`. -/
def csRevRounds (r : Rev) (ρ : Bytes → Str) (m : Mode) (μ : Nat → Prog.Mem) (id : Nat) :
    List (List r.wr.Op) → r.wr.El → r.rd.Cs → World → Option (r.wr.El × r.rd.Cs × World)
  | [], v, c, w => some (v, c, w)
  | ops :: rest, v, c, w =>
    match calls r.wr m ops v w with
    | (.error _, _) => none
    | (.ok v', w') =>
      match (BufferLogger.mk (w'.loggers id).entries).bytes m μ with
      | .error _ => none
      | .ok bytes =>
        match r.rd.csReplay ρ c bytes with
        | .error _ => none
        | .ok c' => csRevRounds r ρ m μ id rest v' c' (drained id w')

end Steit.Spec
