import Verif.Model.DeriveCode

/-!
# Names for which derived code compiles

Said of declarations, without the templates.
-/

namespace Steit.Derive.Spec

/-- An identifier as it can be written: no blanks, and no keyword unless it is raw. -/
structure Legal (x : Ident) : Prop where
  noBlank : ' ' ∉ x.text.toList
  plain : x.raw = false → x.text ∉ keywords

/-- A struct or variant as it can be written, the added fields included. -/
structure LegalItem (it : Item) : Prop where
  fields : it.tuple = false → ∀ e ∈ it.fields, Legal e.1
  cache : ∀ n ∈ it.cache, Legal ⟨false, n⟩
  runtime : Legal ⟨false, it.runtime⟩

/-- Fields with names have different ones, and others than the fields that are added. -/
def Distinct (it : Item) : Prop :=
  it.tuple = true ∨ (it.fields.map (·.1.text) ++ it.cache.toList ++ if it.state then [it.runtime] else []).Nodup

/-- What a field is called in an arm and in the name of its setter: a field without a name by its position. -/
def spoken (it : Item) (x : Ident) (i : Nat) : String := if it.tuple then "f" ++ toString i else x.text

/-- Does the field take part in the state? -/
def inState (it : Item) (p : PField) : Prop := it.state = true ∧ p.attrs.noState = false

instance (it : Item) (p : PField) : Decidable (inState it p) := inferInstanceAs (Decidable (_ ∧ _))

/-- The names of setters. -/
def setters (it : Item) (pre : String) : List String :=
  it.fields.zipIdx.flatMap fun e =>
    (pre ++ "_" ++ spoken it e.1.1 e.2) :: if inState it e.1.2 then [pre ++ "_" ++ spoken it e.1.1 e.2 ++ "_with"] else []

/-- The names of the methods of an enum: constructors, of the default and of each variant, and setters. -/
def methods (cm : Gen.CaseMap) (pre : String) (withSetters : Bool) (vars : List Var) : List String :=
  [pre] ++ (vars.map fun v => pre ++ "_" ++ snake cm v.name) ++
    if withSetters then vars.flatMap fun v => setters v.item ("set_" ++ snake cm v.name) else []

/-- The names of fields of a variant that do not get in the way of serializing, merging and replaying: none is a keyword (written raw) or is
also a variable of the templates. -/
def Free (it : Item) : Prop :=
  it.tuple = true ∨ ∀ e ∈ it.fields,
    e.1.text ∉ keywords ∧
    e.1.text ∉ ["size", "writer", "reader", "field_number", "wire_type"] ∧
    (it.state = true → e.1.text ∉ ["runtime", "self_runtime", "path", "kind"]) ∧
    (inState it e.2 → e.1.text ≠ "tag") ∧
    ((∃ e' ∈ it.fields, inState it e'.2) → e.1.text ≠ "key")

/-- The same for hashing. -/
def FreeForHash (it : Item) : Prop := it.tuple = true ∨ ∀ e ∈ it.fields, e.1.text ∉ keywords ∧ e.1.text ≠ "state"

/-- The same for comparing. -/
def FreeForEq (it : Item) : Prop := it.tuple = true ∨ ∀ e ∈ it.fields, e.1.text ∉ keywords ∧ e.1.text ≠ "other"

/-- No field that is compared is called `other_` and the name of a field of the variant. -/
def NoOther (it : Item) : Prop :=
  it.tuple = true ∨ ∀ e ∈ it.fields, e.2.attrs.noEqHash = false → ∀ e' ∈ it.fields, e.1.text ≠ "other_" ++ e'.1.text

/-- The variants of an enum in the order of its values: the default one, and the others as they are declared. -/
def Listed (vars : List Var) (dv : Var) (W : Variants) : Prop :=
  W = .cons 0#32 dv.item.cache.isSome dv.item.fs (variantsOf ((vars.filter fun v => v.tag != 0#32).map fun v => ⟨v.tag, ⟨v.item.cache.isSome, v.item.parsed⟩⟩))

end Steit.Derive.Spec
