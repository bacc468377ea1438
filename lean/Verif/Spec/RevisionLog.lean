import Verif.Spec.Revision
import Verif.Spec.Log
import Verif.Spec.History

/-!
# Specification: logs between programs with different revisions of a type

Which addresses of the writer mean something to the reader, and which revisions can always be read.
-/

namespace Steit.Spec

mutual
/-- The object at this address (in the writer's type) is a state object of the reader as well. -/
def Rev.knows : Rev → List U32 → Bool
  | .same _, _ => true
  | .box r, p => r.knows p
  | .boxed r, p => r.knows p
  | .unboxed r, p => r.knows p
  | _, [] => true
  | .list r, _ :: p => r.knows p
  | .map _ _ r, _ :: p => r.knows p
  | .struct _ _ _ _ fs, tag :: p => fs.knows tag p
  | .enum _ _ _ _ fs vs, tag :: p =>
    if tag = 0#32 then
      match p with
      | [] => false
      | k :: p => fs.knows k p
    else vs.knows tag p
  | _, _ :: _ => false

/-- Below a field. -/
def RevFields.knows : RevFields → U32 → List U32 → Bool
  | .nil, _, _ => false
  | .keep tag _ attrs' r fs, k, p => if k = tag then !attrs'.noState && r.knows p else fs.knows k p
  | .add tag _ _ fs, k, p => decide (k ≠ tag) && fs.knows k p
  | .drop _ _ _ fs, k, p => fs.knows k p
  | .retype tag _ _ _ _ fs, k, p => decide (k ≠ tag) && fs.knows k p

/-- Below a variant. -/
def RevVariants.knows : RevVariants → U32 → List U32 → Bool
  | .nil, _, _ => false
  | .keep tag _ _ fs vs, k, p =>
    if k = tag then
      match p with
      | [] => false
      | k :: p => fs.knows k p
    else vs.knows k p
  | .add tag _ _ vs, k, p => decide (k ≠ tag) && vs.knows k p
  | .drop _ _ _ vs, k, p => vs.knows k p
end

mutual
/-- All values of the writer that the wire can carry are readable in build mode `m`: the reader knows all variants of the writer and,
in debug builds, the fields it does not know are payloads. -/
def Rev.Total (m : Mode) : Rev → Prop
  | .vec r => r.Total m
  | .array _ r => r.Total m
  | .tuple rs => rs.Total m
  | .option r => r.Total m
  | .box r => r.Total m
  | .hashMap _ r => r.Total m
  | .list r => r.Total m
  | .map _ _ r => r.Total m
  | .vecList r => r.Total m
  | .listVec r => r.Total m
  | .optionVec r => r.Total m
  | .boxed r => r.Total m
  | .unboxed r => r.Total m
  | .struct _ _ _ _ fs => fs.Total m
  | .enum _ _ _ _ fs vs => fs.Total m ∧ vs.Total m
  | _ => True

/-- Component-wise. -/
def RevTuple.Total (m : Mode) : RevTuple → Prop
  | .nil => True
  | .cons r rs => r.Total m ∧ rs.Total m

/-- Field-wise. -/
def RevFields.Total (m : Mode) : RevFields → Prop
  | .nil => True
  | .keep _ _ _ r fs => r.Total m ∧ fs.Total m
  | .add _ _ t fs => (m = .release ∨ wireOf t ≠ 0) ∧ fs.Total m
  | .drop _ _ _ fs => fs.Total m
  | .retype _ _ _ t _ fs => (m = .release ∨ wireOf t ≠ 0) ∧ fs.Total m

/-- Variant-wise. -/
def RevVariants.Total (m : Mode) : RevVariants → Prop
  | .nil => True
  | .keep _ _ _ fs vs => fs.Total m ∧ vs.Total m
  | .add _ _ _ _ => False
  | .drop _ _ _ vs => vs.Total m
end

mutual
/-- No value of the type has an object at this address: on the way there is a field or a variant that the type does not have, or
something below a primitive. -/
def Lost : Ty → List U32 → Bool
  | .box t, p => Lost t p
  | _, [] => false
  | .list t, _ :: p => Lost t p
  | .map _ t, _ :: p => Lost t p
  | .struct true _ fs, tag :: p => LostField fs tag p
  | .enum true _ fs vs, tag :: p =>
    if tag = 0#32 then
      match p with
      | [] => true
      | k :: p => LostField fs k p
    else LostVariant vs tag p
  | .uint _, _ :: _ => true
  | .sint _, _ :: _ => true
  | .bool, _ :: _ => true
  | _, _ :: _ => false

/-- Below a field. What is below a field marked `no_state` is ignored, not refused. -/
def LostField : Fields → U32 → List U32 → Bool
  | .nil, _, _ => true
  | .cons tag attrs t fs, k, p => if k = tag then !attrs.noState && Lost t p else LostField fs k p

/-- Below a variant. -/
def LostVariant : Variants → U32 → List U32 → Bool
  | .nil, _, _ => true
  | .cons tag _ fs vs, k, p =>
    if k = tag then
      match p with
      | [] => true
      | k :: p => LostField fs k p
    else LostVariant vs k p
end

/-- A source and a replica with another revision of the type, in rounds: see `rounds`. -/
def revRounds (r : Rev) (m m' : Mode) (μ : Nat → Prog.Mem) (id : Nat) :
    List (List r.wr.Op) → r.wr.El → r.rd.El → World → Option (r.wr.El × r.rd.El × World)
  | [], v, x, w => some (v, x, w)
  | ops :: rest, v, x, w =>
    match calls r.wr m ops v w with
    | (.error _, _) => none
    | (.ok v', w') =>
      match (BufferLogger.mk (w'.loggers id).entries).bytes m μ with
      | .error _ => none
      | .ok bytes =>
        match replay r.rd.dict m' x bytes with
        | .err _ _ => none
        | .ok x' _ => revRounds r m m' μ id rest v' x' (drained id w')

/-- Admissible rounds: as `RoundsSync`, and every log entry is addressed to something the replica knows. -/
def RevRoundsSync (r : Rev) (m : Mode) (id : Nat) : List (List r.wr.Op) → r.wr.El → World → Prop
  | [], _, _ => True
  | ops :: rest, v, w => CallsSync r.wr m ops v w ∧
    ∀ v' w', calls r.wr m ops v w = (.ok v', w') →
      (∀ e ∈ (w'.loggers id).entries, Fits e ∧ r.knows (address e) = true) ∧ RevRoundsSync r m id rest v' (drained id w')

end Steit.Spec
