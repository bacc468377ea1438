import Verif.Lemmas.AnyDerive
import Verif.Spec.Address

/-! # Reading arbitrary bytes: all types -/

namespace Steit
open Spec

/-- `AtVariant` without the stored runtime. -/
def VarAt : (vs : Variants) → (ds : Bool) → Rt → vs.El → Prop
  | .nil, _, _, v => nomatch v
  | .cons tag _ fs vs, ds, rt, v => sumAt tag (AtFields fs ds) (VarAt vs ds) rt v

theorem atVariant_iff : (vs : Variants) → (ds : Bool) → (rt own : Rt) → (v : vs.El) →
    (AtVariant vs ds rt own v ↔ (ds = true → own = rt.nested ((vs.dict ds).tagOf v)) ∧ VarAt vs ds rt v)
  | .nil, _, _, _, v => nomatch v
  | .cons _ _ _ _, _, _, _, .inl _ => Iff.rfl
  | .cons _ _ _ vs, ds, rt, own, .inr x => atVariant_iff vs ds rt own x

theorem VariantsAny.congr {γ : Type} {vs : VariantsD γ} {ds : Bool} {At At' : Rt → γ → Prop} (h : VariantsAny vs ds At)
    (he : At = At') : VariantsAny vs ds At' := he ▸ h

mutual
theorem anyLaw : (t : Ty) → t.WF → AnyLaw t.dict t.isState (At t)
  | .uint w, _ => (anyLaw_prim (fun m => readsVarint_uint m w.le_bits) true)
  | .sint w, _ => (anyLaw_prim (fun m => readsVarint_sint m w.le_bits) true)
  | .bool, _ => (anyLaw_prim (fun m => readsVarint_bool m) true)
  | .string, _ => anyLaw_string
  | .bytes, _ => anyLaw_bytes
  | .vec t, h => anyLaw_vec (anyLaw t h)
  | .array n t, h => anyLaw_array n (anyLaw t h.2.2)
  | .tuple ts, h => anyLaw_tuple (tupleAny ts h.2.2)
  | .option t, h => anyLaw_option (anyLaw t h)
  | .box t, h => anyLaw_box (anyLaw t h)
  | .hashMap k v, h => anyLaw_hashMap k.eq (anyLaw k h.1) (anyLaw v h.2)
  | .list t, h => anyLaw_list (anyLaw t h.2) h.1
  | .map k t, h => anyLaw_map k (anyLaw t h.2) h.1
  | .struct ds cached fs, h => anyLaw_struct cached (fieldsAny fs ds h.2)
  | .enum ds cached fs vs, h => by
    refine (anyLaw_enum (dfltVal := fun rt => Sum.inl ((fs.dict ds).init rt))
      (variantsAny_cons 0#32 cached (fieldsAny fs ds h.2.1) (variantsAny vs ds h.2.2.2.2))
      (fun rt => by simp [variantsCons])).congr rfl ?_
    funext rt v
    rcases v with ⟨own, x | x⟩
    · rfl
    · exact propext (atVariant_iff vs ds rt own x).symm

theorem tupleAny : (ts : Tys) → ts.WF → TupleAny ts.dict (AtTuple ts)
  | .nil, _ => tupleAny_nil
  | .cons t ts, h => tupleAny_cons (anyLaw t h.1) (tupleAny ts h.2)

theorem fieldsAny : (fs : Fields) → (ds : Bool) → fs.WF ds → FieldsAny (fs.dict ds) ds (AtFields fs ds)
  | .nil, ds, _ => fieldsAny_nil ds
  | .cons tag attrs t fs, ds, h => fieldsAny_cons tag attrs (anyLaw t h.2.2.1) (fieldsAny fs ds h.2.2.2) h.2.1

theorem variantsAny : (vs : Variants) → (ds : Bool) → vs.WF ds → VariantsAny (vs.dict ds) ds (VarAt vs ds)
  | .nil, ds, _ => (variantsAny_nil ds).congr (by funext _ v; exact nomatch v)
  | .cons tag cached fs vs, ds, h =>
    variantsAny_cons tag cached (fieldsAny fs ds h.2.2.1) (variantsAny vs ds h.2.2.2)
end

end Steit
