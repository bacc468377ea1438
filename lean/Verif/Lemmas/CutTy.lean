import Verif.Lemmas.CutDerive

/-! # What is read from an encoding cut short: all types -/

namespace Steit
open Spec

theorem CutLaw.congr {α : Type} {d : Dict α} {wire wire' : Nat} {enc enc' : α → Bytes} {lo lo' : α → Bool}
    {strip strip' : α → α} {carried carried' : α → Prop} {blank blank' : α → Prop} {rem rem' : α → α → Prop}
    (c : CutLaw d wire enc lo strip carried blank rem) (h1 : wire = wire') (h2 : enc = enc') (h3 : lo = lo')
    (h4 : strip = strip') (h5 : carried = carried') (h6 : blank = blank') (h7 : rem = rem') :
    CutLaw d wire' enc' lo' strip' carried' blank' rem' := by
  subst h1 h2 h3 h4 h5 h6 h7; exact c

mutual
theorem cutLaw : (t : Ty) → t.WF →
    CutLaw t.dict (wireOf t) (encode t) (fun v => leftOut t v (encode t v)) (strip t) (Carried t) (Blank t) (Remains t)
  | .uint w, _ => (cutLaw_uint w).congr rfl rfl (by funext v; simp [leftOut]; rfl) rfl rfl rfl rfl
  | .sint w, _ => (cutLaw_sint w).congr rfl rfl (by funext v; simp [leftOut]; rfl) rfl rfl rfl rfl
  | .bool, _ => cutLaw_bool.congr rfl rfl (by funext v; cases v <;> rfl) rfl rfl rfl rfl
  | .string, _ => cutLaw_string
  | .bytes, _ => cutLaw_bytes
  | .vec t, h => cutLaw_vec (decLaw t h) (cutLaw t h)
  | .array n t, h => cutLaw_array n (decLaw t h.2.2) (cutLaw t h.2.2) (strip (.array n t)) (fun _ => rfl)
  | .tuple ts, h => cutLaw_tuple (tupleDec ts h.2.2) (tupleCut ts h.2.2)
  | .option t, h => cutLaw_option (decLaw t h) (cutLaw t h)
  | .box t, h => cutLaw_box (decLaw t h) (cutLaw t h)
  | .hashMap k v, h => cutLaw_hashMap (decLaw k h.1) (cutLaw k h.1) (decLaw v h.2) (cutLaw v h.2) (eq_strip k)
  | .list t, h => cutLaw_list (decLaw t h.2) (cutLaw t h.2)
  | .map k t, h => cutLaw_map k (decLaw t h.2) (cutLaw t h.2)
  | .struct ds cached fs, h => cutLaw_struct ds cached (fieldsDec fs ds h.1 h.2) (fieldsCut fs ds h.1 h.2)
  | .enum ds cached fs vs, h => by
    have hf := fieldsDec fs ds h.1 h.2.1
    have cf := fieldsCut fs ds h.1 h.2.1
    have hv := variantsDec vs ds h.2.2.1 h.2.2.2.2
    have h0 := cutLaw_enum ds (fun rt => Sum.inl ((fs.dict ds).init rt))
      (variantsDec_cons 0#32 cached h.2.2.2.1 hf hv)
      (variantsCut_cons 0#32 cached h.2.2.2.1 cf hv (variantsCut vs ds h.2.2.1 h.2.2.2.2))
      (blank := Sum.elim (BlankFields fs) (fun _ => False))
      ((decLaw (.enum ds cached fs vs) h).congr rfl
        (by funext v; rcases v with ⟨rt, x | x⟩ <;> rfl) (by funext v; rcases v with ⟨rt, x | x⟩ <;> rfl)
        (by funext v; rcases v with ⟨rt, x | x⟩ <;> rfl) (by funext v; rcases v with ⟨rt, x | x⟩ <;> rfl)
        (by funext _ v; rcases v with ⟨rt, x | x⟩ <;> rfl))
      (fun rt => by simp [variantsCons])
      (by
        rintro (w | w) rt
        · simp only [Sum.elim_inl, Sum.map_inl, Sum.inl.injEq]; exact cf.blank_iff w rt
        · simp)
    refine CutLaw.congr (wire' := 2) (enc' := encode (.enum ds cached fs vs))
      (lo' := fun v => (encode (.enum ds cached fs vs) v).isEmpty) (strip' := strip (.enum ds cached fs vs))
      (carried' := Carried (.enum ds cached fs vs)) (blank' := Blank (.enum ds cached fs vs))
      (rem' := Remains (.enum ds cached fs vs)) h0 rfl ?_ ?_ ?_ ?_ ?_ ?_
    · funext v; rcases v with ⟨rt, x | x⟩ <;> rfl
    · funext v; rcases v with ⟨rt, x | x⟩ <;> rfl
    · funext v; rcases v with ⟨rt, x | x⟩ <;> rfl
    · funext v; rcases v with ⟨rt, x | x⟩ <;> rfl
    · funext v; rcases v with ⟨rt, x | x⟩ <;> rfl
    · funext w v; rcases w with ⟨rt, x | x⟩ <;> rcases v with ⟨rt', y | y⟩ <;> rfl

theorem tupleCut : (ts : Tys) → ts.WF →
    TupleCut ts.dict (encodeTuple ts) (stripTuple ts) (CarriedTuple ts) (BlankTuple ts) (RemainsTuple ts)
  | .nil, _ => tupleCut_nil
  | .cons t .nil, h => tupleCut_last (decLaw t h.1) (cutLaw t h.1) (fun _ => rfl) (fun _ => rfl) (tupleCut .nil h.2).blank_iff
      (fun _ _ => rfl)
  | .cons t (.cons t' ts), h => tupleCut_cons (decLaw t h.1) (cutLaw t h.1) (tupleDec (.cons t' ts) h.2)
      (tupleCut (.cons t' ts) h.2) (tuple_starve (decLaw t' h.2.1) (cutLaw t' h.2.1))

theorem fieldsCut : (fs : Fields) → (ds : Bool) → fs.tags.Nodup → fs.WF ds →
    FieldsCut (fs.dict ds) (encodeFields fs) (stripFields fs) (CarriedFields fs) (BlankFields fs) (RemainsFields fs)
  | .nil, _, _, _ => fieldsCut_nil
  | .cons tag attrs t fs, ds, hn, h =>
    fieldsCut_cons ds tag attrs (tag_lt h.1) (List.nodup_cons.1 hn).1 (decLaw t h.2.2.1) (cutLaw t h.2.2.1)
      (fieldsDec fs ds (List.nodup_cons.1 hn).2 h.2.2.2) (fieldsCut fs ds (List.nodup_cons.1 hn).2 h.2.2.2)

theorem variantsCut : (vs : Variants) → (ds : Bool) → vs.tags.Nodup → vs.WF ds →
    VariantsCut (vs.dict ds) (encodeVariant vs) (stripVariant vs) (CarriedVariant vs) (RemainsVariant vs)
  | .nil, _, _, _ => ⟨fun v => (nomatch v), fun v => (nomatch v)⟩
  | .cons tag cached fs vs, ds, hn, h => by
    have := variantsCut_cons tag cached (List.nodup_cons.1 hn).1 (fieldsCut fs ds h.2.1 h.2.2.1)
      (variantsDec vs ds (List.nodup_cons.1 hn).2 h.2.2.2) (variantsCut vs ds (List.nodup_cons.1 hn).2 h.2.2.2)
    have e1 : encodeVariant (.cons tag cached fs vs) =
        Sum.elim (fun x => leb tag.toNat ++ encodeFields fs x) (encodeVariant vs) := by
      funext v; cases v <;> rfl
    have e2 : CarriedVariant (.cons tag cached fs vs) = Sum.elim (CarriedFields fs) (CarriedVariant vs) := by
      funext v; cases v <;> rfl
    have e3 : stripVariant (.cons tag cached fs vs) = Sum.map (stripFields fs) (stripVariant vs) := by
      funext v; cases v <;> rfl
    have e4 : RemainsVariant (.cons tag cached fs vs) = SumRem (RemainsFields fs) (RemainsVariant vs) := by
      funext w v; cases w <;> cases v <;> rfl
    rw [e1, e2, e3, e4]
    exact this
end

end Steit
