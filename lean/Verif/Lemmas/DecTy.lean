import Verif.Lemmas.DecImpls

/-! # Decoding laws of all types -/

namespace Steit
open Spec

theorem itemsEq_map {α : Type} {eq : α → α → Bool} {s : α → α} (h : ∀ a b, eq (s a) (s b) = eq a b) :
    ∀ xs ys : List α, itemsEq eq (xs.map s) (ys.map s) = itemsEq eq xs ys
  | [], [] => rfl
  | [], _ :: _ => rfl
  | _ :: _, [] => rfl
  | x :: xs, y :: ys => by
    show (eq (s x) (s y) && itemsEq eq (xs.map s) (ys.map s)) = _
    rw [h, itemsEq_map h xs ys]; rfl

theorem optionEq_map {α : Type} {eq : α → α → Bool} {s : α → α} (h : ∀ a b, eq (s a) (s b) = eq a b) :
    ∀ xs ys : Option α, optionEq eq (xs.map s) (ys.map s) = optionEq eq xs ys
  | none, none => rfl
  | none, some _ => rfl
  | some _, none => rfl
  | some x, some y => h x y

theorem entriesEq_map {κ ν : Type} {eqk : κ → κ → Bool} {eqv : ν → ν → Bool} {sk : κ → κ} {sv : ν → ν}
    (hk : ∀ a b, eqk (sk a) (sk b) = eqk a b) (hv : ∀ a b, eqv (sv a) (sv b) = eqv a b) (xs ys : List (κ × ν)) :
    entriesEq eqk eqv (xs.map (fun e => (sk e.1, sv e.2))) (ys.map (fun e => (sk e.1, sv e.2))) =
      entriesEq eqk eqv xs ys := by
  unfold entriesEq
  rw [List.length_map, List.length_map, List.all_map]
  congr 1
  congr 1
  funext e
  simp only [Function.comp_apply, List.find?_map]
  have : (List.find? ((fun e' => eqk e'.1 (sk e.1)) ∘ fun e => (sk e.1, sv e.2)) ys)
      = ys.find? (fun e' => eqk e'.1 e.1) := by
    congr 1
    funext e'
    exact hk _ _
  rw [this]
  cases ys.find? (fun e' => eqk e'.1 e.1) with
  | none => rfl
  | some e' => exact hv _ _

mutual
/-- Comparison ignores runtimes. -/
theorem eq_strip : (t : Ty) → ∀ a b, t.eq (strip t a) (strip t b) = t.eq a b
  | .uint _, _, _ => rfl
  | .sint _, _, _ => rfl
  | .bool, _, _ => rfl
  | .string, _, _ => rfl
  | .bytes, _, _ => rfl
  | .vec t, a, b => itemsEq_map (eq_strip t) a b
  | .array _ t, a, b => itemsEq_map (eq_strip t) a.1 b.1
  | .tuple ts, a, b => eq_stripTuple ts a b
  | .option t, a, b => optionEq_map (eq_strip t) a b
  | .box t, a, b => eq_strip t a b
  | .hashMap k v, a, b => entriesEq_map (eq_strip k) (eq_strip v) a b
  | .list t, a, b => itemsEq_map (eq_strip t) a.items b.items
  | .map _ t, a, b => entriesEq_map (sk := id) (fun _ _ => rfl) (eq_strip t) a.entries b.entries
  | .struct _ _ fs, a, b => eq_stripFields fs a.fields b.fields
  | .enum _ _ fs vs, ⟨_, .inl a⟩, ⟨_, .inl b⟩ => eq_stripFields fs a b
  | .enum _ _ fs vs, ⟨_, .inl a⟩, ⟨_, .inr b⟩ => rfl
  | .enum _ _ fs vs, ⟨_, .inr a⟩, ⟨_, .inl b⟩ => rfl
  | .enum _ _ fs vs, ⟨_, .inr a⟩, ⟨_, .inr b⟩ => eq_stripVariant vs a b

theorem eq_stripTuple : (ts : Tys) → ∀ a b, ts.eq (stripTuple ts a) (stripTuple ts b) = ts.eq a b
  | .nil, _, _ => rfl
  | .cons t ts, a, b => by
    show (t.eq (strip t a.1) (strip t b.1) && ts.eq (stripTuple ts a.2) (stripTuple ts b.2)) = _
    rw [eq_strip t, eq_stripTuple ts]; rfl

theorem eq_stripFields : (fs : Fields) → ∀ a b, fs.eq (stripFields fs a) (stripFields fs b) = fs.eq a b
  | .nil, _, _ => rfl
  | .cons tag attrs t fs, a, b => by
    show ((attrs.noEqHash || t.eq (strip t a.1) (strip t b.1)) && fs.eq (stripFields fs a.2) (stripFields fs b.2)) = _
    rw [eq_strip t, eq_stripFields fs]; rfl

theorem eq_stripVariant : (vs : Variants) → ∀ a b, vs.eq (stripVariant vs a) (stripVariant vs b) = vs.eq a b
  | .nil, a, _ => nomatch a
  | .cons _ _ fs vs, .inl a, .inl b => eq_stripFields fs a b
  | .cons _ _ fs vs, .inl a, .inr b => rfl
  | .cons _ _ fs vs, .inr a, .inl b => rfl
  | .cons _ _ fs vs, .inr a, .inr b => eq_stripVariant vs a b
end

theorem ReadLaw.congr {σ α : Type} {d : Dict α} {wire wire' : Nat} {enc enc' : σ → Bytes} {lo lo' : σ → Bool}
    {strip strip' : α → α} {see see' : σ → α} {carried carried' : Mode → σ → Prop}
    (h : ReadLaw d wire enc lo strip see carried) (h1 : wire = wire') (h2 : enc = enc') (h3 : lo = lo')
    (h4 : strip = strip') (h5 : see = see') (h6 : carried = carried') : ReadLaw d wire' enc' lo' strip' see' carried' := by
  subst h1 h2 h3 h4 h5 h6; exact h

/-- The same law for values presented differently. -/
theorem ReadLaw.comap {σ τ α : Type} {d : Dict α} {wire : Nat} {enc : σ → Bytes} {lo : σ → Bool} {strip : α → α} {see : σ → α}
    {carried : Mode → σ → Prop} (h : ReadLaw d wire enc lo strip see carried) (f : τ → σ) :
    ReadLaw d wire (fun v => enc (f v)) (fun v => lo (f v)) strip (fun v => see (f v)) (fun m v => carried m (f v)) where
  wire_eq := h.wire_eq
  dflt_eq := h.dflt_eq
  init_strip := h.init_strip
  enc_ne := fun h0 v => h.enc_ne h0 (f v)
  lo_dflt := fun v => h.lo_dflt (f v)
  empty_dflt := fun v => h.empty_dflt (f v)
  roundWide := fun m rt v => h.roundWide m rt (f v)

mutual
theorem decLaw : (t : Ty) → t.WF →
    DecLaw t.dict (wireOf t) (encode t) (fun v => leftOut t v (encode t v)) (strip t) (Carried t)
  | .uint w, _ => (decLaw_uint w).congr rfl rfl (by funext v; simp [leftOut]; rfl) rfl rfl rfl
  | .sint w, _ => (decLaw_sint w).congr rfl rfl (by funext v; simp [leftOut]; rfl) rfl rfl rfl
  | .bool, _ => decLaw_bool.congr rfl rfl (by funext v; cases v <;> rfl) rfl rfl rfl
  | .string, _ => decLaw_string
  | .bytes, _ => decLaw_bytes
  | .vec t, h => readLaw_vec (decLaw t h)
  | .array n t, h => readLaw_array n (decLaw t h.2.2) (strip (.array n t)) (strip (.array n t)) (fun _ => rfl)
      (fun _ => rfl)
  | .tuple ts, h => readLaw_tuple (tupleDec ts h.2.2)
  | .option t, h => readLaw_option (decLaw t h)
  | .box t, h => readLaw_box (decLaw t h)
  | .hashMap k v, h => readLaw_hashMap (decLaw k h.1) (decLaw v h.2) (eq_strip k)
  | .list t, h => readLaw_list (decLaw t h.2)
  | .map k t, h => readLaw_map k (decLaw t h.2)
  | .struct ds cached fs, h => readLaw_struct ds cached (fieldsDec fs ds h.1 h.2)
  | .enum ds cached fs vs, h => by
    have hf := fieldsDec fs ds h.1 h.2.1
    have h0 := readLaw_enum ds (fun rt => Sum.inl ((fs.dict ds).init rt))
      (variantsDec_cons 0#32 cached h.2.2.2.1 hf (variantsDec vs ds h.2.2.1 h.2.2.2.2))
      (see' := Sum.map (stripFields fs) (stripVariant vs)) (fun _ v _ => by cases v <;> rfl)
      (fun rt => by simp [variantsCons])
      (fun rt rt' => by simp only [Sum.map_inl, hf.init_strip rt rt'])
      (by
        rintro (v | v) he
        · simp only [Sum.elim_inl, List.append_eq_nil_iff] at he
          exact leb_ne_nil _ he.1
        · exact encodeVariant_ne vs v he)
    refine ReadLaw.congr (wire' := 2) (enc' := encode (.enum ds cached fs vs))
      (lo' := fun v => (encode (.enum ds cached fs vs) v).isEmpty) (strip' := strip (.enum ds cached fs vs))
      (see' := strip (.enum ds cached fs vs)) (carried' := fun _ => Carried (.enum ds cached fs vs)) h0 rfl ?_ ?_ ?_ ?_ ?_
    · funext v; rcases v with ⟨rt, x | x⟩ <;> rfl
    · funext v; rcases v with ⟨rt, x | x⟩ <;> rfl
    · funext v; rcases v with ⟨rt, x | x⟩ <;> rfl
    · funext v; rcases v with ⟨rt, x | x⟩ <;> rfl
    · funext _ v; rcases v with ⟨rt, x | x⟩ <;> rfl

theorem tupleDec : (ts : Tys) → ts.WF → 
    TupleDec ts.dict (encodeTuple ts) (stripTuple ts) (stripTuple ts) (fun _ => CarriedTuple ts)
  | .nil, _ => tupleDec_nil
  | .cons t ts, h => tupleDec_cons (decLaw t h.1) (tupleDec ts h.2)

theorem fieldsDec : (fs : Fields) → (ds : Bool) → fs.tags.Nodup → fs.WF ds →
    FieldsDec (fs.dict ds) fs.tags [] (encodeFields fs) (stripFields fs) (stripFields fs) (fun _ => CarriedFields fs)
  | .nil, _, _, _ => fieldsDec_nil
  | .cons tag attrs t fs, ds, hn, h =>
    fieldsDec_cons ds tag attrs (tag_lt h.1) (List.nodup_cons.1 hn).1 (by simp) (decLaw t h.2.2.1)
      (fieldsDec fs ds (List.nodup_cons.1 hn).2 h.2.2.2)

theorem variantsDec : (vs : Variants) → (ds : Bool) → vs.tags.Nodup → vs.WF ds →
    VariantsDec (vs.dict ds) vs.tags (encodeVariant vs) (stripVariant vs) (fun v => some (stripVariant vs v))
      (fun _ => CarriedVariant vs)
  | .nil, _, _, _ => ⟨fun v => (nomatch v), fun _ _ v => (nomatch v), fun _ _ _ => rfl, fun _ v => (nomatch v)⟩
  | .cons tag cached fs vs, ds, hn, h => by
    have := variantsDec_cons tag cached (List.nodup_cons.1 hn).1 (fieldsDec fs ds h.2.1 h.2.2.1)
      (variantsDec vs ds (List.nodup_cons.1 hn).2 h.2.2.2)
    have e1 : encodeVariant (.cons tag cached fs vs) =
        Sum.elim (fun x => leb tag.toNat ++ encodeFields fs x) (encodeVariant vs) := by
      funext v; cases v <;> rfl
    have e2 : (fun _ : Mode => CarriedVariant (.cons tag cached fs vs)) =
        fun _ => Sum.elim (CarriedFields fs) (CarriedVariant vs) := by
      funext _ v; cases v <;> rfl
    have e3 : stripVariant (.cons tag cached fs vs) = Sum.map (stripFields fs) (stripVariant vs) := by
      funext v; cases v <;> rfl
    have e4 : (fun v => some (stripVariant (.cons tag cached fs vs) v)) =
        Sum.elim (fun x => some (Sum.inl (stripFields fs x))) (fun x => (some (stripVariant vs x)).map Sum.inr) := by
      funext v; cases v <;> rfl
    rw [e1, e2, e4, e3]
    exact this

theorem encodeVariant_ne : (vs : Variants) → ∀ v, encodeVariant vs v ≠ []
  | .nil, v => nomatch v
  | .cons tag _ fs vs, .inl v => by
    intro he
    simp only [encodeVariant, List.append_eq_nil_iff] at he
    exact leb_ne_nil _ he.1
  | .cons _ _ fs vs, .inr v => encodeVariant_ne vs v
end

end Steit
