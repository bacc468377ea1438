import Verif.Lemmas.Strip

/-! # Values the wire format carries: writable, equal to themselves -/

namespace Steit
open Spec

mutual
theorem carried_writable : (t : Ty) → ∀ v, Carried t v → Writable t v
  | .uint _, _, _ => trivial
  | .sint _, _, _ => trivial
  | .bool, _, _ => trivial
  | .string, _, _ => trivial
  | .bytes, _, _ => trivial
  | .vec t, _, h => fun x hx => carried_writable t x (h x hx)
  | .array _ t, _, h => fun x hx => carried_writable t x (h x hx)
  | .tuple ts, v, h => carried_writableTuple ts v h
  | .option t, _, h => fun x hx => carried_writable t x (h x hx)
  | .box t, v, h => carried_writable t v h
  | .hashMap k w, _, h => fun e he => ⟨carried_writable k e.1 (h.1 e he).1, carried_writable w e.2 (h.1 e he).2⟩
  | .list t, _, h => fun x hx => carried_writable t x (h x hx)
  | .map _ t, _, h => fun e he => ⟨(h.1 e he).2.1, carried_writable t e.2 (h.1 e he).2.2⟩
  | .struct _ _ fs, v, h => carried_writableFields fs v.fields h
  | .enum _ _ fs _, ⟨_, .inl x⟩, h => carried_writableFields fs x h
  | .enum _ _ _ vs, ⟨_, .inr x⟩, h => carried_writableVariant vs x h

theorem carried_writableTuple : (ts : Tys) → ∀ v, CarriedTuple ts v → WritableTuple ts v
  | .nil, _, _ => trivial
  | .cons t ts, v, h => ⟨carried_writable t v.1 h.1, carried_writableTuple ts v.2 h.2⟩

theorem carried_writableFields : (fs : Fields) → ∀ v, CarriedFields fs v → WritableFields fs v
  | .nil, _, _ => trivial
  | .cons _ _ t fs, v, h => ⟨carried_writable t v.1 h.1, carried_writableFields fs v.2 h.2⟩

theorem carried_writableVariant : (vs : Variants) → ∀ v, CarriedVariant vs v → WritableVariant vs v
  | .nil, v, _ => nomatch v
  | .cons _ _ fs _, .inl x, h => carried_writableFields fs x h
  | .cons _ _ _ vs, .inr x, h => carried_writableVariant vs x h
end

theorem itemsEq_refl {α : Type} {eq : α → α → Bool} (xs : List α) (h : ∀ x ∈ xs, eq x x = true) :
    itemsEq eq xs xs = true := by
  induction xs with
  | nil => rfl
  | cons x xs ih =>
    rw [itemsEq, h x (by simp), ih (fun y hy => h y (by simp [hy]))]; rfl

theorem find_self {κ ν : Type} {eqk : κ → κ → Bool} {es : List (κ × ν)} {e : κ × ν}
    (hd : es.Pairwise (fun e e' => eqk e.1 e'.1 = false)) (he : e ∈ es) (hr : eqk e.1 e.1 = true) :
    es.find? (fun e' => eqk e'.1 e.1) = some e := by
  induction es with
  | nil => cases he
  | cons x xs ih =>
    rw [List.pairwise_cons] at hd
    cases he with
    | head => rw [List.find?_cons, hr]
    | tail _ he => rw [List.find?_cons, hd.1 e he]; exact ih hd.2 he

theorem entriesEq_refl {κ ν : Type} {eqk : κ → κ → Bool} {eqv : ν → ν → Bool} {es : List (κ × ν)}
    (hd : es.Pairwise (fun e e' => eqk e.1 e'.1 = false)) (h : ∀ e ∈ es, eqk e.1 e.1 = true ∧ eqv e.2 e.2 = true) :
    entriesEq eqk eqv es es = true := by
  unfold entriesEq
  simp only [BEq.rfl, Bool.true_and, List.all_eq_true]
  intro e he
  rw [find_self hd he (h e he).1]
  exact (h e he).2

mutual
/-- A value with distinct hash map keys equals itself. -/
theorem eq_refl_carried : (t : Ty) → ∀ v, Carried t v → t.eq v v = true
  | .uint _, _, _ => by simp [Ty.eq]
  | .sint _, _, _ => by simp [Ty.eq]
  | .bool, _, _ => by simp [Ty.eq]
  | .string, _, _ => by simp [Ty.eq]
  | .bytes, _, _ => by simp [Ty.eq]
  | .vec t, v, h => itemsEq_refl v (fun x hx => eq_refl_carried t x (h x hx))
  | .array _ t, v, h => itemsEq_refl v.1 (fun x hx => eq_refl_carried t x (h x hx))
  | .tuple ts, v, h => eq_refl_carriedTuple ts v h
  | .option _, none, _ => rfl
  | .option t, some x, h => eq_refl_carried t x (h x rfl)
  | .box t, v, h => eq_refl_carried t v h
  | .hashMap k w, v, h =>
    entriesEq_refl h.2 (fun e he => ⟨eq_refl_carried k e.1 (h.1 e he).1, eq_refl_carried w e.2 (h.1 e he).2⟩)
  | .list t, v, h => itemsEq_refl v.items (fun x hx => eq_refl_carried t x (h x hx))
  | .map _ t, v, h => by
    refine entriesEq_refl ?_ (fun e he => ⟨by simp, eq_refl_carried t e.2 (h.1 e he).2.2⟩)
    have := List.pairwise_map.1 h.2
    exact this.imp (fun hne => by simpa using hne)
  | .struct _ _ fs, v, h => eq_refl_carriedFields fs v.fields h
  | .enum _ _ fs _, ⟨_, .inl x⟩, h => eq_refl_carriedFields fs x h
  | .enum _ _ _ vs, ⟨_, .inr x⟩, h => eq_refl_carriedVariant vs x h

theorem eq_refl_carriedTuple : (ts : Tys) → ∀ v, CarriedTuple ts v → ts.eq v v = true
  | .nil, _, _ => rfl
  | .cons t ts, v, h => by
    rw [Tys.eq, eq_refl_carried t v.1 h.1, eq_refl_carriedTuple ts v.2 h.2]; rfl

theorem eq_refl_carriedFields : (fs : Fields) → ∀ v, CarriedFields fs v → fs.eq v v = true
  | .nil, _, _ => rfl
  | .cons _ _ t fs, v, h => by
    rw [Fields.eq, eq_refl_carried t v.1 h.1, eq_refl_carriedFields fs v.2 h.2]; simp

theorem eq_refl_carriedVariant : (vs : Variants) → ∀ v, CarriedVariant vs v → vs.eq v v = true
  | .nil, v, _ => nomatch v
  | .cons _ _ fs _, .inl x, h => eq_refl_carriedFields fs x h
  | .cons _ _ _ vs, .inr x, h => eq_refl_carriedVariant vs x h
end

theorem eq_of_same {t : Ty} {a b : t.El} (h : Same t a b) (hc : Carried t b) : t.eq a b = true := by
  rw [← eq_strip t a b, show strip t a = strip t b from h, eq_strip t b b]
  exact eq_refl_carried t b hc

/-! ### What is left out is the default -/

theorem withRuntime_same (t : Ty) (ht : t.WF) (rt : Rt) : Same t (t.dict.withRuntime rt) t.dict.dflt := by
  unfold Same
  rw [(decLaw t ht).dflt_eq]
  exact (decLaw t ht).init_strip rt Rt.dflt

theorem flatMap_eq_nil_of_ne {α : Type} {f : α → Bytes} (hf : ∀ x, f x ≠ []) {xs : List α} (h : xs.flatMap f = []) :
    xs = [] := by
  cases xs with
  | nil => rfl
  | cons x xs =>
    simp only [List.flatMap_cons, List.append_eq_nil_iff] at h
    exact absurd h.1 (hf x)

theorem framed_encode_ne (t : Ty) (ht : t.WF) (v : t.El) : framed (wireOf t) (encode t v) ≠ [] :=
  (decLaw t ht).framed_ne v

mutual
theorem empty_default : (t : Ty) → t.WF → ∀ v, encode t v = [] → Same t v t.dict.dflt
  | .uint _, _, v, h => absurd h (leb_ne_nil _)
  | .sint _, _, v, h => absurd h (leb_ne_nil _)
  | .bool, _, v, h => absurd h (leb_ne_nil _)
  | .string, _, ⟨_, _⟩, h => by cases h; rfl
  | .bytes, _, v, h => h
  | .vec t, ht, v, h => by rw [flatMap_eq_nil_of_ne (framed_encode_ne t ht) h]; rfl
  | .array n t, ht, v, h => by
    have := flatMap_eq_nil_of_ne (framed_encode_ne t ht.2.2) h
    have h1 := v.2
    rw [this] at h1
    have := ht.1
    simp at h1; omega
  | .tuple .nil, ht, _, _ => by have := ht.1; simp [Tys.length] at this
  | .tuple (.cons t ts), ht, v, h => by
    simp only [encode, encodeTuple, List.append_eq_nil_iff] at h
    exact absurd h.1 (framed_encode_ne t ht.2.2.1 _)
  | .option t, ht, none, h => rfl
  | .option t, ht, some x, h => by
    simp only [encode, Option.toList_some, List.flatMap_cons, List.flatMap_nil, List.append_nil] at h
    exact absurd h (framed_encode_ne t ht _)
  | .box t, ht, v, h => empty_default t ht v h
  | .hashMap k w, ht, v, h => by
    have : v = [] := flatMap_eq_nil_of_ne (f := fun e : k.El × w.El => framed (wireOf k) (encode k e.1) ++ framed (wireOf w) (encode w e.2))
      (fun e he => framed_encode_ne k ht.1 e.1 (List.append_eq_nil_iff.1 he).1) h
    rw [this]; rfl
  | .list t, ht, v, h => by
    have : v.items = [] := flatMap_eq_nil_of_ne (framed_encode_ne t ht.2) h
    simp only [Same, strip, this]; rfl
  | .map kt t, ht, v, h => by
    have : v.entries = [] := flatMap_eq_nil_of_ne
      (f := fun e : U32 × t.El => leb (e.1.toNat * 8 + wireOf t) ++ framed (wireOf t) (encode t e.2))
      (fun e he => leb_ne_nil _ (List.append_eq_nil_iff.1 he).1) h
    simp only [Same, strip, this]; rfl
  | .struct ds cached fs, ht, v, h => by
    have h1 := empty_defaultFields fs ds ht.2 v.fields h
    cases ds with
    | true => simp only [Same, strip, h1 (some Rt.dflt)]; rfl
    | false => simp only [Same, strip, h1 none]; rfl
  | .enum _ _ fs vs, ht, ⟨_, .inl x⟩, h => by
    simp only [encode, List.append_eq_nil_iff] at h
    exact absurd h.1 (leb_ne_nil _)
  | .enum _ _ fs vs, ht, ⟨_, .inr x⟩, h => absurd h (encodeVariant_ne vs x)

theorem empty_defaultFields : (fs : Fields) → (ds : Bool) → fs.WF ds → ∀ v, encodeFields fs v = [] →
    ∀ rt, stripFields fs v = stripFields fs ((fs.dict ds).init rt)
  | .nil, _, _, _, _ => fun _ => rfl
  | .cons tag attrs t fs, ds, hf, v, h => by
    intro rt
    simp only [encodeFields, List.append_eq_nil_iff] at h
    have h2 := empty_defaultFields fs ds hf.2.2.2 v.2 h.2 rt
    have hlo : leftOut t v.1 (encode t v.1) = true := by
      have h1 := h.1
      split at h1
      · assumption
      · simp only [List.append_eq_nil_iff] at h1
        exact absurd h1.1 (leb_ne_nil _)
    have h3 : Same t v.1 t.dict.dflt := leftOut_default t hf.2.2.1 v.1 hlo
    obtain ⟨rt', hi⟩ := fieldsCons_init (fs := fs.dict ds) (decLaw t hf.2.2.1) ds tag attrs rt
    have hi' : (Fields.dict (.cons tag attrs t fs) ds).init rt = (t.dict.withRuntime rt', (fs.dict ds).init rt) := hi
    rw [hi']
    simp only [stripFields, h2]
    rw [show strip t v.1 = strip t t.dict.dflt from h3, ← show strip t (t.dict.withRuntime rt') = strip t t.dict.dflt from withRuntime_same t hf.2.2.1 rt']

/-- A field that is left out has the default value, up to runtimes. -/
theorem leftOut_default : (t : Ty) → t.WF → ∀ v, leftOut t v (encode t v) = true → Same t v t.dict.dflt
  | .uint _, _, v, h => (by simpa [leftOut] using h : v = 0)
  | .sint _, _, v, h => (by simpa [leftOut] using h : v = 0)
  | .bool, _, v, h => (by simpa [leftOut] using h : v = false)
  | .string, ht, v, h => empty_default _ ht v (List.isEmpty_iff.1 h)
  | .bytes, ht, v, h => empty_default _ ht v (List.isEmpty_iff.1 h)
  | .vec t, ht, v, h => empty_default (.vec t) ht v (List.isEmpty_iff.1 h)
  | .array n t, ht, v, h => empty_default (.array n t) ht v (List.isEmpty_iff.1 h)
  | .tuple ts, ht, v, h => empty_default (.tuple ts) ht v (List.isEmpty_iff.1 h)
  | .option t, ht, v, h => empty_default (.option t) ht v (List.isEmpty_iff.1 h)
  | .box t, ht, v, h => empty_default (.box t) ht v (List.isEmpty_iff.1 h)
  | .hashMap k w, ht, v, h => empty_default (.hashMap k w) ht v (List.isEmpty_iff.1 h)
  | .list t, ht, v, h => empty_default (.list t) ht v (List.isEmpty_iff.1 h)
  | .map k t, ht, v, h => empty_default (.map k t) ht v (List.isEmpty_iff.1 h)
  | .struct ds c fs, ht, v, h => empty_default (.struct ds c fs) ht v (List.isEmpty_iff.1 h)
  | .enum ds c fs vs, ht, v, h => empty_default (.enum ds c fs vs) ht v (List.isEmpty_iff.1 h)
end

end Steit
