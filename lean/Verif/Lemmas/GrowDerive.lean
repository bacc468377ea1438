import Verif.Lemmas.Grow

/-! # Whatever bytes are read, each makes a bounded part of the value: derived types -/

namespace Steit
open Spec

/-- Of the fields of a struct or variant. -/
structure FieldsGrow {β : Type} (fs : FieldsD β) (W : β → Nat) (c : Nat) : Prop where
  init : ∀ rt, W (fs.init rt) ≤ c
  mergeField : ∀ m n wt v bs r, fs.mergeField m n wt v bs = some r → Grown W c (W v) r bs.length
  handleField : ∀ m n v path kind key bs r, fs.handleField m n v path kind key bs = some r →
    W r.target ≤ W v + c * (bs.length + 1)

theorem fieldsGrow_nil : FieldsGrow fieldsNil (fun _ => 0) 0 :=
  ⟨fun _ => Nat.le_refl _, fun _ _ _ _ _ _ h => (nomatch h), fun _ _ _ _ _ _ _ _ h => (nomatch h)⟩

theorem fieldsGrow_cons {α β : Type} {d : Dict α} {W : α → Nat} {c : Nat} {fs : FieldsD β} {V : β → Nat} {c' : Nat}
    (ds : Bool) (tag : U32) (attrs : FieldAttrs) (h : GrowLaw d W c) (hf : FieldsGrow fs V c') :
    FieldsGrow (fieldsCons ds tag attrs d fs) (fun v => W v.1 + V v.2) (c + c') := by
  refine ⟨fun rt => Nat.add_le_add ?_ (hf.init rt), ?_, ?_⟩
  · show W (match rt, ds && !attrs.noState with
      | some rt, true => d.withRuntime (rt.nested tag)
      | _, _ => d.dflt) ≤ c
    split
    · exact h.withRt _
    · exact h.dflt
  · intro m n wt v bs r he
    simp only [fieldsCons] at he
    split at he
    · cases he
      exact ((h.nested_any m v.1 wt bs).mono (Nat.le_add_right c c') (Nat.le_refl _)).map
        (fun x y hx => by simp only []; omega)
    · obtain ⟨r', hr', rfl⟩ := Option.map_eq_some_iff.1 he
      exact ((hf.mergeField m n wt v.2 bs r' hr').mono (Nat.le_add_left c' c) (Nat.le_refl _)).map
        (fun x y hx => by simp only []; omega)
  · intro m n v path kind key bs r he
    simp only [fieldsCons] at he
    split at he
    · cases he
      split
      · have := h.handle m v.1 path kind key bs
        rw [target_map, Nat.add_mul]
        simp only []
        omega
      · simp only [Res.target]; omega
    · obtain ⟨r', hr', rfl⟩ := Option.map_eq_some_iff.1 he
      have := hf.handleField m n v.2 path kind key bs r' hr'
      rw [target_map, Nat.add_mul]
      simp only []
      omega

section
variable {β : Type} {fs : FieldsD β} {W : β → Nat} {c : Nat}

theorem FieldsGrow.mergeAll (h : FieldsGrow fs W c) (m : Mode) (v : β) (bs : Bytes) :
    Grown W c (W v) (fs.merge m v bs) bs.length := by
  unfold FieldsD.merge
  refine grown_untilEof (fun v b bs => ?_) _ _ _
  unfold FieldsD.mergeStep
  split
  · exact grown_err (by omega)
  · next n wt rest hr =>
    have hlt : rest.length < (b :: bs).length := by
      obtain ⟨cc, he, hc⟩ := readTag_ok hr
      have := hc.length_pos
      rw [he, List.length_append]; omega
    split
    · next r hr => exact (h.mergeField _ _ _ _ _ _ hr).more (by omega)
    · split
      · next rest' hs =>
        have := (skipField_ok hs).2
        exact grown_ok (by omega) (by omega)
      · exact grown_err (by omega)

theorem grow_struct (ds cached : Bool) (h : FieldsGrow fs W c) :
    GrowLaw (structDict ds cached fs) (fun v => 1 + W v.fields) (1 + c) := by
  have hm : ∀ (m : Mode) (v : StructV β) (bs : Bytes), Grown (fun v : StructV β => 1 + W v.fields) (1 + c) (1 + W v.fields)
      ((fs.merge m v.fields bs).map (fun fields => { v with fields })) bs.length := by
    intro m v bs
    exact ((h.mergeAll m v.fields bs).mono (Nat.le_add_left c 1) (Nat.le_refl _)).map (fun x y hx => by simp only []; omega)
  have hi : ∀ rt, 1 + W (fs.init rt) ≤ 1 + c := fun rt => Nat.add_le_add_left (h.init rt) 1
  cases ds with
  | true =>
    refine ⟨hi _, fun rt => hi _, hm, fun h => (nomatch h), fun h => (nomatch h), ?_⟩
    intro m v path kind key bs
    show 1 + W (structHandle fs m v path kind key bs).target.fields ≤ _
    unfold structHandle
    cases path with
    | cons tag path =>
      simp only []
      cases hf : fs.handleField m tag v.fields path kind key bs with
      | some r =>
        have := h.handleField _ _ _ _ _ _ _ _ hf
        simp only [target_map, Nat.add_mul]
        omega
      | none => simp only [Res.target]; omega
    | nil =>
      cases kind with
      | update =>
        have := (h.mergeAll m (fs.init (some v.rt)) bs).le
        have := h.init (some v.rt)
        simp only [target_map, Nat.add_mul, Nat.mul_add]
        omega
      | listPush => simp only [Res.target]; omega
      | listPop => simp only [Res.target]; omega
      | mapRemove => simp only [Res.target]; omega
  | false => exact grow_plain (hi none) hm

end

/-! ## Enums -/

/-- Of the variants of an enum. -/
structure VariantsGrow {γ : Type} (vs : VariantsD γ) (W : γ → Nat) (c : Nat) : Prop where
  ctor : ∀ tag rt v, vs.ctor tag rt = some v → W v ≤ c
  mergeFields : ∀ m v bs, Grown W c (W v) (vs.mergeFields m v bs) bs.length
  handleFields : ∀ m v path kind key bs, W (vs.handleFields m v path kind key bs).target ≤ W v + c * (bs.length + 1)

/-- Of one of two. -/
def sumWeight {β γ : Type} (W : β → Nat) (V : γ → Nat) : β ⊕ γ → Nat
  | .inl x => W x
  | .inr x => V x

theorem variantsGrow_cons {β γ : Type} {fs : FieldsD β} {W : β → Nat} {c : Nat} {vs : VariantsD γ} {V : γ → Nat} {c' : Nat}
    (tag : U32) (cached : Bool) (h : FieldsGrow fs W c) (hv : VariantsGrow vs V c') :
    VariantsGrow (variantsCons tag cached fs vs) (sumWeight W V) (c + c') := by
  refine ⟨?_, ?_, ?_⟩
  · intro tag' rt v he
    simp only [variantsCons] at he
    split at he
    · cases he; exact Nat.le_trans (h.init rt) (Nat.le_add_right c c')
    · obtain ⟨x, hx, rfl⟩ := Option.map_eq_some_iff.1 he
      exact Nat.le_trans (hv.ctor tag' rt x hx) (Nat.le_add_left c' c)
  · intro m v bs
    cases v with
    | inl x => exact ((h.mergeAll m x bs).mono (Nat.le_add_right c c') (Nat.le_refl _)).map (fun _ _ h => h)
    | inr x => exact ((hv.mergeFields m x bs).mono (Nat.le_add_left c' c) (Nat.le_refl _)).map (fun _ _ h => h)
  · intro m v path kind key bs
    cases v with
    | inl x =>
      show sumWeight W V ((variantHandle fs m x path kind key bs).map Sum.inl).target ≤ W x + _
      rw [target_map]
      show W _ ≤ _
      unfold variantHandle
      cases path with
      | nil => simp only [Res.target]; omega
      | cons n rest =>
        simp only []
        cases hf : fs.handleField m n x rest kind key bs with
        | some r =>
          have := h.handleField _ _ _ _ _ _ _ _ hf
          simp only [Nat.add_mul]; omega
        | none => simp only [Res.target]; omega
    | inr x =>
      show sumWeight W V ((vs.handleFields m x path kind key bs).map Sum.inr).target ≤ V x + _
      rw [target_map]
      have := hv.handleFields m x path kind key bs
      show V _ ≤ _
      simp only [Nat.add_mul]; omega

section
variable {γ : Type} {vs : VariantsD γ} {W : γ → Nat} {c : Nat}

theorem grow_enumMerge (h : VariantsGrow vs W c) (ds : Bool) (m : Mode) (v : EnumV γ) (bs : Bytes) :
    Grown (fun v : EnumV γ => 1 + W v.val) (1 + c) (1 + W v.val) (enumMerge ds vs m v bs) bs.length := by
  unfold enumMerge
  split
  · exact grown_err (by omega)
  · next tag rest hg =>
    have hlt := getVarint_consumes (by decide) hg
    have hnew : ∀ (rt : Rt) (o : Option Rt) (val : γ), vs.ctor tag o = some val →
        Grown (fun v : EnumV γ => 1 + W v.val) (1 + c) (1 + W v.val)
          ((vs.mergeFields m val rest).map (fun val => (⟨rt, val⟩ : EnumV γ))) bs.length := by
      intro rt o val hc
      have hw := h.ctor _ _ _ hc
      obtain ⟨k, h1, h2⟩ := h.mergeFields m val rest
      refine ⟨k + (bs.length - rest.length), by rw [left_map]; omega, ?_⟩
      have e := Nat.mul_le_mul_left (1 + c) (show 1 ≤ bs.length - rest.length by omega)
      rw [target_map, Nat.mul_add, Nat.add_mul]
      simp only []
      omega
    split
    · exact (((h.mergeFields m v.val rest).mono (Nat.le_add_left c 1) (Nat.le_refl _)).map
        (fun x y hx => by simp only []; omega)).more (by omega)
    · split
      · split
        · split <;> exact grown_err (by omega)
        · split
          · exact grown_err (by omega)
          · next val hc => exact hnew _ _ val hc
      · split
        · exact grown_err (by omega)
        · next val hc => exact hnew _ _ val hc

theorem grow_enum {dfltVal : Option Rt → γ} (ds : Bool) (h : VariantsGrow vs W c) (hd : ∀ rt, W (dfltVal rt) ≤ c) :
    GrowLaw (enumDict ds vs dfltVal) (fun v => 1 + W v.val) (1 + c) := by
  have hi : ∀ rt, 1 + W (dfltVal rt) ≤ 1 + c := fun rt => Nat.add_le_add_left (hd rt) 1
  cases ds with
  | true =>
    refine ⟨hi _, fun rt => hi _, fun m v bs => grow_enumMerge h true m v bs, fun h => (nomatch h), fun h => (nomatch h), ?_⟩
    intro m v path kind key bs
    show 1 + W (enumHandle vs dfltVal m v path kind key bs).target.val ≤ 1 + W v.val + _
    unfold enumHandle
    cases path with
    | cons tag rest =>
      simp only []
      split
      · have := h.handleFields m v.val rest kind key bs
        rw [target_map, Nat.add_mul]
        simp only []
        omega
      · simp only [Res.target]; omega
    | nil =>
      simp only []
      split
      · unfold enumHandleUpdate
        split
        · simp only [Res.target]; omega
        · next parent _ =>
          have := (grow_enumMerge h true m ⟨parent.nested 0#32, dfltVal (some (parent.nested 0#32))⟩ bs).le
          have := hd (some (parent.nested 0#32))
          rw [Nat.mul_add]
          simp only [] at *
          omega
      · simp only [Res.target]; omega
  | false => exact grow_plain (hi none) (fun m v bs => grow_enumMerge h false m v bs)

end

/-! ## All types -/

theorem GrowLaw.congr {α : Type} {d : Dict α} {W W' : α → Nat} {c c' : Nat} (h : GrowLaw d W c) (hw : W = W') (hc : c = c') :
    GrowLaw d W' c' := hw ▸ hc ▸ h

mutual
theorem growLaw : (t : Ty) → GrowLaw t.dict (weight t) (growth t)
  | .uint w => grow_prim (fun m => readsVarint_uint m w.le_bits)
  | .sint w => grow_prim (fun m => readsVarint_sint m w.le_bits)
  | .bool => grow_prim (fun m => readsVarint_bool m)
  | .string => grow_string
  | .bytes => grow_bytes
  | .vec t => grow_vec (growLaw t)
  | .array n t => grow_array n (growLaw t)
  | .tuple ts => grow_tuple (tupleGrow ts)
  | .option t => grow_option (growLaw t)
  | .box t => grow_box (growLaw t)
  | .hashMap k v => grow_hashMap k.eq (growLaw k) (growLaw v)
  | .list t => grow_list (growLaw t)
  | .map k t => grow_map k (growLaw t)
  | .struct ds cached fs => grow_struct ds cached (fieldsGrow fs ds)
  | .enum ds cached fs vs => by
    refine (grow_enum (dfltVal := fun rt => Sum.inl ((fs.dict ds).init rt)) ds
      (variantsGrow_cons 0#32 cached (fieldsGrow fs ds) (variantsGrow vs ds))
      (fun rt => Nat.le_trans ((fieldsGrow fs ds).init rt) (Nat.le_add_right _ _))).congr ?_ (Nat.add_assoc _ _ _).symm
    funext v
    rcases v with ⟨own, x | x⟩ <;> rfl

theorem tupleGrow : (ts : Tys) → TupleGrow ts.dict (weightTuple ts) (growthTuple ts)
  | .nil => tupleGrow_nil
  | .cons t ts => tupleGrow_cons (growLaw t) (tupleGrow ts)

theorem fieldsGrow : (fs : Fields) → (ds : Bool) → FieldsGrow (fs.dict ds) (weightFields fs) (growthFields fs)
  | .nil, _ => fieldsGrow_nil
  | .cons tag attrs t fs, ds => fieldsGrow_cons ds tag attrs (growLaw t) (fieldsGrow fs ds)

theorem variantsGrow : (vs : Variants) → (ds : Bool) → VariantsGrow (vs.dict ds) (weightVariant vs) (growthVariants vs)
  | .nil, _ => ⟨fun _ _ v => (nomatch v), fun _ v => (nomatch v), fun _ v => (nomatch v)⟩
  | .cons tag cached fs vs, ds => by
    have h := variantsGrow_cons tag cached (fieldsGrow fs ds) (variantsGrow vs ds)
    have he : weightVariant (.cons tag cached fs vs) = sumWeight (weightFields fs) (weightVariant vs) := by
      funext v
      cases v <;> rfl
    rw [he]
    exact h
end

end Steit
