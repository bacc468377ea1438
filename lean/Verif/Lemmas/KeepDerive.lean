import Verif.Lemmas.Keep

/-! # Whatever bytes are read, what has been read can be written again: derived types -/

namespace Steit
open Spec

/-- Of the fields of a struct or variant; `K` is about whole paths, starting with the field's tag. -/
structure FieldsKeep {β : Type} (fs : FieldsD β) (P : β → Prop) (K : List U32 → Prop) : Prop where
  init : ∀ rt, P (fs.init rt)
  setRt : ∀ rt v, P v → P (fs.setRuntime rt v)
  mergeField : ∀ m n wt v bs r, P v → fs.mergeField m n wt v bs = some r → P r.target
  handleField : ∀ m n v path kind key bs r, P v → K (n :: path) → fs.handleField m n v path kind key bs = some r →
    P r.target

theorem fieldsKeep_nil : FieldsKeep fieldsNil (fun _ => True) (fun _ => True) :=
  ⟨fun _ => trivial, fun _ _ _ => trivial, fun _ _ _ _ _ _ _ _ => trivial, fun _ _ _ _ _ _ _ _ _ _ _ => trivial⟩

theorem fieldsKeep_cons {α β : Type} {d : Dict α} {P : α → Prop} {K : List U32 → Prop} {fs : FieldsD β}
    {Q : β → Prop} {L : List U32 → Prop} (ds : Bool) (tag : U32) (attrs : FieldAttrs) (h : KeepLaw d P K)
    (hf : FieldsKeep fs Q L) : FieldsKeep (fieldsCons ds tag attrs d fs) (fun v => P v.1 ∧ Q v.2)
      (fun path => ∀ n rest, path = n :: rest → (n = tag → K rest) ∧ L path) := by
  refine ⟨fun rt => ⟨?_, hf.init rt⟩, fun rt v hv => ⟨?_, hf.setRt rt v.2 hv.2⟩, ?_, ?_⟩
  · show P (match rt, ds && !attrs.noState with
      | some rt, true => d.withRuntime (rt.nested tag)
      | _, _ => d.dflt)
    split
    · exact h.withRt _
    · exact h.dflt
  · show P (if (ds && !attrs.noState) = true then d.setRuntime (rt.nested tag) v.1 else v.1)
    split
    · exact h.setRt _ _ hv.1
    · exact hv.1
  · intro m n wt v bs r hv he
    simp only [fieldsCons] at he
    split at he
    · cases he
      rw [target_map]
      exact ⟨h.nested m v.1 wt bs hv.1, hv.2⟩
    · obtain ⟨r', hr', rfl⟩ := Option.map_eq_some_iff.1 he
      rw [target_map]
      exact ⟨hv.1, hf.mergeField m n wt v.2 bs r' hv.2 hr'⟩
  · intro m n v path kind key bs r hv hK he
    obtain ⟨h1, h2⟩ := hK n path rfl
    simp only [fieldsCons] at he
    split at he
    · next hn =>
      cases he
      split
      · rw [target_map]
        exact ⟨h.handle m v.1 path kind key bs hv.1 (h1 hn), hv.2⟩
      · exact hv
    · obtain ⟨r', hr', rfl⟩ := Option.map_eq_some_iff.1 he
      rw [target_map]
      exact ⟨hv.1, hf.handleField m n v.2 path kind key bs r' hv.2 h2 hr'⟩

section
variable {β : Type} {fs : FieldsD β} {P : β → Prop} {K : List U32 → Prop}

theorem FieldsKeep.mergeAll (h : FieldsKeep fs P K) (m : Mode) (v : β) (bs : Bytes) (hv : P v) :
    P (fs.merge m v bs).target := by
  unfold FieldsD.merge
  refine untilEof_keep (fun v bs hv => ?_) _ _ _ hv
  unfold FieldsD.mergeStep
  split
  · exact hv
  · split
    · next r hr => exact h.mergeField _ _ _ _ _ _ hv hr
    · split <;> exact hv

theorem keep_structHandle (h : FieldsKeep fs P K) (m : Mode) (v : StructV β) (path : List U32) (kind : LogKind)
    (key : Option U32) (bs : Bytes) (hv : P v.fields) (hK : K path) :
    P (structHandle fs m v path kind key bs).target.fields := by
  unfold structHandle
  cases path with
  | cons tag path =>
    simp only []
    cases hf : fs.handleField m tag v.fields path kind key bs with
    | some r =>
      simp only [target_map]
      exact h.handleField _ _ _ _ _ _ _ _ hv hK hf
    | none => exact hv
  | nil =>
    cases kind with
    | update =>
      simp only [target_map]
      exact h.mergeAll m _ bs (h.init _)
    | listPush => exact hv
    | listPop => exact hv
    | mapRemove => exact hv

theorem keep_struct (ds cached : Bool) (h : FieldsKeep fs P K) :
    KeepLaw (structDict ds cached fs) (fun v => P v.fields) K := by
  have hm : ∀ (m : Mode) (v : StructV β) (bs : Bytes), P v.fields →
      P ((fs.merge m v.fields bs).map (fun fields => { v with fields })).target.fields := by
    intro m v bs hv
    rw [target_map]
    exact h.mergeAll m v.fields bs hv
  cases ds with
  | true =>
    exact ⟨h.init _, fun rt => h.init _, fun rt v hv => h.setRt rt v.fields hv, hm,
      fun m v path kind key bs hv hK => keep_structHandle h m v path kind key bs hv hK⟩
  | false =>
    exact ⟨h.init none, fun _ => h.init none, fun _ _ hv => hv, hm, fun _ _ _ _ _ _ hv _ => hv⟩

end

/-! ## Enums -/

/-- Of the variants of an enum; `K tag` is about the path below the variant's tag. -/
structure VariantsKeep {γ : Type} (vs : VariantsD γ) (P : γ → Prop) (K : U32 → List U32 → Prop) : Prop where
  ctor : ∀ tag rt v, vs.ctor tag rt = some v → P v
  setRt : ∀ rt v, P v → P (vs.setRuntime rt v)
  mergeFields : ∀ m v bs, P v → P (vs.mergeFields m v bs).target
  handleFields : ∀ m v path kind key bs, P v → K (vs.tagOf v) path → P (vs.handleFields m v path kind key bs).target

theorem variantsKeep_nil : VariantsKeep variantsNil (fun _ => True) (fun _ _ => True) :=
  ⟨fun _ _ v => (nomatch v), fun _ v => (nomatch v), fun _ v => (nomatch v), fun _ v => (nomatch v)⟩

/-- One of two. -/
def sumKeep {β γ : Type} (P : β → Prop) (Q : γ → Prop) : β ⊕ γ → Prop
  | .inl x => P x
  | .inr x => Q x

theorem variantsKeep_cons {β γ : Type} {fs : FieldsD β} {P : β → Prop} {K : List U32 → Prop} {vs : VariantsD γ}
    {Q : γ → Prop} {L : U32 → List U32 → Prop} (tag : U32) (cached : Bool) (h : FieldsKeep fs P K)
    (hv : VariantsKeep vs Q L) : VariantsKeep (variantsCons tag cached fs vs) (sumKeep P Q)
      (fun tag' path => (tag' = tag → K path) ∧ L tag' path) := by
  refine ⟨?_, ?_, ?_, ?_⟩
  · intro tag' rt v he
    simp only [variantsCons] at he
    split at he
    · cases he; exact h.init rt
    · obtain ⟨x, hx, rfl⟩ := Option.map_eq_some_iff.1 he
      exact hv.ctor tag' rt x hx
  · intro rt v hp
    cases v with
    | inl x => exact h.setRt rt x hp
    | inr x => exact hv.setRt rt x hp
  · intro m v bs hp
    cases v with
    | inl x =>
      show sumKeep P Q ((fs.merge m x bs).map Sum.inl).target
      rw [target_map]
      exact h.mergeAll m x bs hp
    | inr x =>
      show sumKeep P Q ((vs.mergeFields m x bs).map Sum.inr).target
      rw [target_map]
      exact hv.mergeFields m x bs hp
  · intro m v path kind key bs hp hK
    cases v with
    | inl x =>
      show sumKeep P Q ((variantHandle fs m x path kind key bs).map Sum.inl).target
      rw [target_map]
      show P _
      have hK1 : K path := hK.1 rfl
      unfold variantHandle
      cases path with
      | nil => exact hp
      | cons n rest =>
        simp only []
        cases hf : fs.handleField m n x rest kind key bs with
        | some r => exact h.handleField _ _ _ _ _ _ _ _ hp hK1 hf
        | none => exact hp
    | inr x =>
      show sumKeep P Q ((vs.handleFields m x path kind key bs).map Sum.inr).target
      rw [target_map]
      exact hv.handleFields m x path kind key bs hp hK.2

section
variable {γ : Type} {vs : VariantsD γ} {P : γ → Prop} {K : U32 → List U32 → Prop}

theorem keep_enumMerge (h : VariantsKeep vs P K) (ds : Bool) (m : Mode) (v : EnumV γ) (bs : Bytes) (hv : P v.val) :
    P (enumMerge ds vs m v bs).target.val := by
  unfold enumMerge
  split
  · exact hv
  · next tag rest _ =>
    split
    · rw [target_map]; exact h.mergeFields m v.val rest hv
    · split
      · split
        · split <;> exact hv
        · split
          · exact hv
          · next val hc => rw [target_map]; exact h.mergeFields m val rest (h.ctor _ _ _ hc)
      · split
        · exact hv
        · next val hc => rw [target_map]; exact h.mergeFields m val rest (h.ctor _ _ _ hc)

theorem keep_enum {dfltVal : Option Rt → γ} (ds : Bool) (h : VariantsKeep vs P K) (hd : ∀ rt, P (dfltVal rt)) :
    KeepLaw (enumDict ds vs dfltVal) (fun v => P v.val)
      (fun path => ∀ tag rest, path = tag :: rest → K tag rest) := by
  cases ds with
  | true =>
    refine ⟨hd _, fun rt => hd _, fun rt v hv => h.setRt _ _ hv, fun m v bs hv => keep_enumMerge h true m v bs hv, ?_⟩
    intro m v path kind key bs hv hK
    show P (enumHandle vs dfltVal m v path kind key bs).target.val
    unfold enumHandle
    cases path with
    | cons tag rest =>
      simp only []
      split
      · next ht =>
        rw [target_map]
        exact h.handleFields m v.val rest kind key bs hv (ht ▸ hK tag rest rfl)
      · exact hv
    | nil =>
      simp only []
      split
      · unfold enumHandleUpdate
        split
        · exact hv
        · exact keep_enumMerge h true m _ bs (hd _)
      · exact hv
  | false =>
    exact ⟨hd none, fun _ => hd none, fun _ _ hv => hv, fun m v bs hv => keep_enumMerge h false m v bs hv,
      fun _ _ _ _ _ _ hv _ => hv⟩

end

/-! ## All types -/

theorem KeepLaw.weaken {α : Type} {d : Dict α} {P P' : α → Prop} {K K' : List U32 → Prop} (h : KeepLaw d P K)
    (hp : ∀ v, P v ↔ P' v) (hk : ∀ path, K' path → K path) : KeepLaw d P' K' :=
  ⟨(hp _).1 h.dflt, fun rt => (hp _).1 (h.withRt rt), fun rt v hv => (hp _).1 (h.setRt rt v ((hp _).2 hv)),
    fun m v bs hv => (hp _).1 (h.merge m v bs ((hp _).2 hv)),
    fun m v path kind key bs hv hK => (hp _).1 (h.handle m v path kind key bs ((hp _).2 hv) (hk _ hK))⟩

theorem FieldsKeep.weaken {β : Type} {fs : FieldsD β} {P : β → Prop} {K K' : List U32 → Prop} (h : FieldsKeep fs P K)
    (hk : ∀ n path, K' (n :: path) → K (n :: path)) : FieldsKeep fs P K' :=
  ⟨h.init, h.setRt, h.mergeField,
    fun m n v path kind key bs r hv hK he => h.handleField m n v path kind key bs r hv (hk _ _ hK) he⟩

mutual
theorem keepLaw : (t : Ty) → KeepLaw t.dict (Carried t) (KeysIn t)
  | .uint _ => (keep_prim trivial (fun _ _ _ _ _ => trivial)).weaken (fun _ => .rfl) (fun _ _ => trivial)
  | .sint w =>
    (keep_prim (P := Carried (.sint w)) (zero_range w) (fun _ _ _ _ h => getSigned_range h)).weaken (fun _ => .rfl)
      (fun _ _ => trivial)
  | .bool => (keep_prim trivial (fun _ _ _ _ _ => trivial)).weaken (fun _ => .rfl) (fun _ _ => trivial)
  | .string => (keep_plain trivial (fun _ _ _ _ => trivial)).weaken (fun _ => .rfl) (fun _ _ => trivial)
  | .bytes => (keep_plain trivial (fun _ _ _ _ => trivial)).weaken (fun _ => .rfl) (fun _ _ => trivial)
  | .vec t => (keep_vec (keepLaw t)).weaken (fun _ => .rfl) (fun _ _ => trivial)
  | .array n t => (keep_array n (keepLaw t)).weaken (fun _ => .rfl) (fun _ _ => trivial)
  | .tuple ts => (keep_tuple (tupleKeep ts)).weaken (fun _ => .rfl) (fun _ _ => trivial)
  | .option t => (keep_option (keepLaw t)).weaken (fun _ => .rfl) (fun _ _ => trivial)
  | .box t => (keep_box (keepLaw t)).weaken (fun _ => .rfl) (fun path h => by cases path <;> exact h)
  | .hashMap k v => (keep_hashMap k.eq (keepLaw k) (keepLaw v)).weaken (fun _ => .rfl) (fun _ _ => trivial)
  | .list t => (keep_list (keepLaw t)).weaken (fun _ => .rfl) (fun path h i rest he => by subst he; exact h)
  | .map k t => (keep_map k (keepLaw t)).weaken (fun _ => .rfl) (fun path h i rest he => by subst he; exact h)
  | .struct ds cached fs =>
    (keep_struct ds cached (fieldsKeep fs ds)).weaken (fun _ => .rfl) (fun path h => by cases path <;> exact h)
  | .enum ds cached fs vs => by
    refine (keep_enum (dfltVal := fun rt => Sum.inl ((fs.dict ds).init rt)) ds
      (variantsKeep_cons 0#32 cached (fieldsKeep fs ds) (variantsKeep vs ds)) (fun rt => (fieldsKeep fs ds).init rt)).weaken
      (fun v => ?_) (fun path h i rest he => by subst he; exact h)
    rcases v with ⟨own, x | x⟩ <;> exact .rfl

theorem tupleKeep : (ts : Tys) → TupleKeep ts.dict (CarriedTuple ts)
  | .nil => tupleKeep_nil
  | .cons t ts => tupleKeep_cons (keepLaw t) (tupleKeep ts)

theorem fieldsKeep : (fs : Fields) → (ds : Bool) → FieldsKeep (fs.dict ds) (CarriedFields fs) (FieldKeysIn fs)
  | .nil, _ => fieldsKeep_nil.weaken (fun _ _ _ => trivial)
  | .cons tag attrs t fs, ds =>
    (fieldsKeep_cons ds tag attrs (keepLaw t) (fieldsKeep fs ds)).weaken
      (fun _ _ h n rest he => by cases he; exact h)

theorem variantsKeep : (vs : Variants) → (ds : Bool) →
    VariantsKeep (vs.dict ds) (CarriedVariant vs) (VariantKeysIn vs)
  | .nil, _ => ⟨fun _ _ v => (nomatch v), fun _ v => (nomatch v), fun _ v => (nomatch v), fun _ v => (nomatch v)⟩
  | .cons tag cached fs vs, ds => by
    have h := variantsKeep_cons tag cached (fieldsKeep fs ds) (variantsKeep vs ds)
    have he : CarriedVariant (.cons tag cached fs vs) = sumKeep (CarriedFields fs) (CarriedVariant vs) := by
      funext v
      cases v <;> rfl
    have hk : VariantKeysIn (.cons tag cached fs vs) =
        (fun tag' path => (tag' = tag → FieldKeysIn fs path) ∧ VariantKeysIn vs tag' path) := by
      funext a b
      rfl
    rw [he, hk]
    exact h
end

end Steit
