import Verif.Lemmas.AnyImpls
import Verif.Lemmas.DecImpls

/-! # Reading arbitrary bytes: derived structs and enums -/

namespace Steit
open Spec

/-- The law of the fields of a struct or variant. -/
structure FieldsAny {β : Type} (fs : FieldsD β) (ds : Bool) (At : Rt → β → Prop) : Prop where
  init_some : ds = true → ∀ rt, At rt (fs.init (some rt))
  init_none : ds = false → ∀ rt, At rt (fs.init none)
  indep : ds = false → ∀ rt rt' v, At rt v → At rt' v
  merge : ∀ m rt n wt v bs r, At rt v → fs.mergeField m n wt v bs = some r →
    (∃ v' rest, r = .ok v' rest ∧ At rt v' ∧ rest <:+ bs) ∨ (∃ v' e, r = .err v' e ∧ At rt v' ∧ ErrOk m bs e)
  set : ds = true → ∀ rt rt' v, At rt v → At rt' (fs.setRuntime rt' v)
  handle : ds = true → ∀ m rt n v path kind key bs r, At rt v → fs.handleField m n v path kind key bs = some r →
    (∃ v' rest, r = .ok v' rest ∧ At rt v') ∨ (∃ v' e, r = .err v' e ∧ At rt v' ∧ ErrOk m bs e)

theorem fieldsAny_nil (ds : Bool) : FieldsAny fieldsNil ds (fun _ _ => True) where
  init_some := fun _ _ => trivial
  init_none := fun _ _ => trivial
  indep := fun _ _ _ _ _ => trivial
  merge := fun m rt n wt v bs r _ h => by cases h
  set := fun _ _ _ _ _ => trivial
  handle := fun _ m rt n v path kind key bs r _ h => by cases h

/-- Address of a field: below the message if it is part of the state, anything otherwise. -/
def fieldAt {α : Type} (st : Bool) (At : Rt → α → Prop) (rt : Rt) (v : α) : Prop :=
  if st then At rt v else ∃ rt', At rt' v

theorem fieldsAny_cons {α β : Type} {d : Dict α} {st : Bool} {At : Rt → α → Prop} {fs : FieldsD β} {ds : Bool}
    {At' : Rt → β → Prop} (tag : U32) (attrs : FieldAttrs) (h : AnyLaw d st At) (hf : FieldsAny fs ds At')
    (hst : (ds && !attrs.noState) = true → st = true) :
    FieldsAny (fieldsCons ds tag attrs d fs) ds
      (fun rt v => fieldAt (ds && !attrs.noState) At (rt.nested tag) v.1 ∧ At' rt v.2) where
  init_some := by
    intro hds rt
    refine ⟨?_, hf.init_some hds rt⟩
    simp only [fieldsCons, fieldAt]
    cases ds && !attrs.noState with
    | true => exact h.at_new _
    | false => exact ⟨_, h.at_dflt⟩
  init_none := by
    intro hds rt
    refine ⟨?_, hf.init_none hds rt⟩
    subst hds
    exact ⟨_, h.at_dflt⟩
  indep := by
    intro hds rt rt' v hv
    refine ⟨?_, hf.indep hds _ _ _ hv.2⟩
    subst hds
    exact hv.1
  merge := by
    intro m rt n wt v bs r hv hr
    simp only [fieldsCons] at hr
    split at hr
    · have hm : ∀ rt1, At rt1 v.1 → (∃ v' rest, r = .ok v' rest ∧ (At rt1 v'.1 ∧ At' rt v'.2) ∧ rest <:+ bs) ∨
          (∃ v' e, r = .err v' e ∧ (At rt1 v'.1 ∧ At' rt v'.2) ∧ ErrOk m bs e) := by
        intro rt1 hx
        rcases h.nested m rt1 v.1 wt bs hx with ⟨x, rest, h1, h2, h3, _⟩ | ⟨x, e, h1, h2, h3⟩
        · rw [h1] at hr; cases hr
          exact .inl ⟨_, _, rfl, ⟨h2, hv.2⟩, h3⟩
        · rw [h1] at hr; cases hr
          exact .inr ⟨_, _, rfl, ⟨h2, hv.2⟩, h3⟩
      have hv1 := hv.1
      unfold fieldAt at hv1 ⊢
      split at hv1
      · next hb =>
        simp only [hb, if_true]
        exact hm _ hv1
      · next hb =>
        obtain ⟨rt1, hv1⟩ := hv1
        simp only [hb]
        rcases hm rt1 hv1 with ⟨v', rest, h1, h2, h3⟩ | ⟨v', e, h1, h2, h3⟩
        · exact .inl ⟨v', rest, h1, ⟨⟨_, h2.1⟩, h2.2⟩, h3⟩
        · exact .inr ⟨v', e, h1, ⟨⟨_, h2.1⟩, h2.2⟩, h3⟩
    · cases hr' : fs.mergeField m n wt v.2 bs with
      | none => rw [hr'] at hr; cases hr
      | some r' =>
        rw [hr'] at hr
        rcases hf.merge m rt n wt v.2 bs r' hv.2 hr' with ⟨v', rest, h1, h2, h3⟩ | ⟨v', e, h1, h2, h3⟩
        · subst h1; cases hr
          exact .inl ⟨_, _, rfl, ⟨hv.1, h2⟩, h3⟩
        · subst h1; cases hr
          exact .inr ⟨_, _, rfl, ⟨hv.1, h2⟩, h3⟩
  set := by
    intro hds rt rt' v hv
    refine ⟨?_, hf.set hds _ _ _ hv.2⟩
    have hv1 := hv.1
    simp only [fieldsCons]
    unfold fieldAt at hv1 ⊢
    split at hv1
    · next hb => simp only [hb, if_true]; exact h.at_set _ _ _ hv1
    · next hb => simp only [hb]; exact hv1
  handle := by
    intro hds m rt n v path kind key bs r hv hr
    simp only [fieldsCons] at hr
    split at hr
    · have hv1 := hv.1
      unfold fieldAt at hv1 ⊢
      split at hv1
      · next hb =>
        simp only [hb, if_true] at hr ⊢
        rcases h.handle (hst hb) m _ v.1 path kind key bs hv1 with ⟨x, rest, h1, h2⟩ | ⟨x, e, h1, h2, h3⟩
        · rw [h1] at hr; cases hr
          exact .inl ⟨_, _, rfl, h2, hv.2⟩
        · rw [h1] at hr; cases hr
          exact .inr ⟨_, _, rfl, ⟨h2, hv.2⟩, h3⟩
      · next hb =>
        simp only [hb] at hr ⊢
        cases hr
        exact .inl ⟨_, _, rfl, hv1, hv.2⟩
    · cases hr' : fs.handleField m n v.2 path kind key bs with
      | none => rw [hr'] at hr; cases hr
      | some r' =>
        rw [hr'] at hr
        rcases hf.handle hds m rt n v.2 path kind key bs r' hv.2 hr' with ⟨v', rest, h1, h2⟩ | ⟨v', e, h1, h2, h3⟩
        · subst h1; cases hr
          exact .inl ⟨_, _, rfl, hv.1, h2⟩
        · subst h1; cases hr
          exact .inr ⟨_, _, rfl, ⟨hv.1, h2⟩, h3⟩

section
variable {β : Type} {fs : FieldsD β} {ds : Bool} {At : Rt → β → Prop}

theorem FieldsAny.step (h : FieldsAny fs ds At) (rt : Rt) (m : Mode) (v : β) (bs : Bytes) (hv : At rt v) :
    (∃ v' rest, fs.mergeStep m v bs = .ok v' rest ∧ At rt v' ∧ rest <:+ bs ∧ rest.length < bs.length) ∨
    (∃ v' e, fs.mergeStep m v bs = .err v' e ∧ At rt v' ∧ ErrOk m bs e) := by
  unfold FieldsD.mergeStep
  cases ht : readTag m bs with
  | error e => exact .inr ⟨v, e, rfl, hv, readTag_err ht⟩
  | ok tr =>
    obtain ⟨⟨n, wt⟩, r⟩ := tr
    obtain ⟨c, rfl, hc⟩ := readTag_ok ht
    have hpos := hc.length_pos
    simp only
    cases hm : fs.mergeField m n wt v r with
    | some res =>
      simp only
      rcases h.merge m rt n wt v r res hv hm with ⟨v', rest, h1, h2, h3⟩ | ⟨v', e, h1, h2, h3⟩
      · refine .inl ⟨v', rest, h1, h2, h3.trans (List.suffix_append _ _), ?_⟩
        have := h3.length_le
        simp only [List.length_append]; omega
      · exact .inr ⟨v', e, h1, h2, h3.mono (List.suffix_append _ _).isInfix⟩
    | none =>
      simp only
      cases hs : skipField m wt r with
      | ok rest =>
        obtain ⟨h1, h2⟩ := skipField_ok hs
        refine .inl ⟨v, rest, rfl, hv, h1.trans (List.suffix_append _ _), ?_⟩
        simp only [List.length_append]; omega
      | error e => exact .inr ⟨v, e, rfl, hv, (skipField_err hs).mono (List.suffix_append _ _).isInfix⟩

theorem FieldsAny.mergeAll (h : FieldsAny fs ds At) (rt : Rt) (m : Mode) (v : β) (bs : Bytes) (hv : At rt v) :
    (∃ v' rest, fs.merge m v bs = .ok v' rest ∧ At rt v') ∨
    (∃ v' e, fs.merge m v bs = .err v' e ∧ At rt v' ∧ ErrOk m bs e) :=
  loop_any (fun m => fs.mergeStep m) (At rt) (h.step rt) m v bs hv

theorem anyLaw_struct (cached : Bool) (h : FieldsAny fs ds At) : AnyLaw (structDict ds cached fs) ds
    (fun rt v => (ds = true → v.rt = rt) ∧ At rt v.fields) := by
  cases ds with
  | false =>
    refine (anyLaw_plain (P := fun v => ((false = true → v.rt = Rt.dflt) ∧ At Rt.dflt v.fields)) ?_ ?_ ?_).congr rfl ?_
    · exact ⟨nofun, h.init_none rfl _⟩
    · intro m v bs hv
      rcases h.mergeAll Rt.dflt m v.fields bs hv.2 with ⟨v', rest, h1, h2⟩ | ⟨v', e, h1, h2, h3⟩
      · exact .inl ⟨⟨v.rt, v'⟩, rest, by rw [h1]; rfl, nofun, h2⟩
      · exact .inr ⟨⟨v.rt, v'⟩, e, by rw [h1]; rfl, ⟨nofun, h2⟩, h3⟩
    · intro m v bs v' rest hm
      cases hx : fs.merge m v.fields bs with
      | ok v'' r => rw [hx] at hm; cases hm; exact untilEof_ok_nil hx
      | err v'' e => rw [hx] at hm; cases hm
    · funext rt v
      exact propext ⟨fun hv => ⟨nofun, h.indep rfl _ _ _ hv.2⟩, fun hv => ⟨nofun, h.indep rfl _ _ _ hv.2⟩⟩
  | true =>
    have hmerge : ∀ m rt (v : StructV β) bs, ((true = true → v.rt = rt) ∧ At rt v.fields) →
        (∃ v' rest, (fs.merge m v.fields bs).map (fun fields => { v with fields }) = .ok v' rest ∧
          ((true = true → v'.rt = rt) ∧ At rt v'.fields)) ∨
        (∃ v' e, (fs.merge m v.fields bs).map (fun fields => { v with fields }) = .err v' e ∧
          ((true = true → v'.rt = rt) ∧ At rt v'.fields) ∧ ErrOk m bs e) := by
      intro m rt v bs hv
      rcases h.mergeAll rt m v.fields bs hv.2 with ⟨v', rest, h1, h2⟩ | ⟨v', e, h1, h2, h3⟩
      · exact .inl ⟨⟨v.rt, v'⟩, rest, by rw [h1]; rfl, hv.1, h2⟩
      · exact .inr ⟨⟨v.rt, v'⟩, e, by rw [h1]; rfl, ⟨hv.1, h2⟩, h3⟩
    exact
      { dflt_eq := rfl
        at_new := fun rt => ⟨fun _ => rfl, h.init_some rfl rt⟩
        merge := hmerge
        sized_all := by
          intro _ m v bs v' rest hm
          have hm : (fs.merge m v.fields bs).map (fun fields => { v with fields }) = .ok v' rest := hm
          cases hx : fs.merge m v.fields bs with
          | ok v'' r => rw [hx] at hm; cases hm; exact untilEof_ok_nil hx
          | err v'' e => rw [hx] at hm; cases hm
        varint := fun h => by cases h
        at_set := fun rt rt' v hv => ⟨fun _ => rfl, h.set rfl _ _ _ hv.2⟩
        handle := by
          intro _ m rt v path kind key bs hv
          show (∃ v' rest, structHandle fs m v path kind key bs = .ok v' rest ∧ _) ∨
            (∃ v' e, structHandle fs m v path kind key bs = .err v' e ∧ _)
          unfold structHandle
          cases path with
          | nil =>
            cases kind with
            | update =>
              refine hmerge m rt ⟨v.rt, fs.init (some v.rt)⟩ bs ⟨hv.1, ?_⟩
              rw [hv.1 rfl]
              exact h.init_some rfl rt
            | listPush => exact .inr ⟨_, _, rfl, hv, .inr (.inl rfl)⟩
            | listPop => exact .inr ⟨_, _, rfl, hv, .inr (.inl rfl)⟩
            | mapRemove => exact .inr ⟨_, _, rfl, hv, .inr (.inl rfl)⟩
          | cons n path =>
            simp only
            cases hx : fs.handleField m n v.fields path kind key bs with
            | none => exact .inr ⟨_, _, rfl, ⟨fun _ => hv.1 rfl, hv.2⟩, .inr (.inl rfl)⟩
            | some r =>
              rcases h.handle rfl m rt n v.fields path kind key bs r hv.2 hx with ⟨v', rest, h1, h2⟩ | ⟨v', e, h1, h2, h3⟩
              · exact .inl ⟨⟨v.rt, v'⟩, rest, by rw [h1]; rfl, fun _ => hv.1 rfl, h2⟩
              · exact .inr ⟨⟨v.rt, v'⟩, e, by rw [h1]; rfl, ⟨fun _ => hv.1 rfl, h2⟩, h3⟩ }

end

/-! ### Enums -/

/-- The law of the variants of an enum; `At rt v` speaks about the location `rt` of the enum. -/
structure VariantsAny {γ : Type} (vs : VariantsD γ) (ds : Bool) (At : Rt → γ → Prop) : Prop where
  ctor_some : ds = true → ∀ tag rt v, vs.ctor tag (some (rt.nested tag)) = some v → At rt v ∧ vs.tagOf v = tag
  ctor_none : ds = false → ∀ tag rt v, vs.ctor tag none = some v → At rt v
  indep : ds = false → ∀ rt rt' v, At rt v → At rt' v
  merge : ∀ m rt v bs, At rt v →
    (∃ v' rest, vs.mergeFields m v bs = .ok v' rest ∧ At rt v' ∧ vs.tagOf v' = vs.tagOf v) ∨
    (∃ v' e, vs.mergeFields m v bs = .err v' e ∧ (At rt v' ∧ vs.tagOf v' = vs.tagOf v) ∧ ErrOk m bs e)
  merge_all : ∀ m v bs v' rest, vs.mergeFields m v bs = .ok v' rest → rest = []
  set : ds = true → ∀ rt rt' v, At rt v →
    At rt' (vs.setRuntime (rt'.nested (vs.tagOf v)) v) ∧ vs.tagOf (vs.setRuntime (rt'.nested (vs.tagOf v)) v) = vs.tagOf v
  handle : ds = true → ∀ m rt v path kind key bs, At rt v →
    (∃ v' rest, vs.handleFields m v path kind key bs = .ok v' rest ∧ At rt v' ∧ vs.tagOf v' = vs.tagOf v) ∨
    (∃ v' e, vs.handleFields m v path kind key bs = .err v' e ∧ (At rt v' ∧ vs.tagOf v' = vs.tagOf v) ∧ ErrOk m bs e)

theorem variantsAny_nil (ds : Bool) : VariantsAny variantsNil ds (fun _ _ => True) where
  ctor_some := fun _ _ _ v => nomatch v
  ctor_none := fun _ _ _ v => nomatch v
  indep := fun _ _ _ v => nomatch v
  merge := fun _ _ v => nomatch v
  merge_all := fun _ v => nomatch v
  set := fun _ _ _ v => nomatch v
  handle := fun _ _ _ v => nomatch v

/-- Address of the current variant. -/
def sumAt {β γ : Type} (tag : U32) (At : Rt → β → Prop) (At' : Rt → γ → Prop) (rt : Rt) : β ⊕ γ → Prop
  | .inl x => At (rt.nested tag) x
  | .inr x => At' rt x

theorem variantHandle_any {β : Type} {fs : FieldsD β} {ds : Bool} {At : Rt → β → Prop} (h : FieldsAny fs ds At)
    (hds : ds = true) (m : Mode) (rt : Rt) (v : β) (path : List U32) (kind : LogKind) (key : Option U32) (bs : Bytes)
    (hv : At rt v) :
    (∃ v' rest, variantHandle fs m v path kind key bs = .ok v' rest ∧ At rt v') ∨
    (∃ v' e, variantHandle fs m v path kind key bs = .err v' e ∧ At rt v' ∧ ErrOk m bs e) := by
  unfold variantHandle
  cases path with
  | nil => exact .inr ⟨_, _, rfl, hv, .inr (.inl rfl)⟩
  | cons n path =>
    simp only
    cases hx : fs.handleField m n v path kind key bs with
    | none => exact .inr ⟨_, _, rfl, hv, .inr (.inl rfl)⟩
    | some r => exact h.handle hds m rt n v path kind key bs r hv hx

theorem variantsAny_cons {β γ : Type} {fs : FieldsD β} {vs : VariantsD γ} {ds : Bool} {At : Rt → β → Prop}
    {At' : Rt → γ → Prop} (tag : U32) (cached : Bool) (hf : FieldsAny fs ds At) (hv : VariantsAny vs ds At') :
    VariantsAny (variantsCons tag cached fs vs) ds (sumAt tag At At') where
  ctor_some := by
    intro hds tag' rt v hc
    simp only [variantsCons] at hc
    split at hc
    · next ht => cases hc; subst ht; exact ⟨hf.init_some hds _, rfl⟩
    · cases hx : vs.ctor tag' (some (rt.nested tag')) with
      | none => rw [hx] at hc; cases hc
      | some y => rw [hx] at hc; cases hc; exact hv.ctor_some hds tag' rt y hx
  ctor_none := by
    intro hds tag' rt v hc
    simp only [variantsCons] at hc
    split at hc
    · next ht => cases hc; exact hf.init_none hds _
    · cases hx : vs.ctor tag' none with
      | none => rw [hx] at hc; cases hc
      | some y => rw [hx] at hc; cases hc; exact hv.ctor_none hds tag' rt y hx
  indep := by
    intro hds rt rt' v h
    cases v with
    | inl x => exact hf.indep hds _ _ x h
    | inr x => exact hv.indep hds _ _ x h
  merge := by
    intro m rt v bs h
    cases v with
    | inl x =>
      simp only [variantsCons]
      rcases hf.mergeAll (rt.nested tag) m x bs h with ⟨v', rest, h1, h2⟩ | ⟨v', e, h1, h2, h3⟩
      · exact .inl ⟨.inl v', rest, by rw [h1]; rfl, h2, rfl⟩
      · exact .inr ⟨.inl v', e, by rw [h1]; rfl, ⟨h2, rfl⟩, h3⟩
    | inr x =>
      simp only [variantsCons]
      rcases hv.merge m rt x bs h with ⟨v', rest, h1, h2, h3⟩ | ⟨v', e, h1, ⟨h2, h3⟩, h4⟩
      · exact .inl ⟨.inr v', rest, by rw [h1]; rfl, h2, h3⟩
      · exact .inr ⟨.inr v', e, by rw [h1]; rfl, ⟨h2, h3⟩, h4⟩
  merge_all := by
    intro m v bs v' rest hm
    cases v with
    | inl x =>
      simp only [variantsCons] at hm
      cases hx : fs.merge m x bs with
      | ok v'' r => rw [hx] at hm; cases hm; exact untilEof_ok_nil hx
      | err v'' e => rw [hx] at hm; cases hm
    | inr x =>
      simp only [variantsCons] at hm
      cases hx : vs.mergeFields m x bs with
      | ok v'' r => rw [hx] at hm; cases hm; exact hv.merge_all m x bs v'' _ hx
      | err v'' e => rw [hx] at hm; cases hm
  set := by
    intro hds rt rt' v h
    cases v with
    | inl x => exact ⟨hf.set hds _ _ x h, rfl⟩
    | inr x => exact hv.set hds rt rt' x h
  handle := by
    intro hds m rt v path kind key bs h
    cases v with
    | inl x =>
      simp only [variantsCons]
      rcases variantHandle_any hf hds m (rt.nested tag) x path kind key bs h with ⟨v', rest, h1, h2⟩ | ⟨v', e, h1, h2, h3⟩
      · exact .inl ⟨.inl v', rest, by rw [h1]; rfl, h2, rfl⟩
      · exact .inr ⟨.inl v', e, by rw [h1]; rfl, ⟨h2, rfl⟩, h3⟩
    | inr x =>
      simp only [variantsCons]
      rcases hv.handle hds m rt x path kind key bs h with ⟨v', rest, h1, h2, h3⟩ | ⟨v', e, h1, ⟨h2, h3⟩, h4⟩
      · exact .inl ⟨.inr v', rest, by rw [h1]; rfl, h2, h3⟩
      · exact .inr ⟨.inr v', e, by rw [h1]; rfl, ⟨h2, h3⟩, h4⟩

/-- Address of an enum. -/
def enumAt {γ : Type} (vs : VariantsD γ) (ds : Bool) (At : Rt → γ → Prop) (rt : Rt) (v : EnumV γ) : Prop :=
  (ds = true → v.rt = rt.nested (vs.tagOf v.val)) ∧ At rt v.val

section
variable {γ : Type} {vs : VariantsD γ} {ds : Bool} {At : Rt → γ → Prop}

theorem enumMerge_any (h : VariantsAny vs ds At) (m : Mode) (rt : Rt) (v : EnumV γ) (bs : Bytes)
    (hv : enumAt vs ds At rt v) :
    (∃ v' rest, enumMerge ds vs m v bs = .ok v' rest ∧ enumAt vs ds At rt v') ∨
    (∃ v' e, enumMerge ds vs m v bs = .err v' e ∧ enumAt vs ds At rt v' ∧ ErrOk m bs e) := by
  unfold enumMerge
  cases hg : getVarint m 32 bs with
  | error e => exact .inr ⟨_, _, rfl, hv, (readsVarint_uint m (by decide)).err hg⟩
  | ok tr =>
    obtain ⟨tag, r⟩ := tr
    obtain ⟨c, rfl, hc⟩ := (readsVarint_uint m (by decide)).ok hg
    have hsuf : r <:+: c ++ r := (List.suffix_append _ _).isInfix
    simp only
    split
    · rcases h.merge m rt v.val r hv.2 with ⟨v', rest, h1, h2, h3⟩ | ⟨v', e, h1, ⟨h2, h3⟩, h4⟩
      · exact .inl ⟨⟨v.rt, v'⟩, rest, by rw [h1]; rfl, fun hd => by rw [h3]; exact hv.1 hd, h2⟩
      · exact .inr ⟨⟨v.rt, v'⟩, e, by rw [h1]; rfl, ⟨fun hd => by rw [h3]; exact hv.1 hd, h2⟩, h4.mono hsuf⟩
    · cases ds with
      | true =>
        simp only [if_true]
        rw [hv.1 rfl, Rt.parent_nested]
        simp only
        cases hx : vs.ctor tag (some (rt.nested tag)) with
        | none => exact .inr ⟨_, _, rfl, hv, .inr (.inl rfl)⟩
        | some val =>
          obtain ⟨g1, g2⟩ := h.ctor_some rfl tag rt val hx
          rcases h.merge m rt val r g1 with ⟨v', rest, h1, h2, h3⟩ | ⟨v', e, h1, ⟨h2, h3⟩, h4⟩
          · exact .inl ⟨⟨rt.nested tag, v'⟩, rest, by simp only [h1]; rfl, fun _ => by rw [h3, g2], h2⟩
          · exact .inr ⟨⟨rt.nested tag, v'⟩, e, by simp only [h1]; rfl, ⟨fun _ => by rw [h3, g2], h2⟩, h4.mono hsuf⟩
      | false =>
        simp only [Bool.false_eq_true, if_false]
        cases hx : vs.ctor tag none with
        | none => exact .inr ⟨_, _, rfl, hv, .inr (.inl rfl)⟩
        | some val =>
          rcases h.merge m rt val r (h.ctor_none rfl tag rt val hx) with ⟨v', rest, h1, h2, h3⟩ | ⟨v', e, h1, ⟨h2, h3⟩, h4⟩
          · exact .inl ⟨⟨v.rt, v'⟩, rest, by simp only [h1]; rfl, nofun, h2⟩
          · exact .inr ⟨⟨v.rt, v'⟩, e, by simp only [h1]; rfl, ⟨nofun, h2⟩, h4.mono hsuf⟩

theorem enumMerge_all (h : VariantsAny vs ds At) (m : Mode) (v : EnumV γ) (bs : Bytes) (v' : EnumV γ) (rest : Bytes)
    (hm : enumMerge ds vs m v bs = .ok v' rest) : rest = [] := by
  have key : ∀ {val : γ} {r : Bytes} {f : γ → EnumV γ}, (vs.mergeFields m val r).map f = .ok v' rest → rest = [] := by
    intro val r f hx
    cases hy : vs.mergeFields m val r with
    | ok v'' r' => rw [hy] at hx; cases hx; exact h.merge_all _ _ _ _ _ hy
    | err v'' e => rw [hy] at hx; cases hx
  unfold enumMerge at hm
  split at hm
  · cases hm
  · split at hm
    · exact key hm
    · split at hm
      · split at hm
        · split at hm <;> cases hm
        · split at hm
          · cases hm
          · exact key hm
      · split at hm
        · cases hm
        · exact key hm

theorem anyLaw_enum {dfltVal : Option Rt → γ} (h : VariantsAny vs ds At)
    (h0 : ∀ rt, vs.ctor 0#32 rt = some (dfltVal rt)) :
    AnyLaw (enumDict ds vs dfltVal) ds (enumAt vs ds At) := by
  cases ds with
  | false =>
    refine (anyLaw_plain (P := enumAt vs false At Rt.dflt) ?_ ?_ ?_).congr rfl ?_
    · exact ⟨nofun, h.ctor_none rfl 0#32 _ _ (h0 none)⟩
    · intro m v bs hv
      exact enumMerge_any h m Rt.dflt v bs hv
    · intro m v bs v' rest hm
      exact enumMerge_all h m v bs v' rest hm
    · funext rt v
      exact propext ⟨fun hv => ⟨nofun, h.indep rfl _ _ _ hv.2⟩, fun hv => ⟨nofun, h.indep rfl _ _ _ hv.2⟩⟩
  | true =>
    have hnew : ∀ rt : Rt, enumAt vs true At rt ⟨rt.nested 0#32, dfltVal (some (rt.nested 0#32))⟩ := by
      intro rt
      obtain ⟨g1, g2⟩ := h.ctor_some rfl 0#32 rt _ (h0 (some (rt.nested 0#32)))
      exact ⟨fun _ => by rw [g2], g1⟩
    exact
      { dflt_eq := rfl
        at_new := hnew
        merge := enumMerge_any h
        sized_all := fun _ m v bs v' rest hm => enumMerge_all h m v bs v' rest hm
        varint := fun h => by cases h
        at_set := by
          intro rt rt' v hv
          obtain ⟨g1, g2⟩ := h.set rfl rt rt' v.val hv.2
          exact ⟨fun _ => congrArg rt'.nested g2.symm, g1⟩
        handle := by
          intro _ m rt v path kind key bs hv
          show (∃ v' rest, enumHandle vs dfltVal m v path kind key bs = .ok v' rest ∧ _) ∨
            (∃ v' e, enumHandle vs dfltVal m v path kind key bs = .err v' e ∧ _)
          unfold enumHandle
          cases path with
          | nil =>
            simp only
            split
            · unfold enumHandleUpdate
              rw [hv.1 rfl, Rt.parent_nested]
              simp only
              exact enumMerge_any h m rt _ bs (hnew rt)
            · exact .inr ⟨_, _, rfl, hv, .inr (.inl rfl)⟩
          | cons n path =>
            simp only
            split
            · rcases h.handle rfl m rt v.val path kind key bs hv.2 with ⟨v', rest, h1, h2, h3⟩ | ⟨v', e, h1, ⟨h2, h3⟩, h4⟩
              · exact .inl ⟨⟨v.rt, v'⟩, rest, by rw [h1]; rfl, fun hd => by rw [h3]; exact hv.1 hd, h2⟩
              · exact .inr ⟨⟨v.rt, v'⟩, e, by rw [h1]; rfl, ⟨fun hd => by rw [h3]; exact hv.1 hd, h2⟩, h4⟩
            · exact .inr ⟨_, _, rfl, hv, .inr (.inl rfl)⟩ }

end

end Steit
