import Verif.Lemmas.Follow
import Verif.Lemmas.Setter
import Verif.Lemmas.RevisionFollow

/-! # An entry that says something about one object says what it does to any other it can be applied to -/

namespace Steit
open Spec

/-- Where the entry, which some object's history has, is applied, it says what happened. -/
def Says (t : Ty) : Prop :=
  ∀ a e a', Carried t a → Means t a e a' → ∀ m r rt r' rest, At t rt r → applyE (t.dict.handle m) r e = .ok r' rest → Means t r e r'

theorem says_whole {t : Ty} (ht : t.WF) (hst : t.isState = true) {x : t.El} (hx : Sendable t x) {m : Mode} {rt : Rt} {r r' : t.El} {rest : Bytes}
    (hr : At t rt r) (h : t.dict.handle m r [] .update none (encode t x) = .ok r' rest) :
    encode t x = encode t r' ∧ Sendable t r' := by
  obtain ⟨y, rest', h1, h2⟩ := follow_update ht hst m hr hx none
  rw [h] at h1
  cases h1
  exact ⟨(encode_same h2).symm, sendable_same h2 hx⟩

theorem says_fresh {t : Ty} (ht : t.WF) {x : t.El} (hx : Sendable t x) {m : Mode} {rt : Rt} {r' : t.El} {rest : Bytes}
    (h : t.dict.merge m (t.dict.withRuntime rt) (encode t x) = .ok r' rest) : encode t x = encode t r' ∧ Sendable t r' := by
  obtain ⟨y, rest', h1, h2⟩ := follow_fresh ht m rt hx
  rw [h] at h1
  cases h1
  exact ⟨(encode_same h2).symm, sendable_same h2 hx⟩

theorem says_of {t : Ty} (ht : t.WF) (hst : t.isState = true)
    (h : ∀ a e a', Carried t a → Inside t a e a' → ∀ m r rt r' rest, At t rt r → applyE (t.dict.handle m) r e = .ok r' rest → Means t r e r') : Says t := by
  intro a e a' hc hm m r rt r' rest hr hh
  rcases hm with ⟨rfl, hx⟩ | hm
  · obtain ⟨h1, h2⟩ := says_whole ht hst hx hr hh
    exact .inl ⟨by rw [h1], h2⟩
  · exact h a e a' hc hm m r rt r' rest hr hh

theorem says_list {t : Ty} (ht : (Ty.list t).WF) (ih : Says t) : Says (.list t) := by
  refine says_of ht rfl ?_
  intro a e a' hc hm m r rt r' rest hr hh
  rcases hm with ⟨x, hx, rfl, -⟩ | ⟨-, rfl, -⟩ | ⟨i, x, e', x', hi, hx, hm, rfl, -⟩
  · change listHandle t.dict m r [] .listPush none (encode t x) = _ at hh
    simp only [listHandle] at hh
    cases hf : t.dict.merge m (t.dict.withRuntime (r.rt.nested (fieldNo r.items.length))) (encode t x) with
    | err _ _ => rw [hf] at hh; cases hh
    | ok y rest' =>
      rw [hf] at hh
      cases hh
      obtain ⟨h1, h2⟩ := says_fresh ht.2 hx hf
      exact .inr (.inl ⟨y, h2, by rw [h1], rfl⟩)
  · change listHandle t.dict m r [] .listPop none [] = _ at hh
    simp only [listHandle] at hh
    by_cases hne : r.items = []
    · rw [if_pos hne] at hh; cases hh
    · rw [if_neg hne] at hh
      cases hh
      exact .inr (.inr (.inl ⟨hne, rfl, rfl⟩))
  · have key : ∀ path kind key bs, listHandle t.dict m r (fieldNo i :: path) kind key bs = .ok r' rest →
        ∃ y y', r.items[i]? = some y ∧ r' = { r with items := r.items.set i y' } ∧ t.dict.handle m y path kind key bs = .ok y' rest := by
      intro path kind key bs h
      simp only [listHandle, fieldNo_toNat hi] at h
      cases hy : r.items[i]? with
      | none => rw [hy] at h; cases h
      | some y =>
        rw [hy] at h
        obtain ⟨y', h1, rfl⟩ := Res.map_ok h
        exact ⟨y, y', rfl, rfl, h1⟩
    have h1 : ∃ y y', r.items[i]? = some y ∧ r' = { r with items := r.items.set i y' } ∧ applyE (t.dict.handle m) y e' = .ok y' rest := by
      cases e' <;> exact key _ _ _ _ hh
    obtain ⟨y, y', hy, rfl, h2⟩ := h1
    exact .inr (.inr (.inr ⟨i, y, e', y', hi, hy, ih _ _ _ (hc x (List.mem_of_getElem? hx)) hm m y _ y' rest (hr.2 i y hy) h2, rfl, rfl⟩))

theorem insideVariant_root : (vs : Variants) → ∀ {x x' : vs.El} {b : Bytes}, ¬ InsideVariant vs x (.update [] b) x'
  | .nil, _, _, _ => id
  | .cons tag cached fs vs, .inl x, .inl x', b => by
    rintro ⟨e', h, -⟩
    cases e' <;> cases h
  | .cons tag cached fs vs, .inr x, .inr x', b => insideVariant_root vs (x := x) (x' := x')
  | .cons tag cached fs vs, .inl x, .inr x', b => id
  | .cons tag cached fs vs, .inr x, .inl x', b => id

/-- Entries for the whole object are not about something inside it. -/
theorem inside_root : (t : Ty) → ∀ {x x' : t.El} {b : Bytes}, ¬ Inside t x (.update [] b) x'
  | .uint _, _, _, _ => id
  | .sint _, _, _, _ => id
  | .bool, _, _, _ => id
  | .string, _, _, _ => id
  | .bytes, _, _, _ => id
  | .vec _, _, _, _ => id
  | .array _ _, _, _, _ => id
  | .tuple _, _, _, _ => id
  | .option _, _, _, _ => id
  | .hashMap _ _, _, _, _ => id
  | .box t, _, _, _ => inside_root t
  | .list t, _, _, _ => by
    rintro (⟨x, -, h, -⟩ | ⟨-, h, -⟩ | ⟨i, x, e', x', -, -, -, h, -⟩)
    · cases h
    · cases h
    · cases e' <;> cases h
  | .map kt t, _, _, _ => by
    rintro (⟨k, x, -, -, -, h, -⟩ | ⟨k, -, -, h, -⟩ | ⟨k, x, e', x', -, -, h, -⟩)
    · cases h
    · cases h
    · cases e' <;> cases h
  | .struct false _ _, _, _, _ => id
  | .struct true _ fs, _, _, _ => fun h => by
    obtain ⟨tag, -, p, hp⟩ := headed_inside fs h
    cases hp
  | .enum false _ _ _, _, _, _ => id
  | .enum true cached fs vs, x, x', b => fun h => by
    rw [inside_enum] at h
    exact insideVariant_root (allVariants cached fs vs) h

theorem says_map {t : Ty} {kt : KeyTy} (ht : (Ty.map kt t).WF) (ih : Says t) : Says (.map kt t) := by
  refine says_of ht rfl ?_
  intro a e a' hc hm m r rt r' rest hr hh
  rcases hm with ⟨k, x, hk, hk', hx, rfl, -⟩ | ⟨k, -, -, rfl, -⟩ | ⟨k, x, e', x', hx, hm, rfl, -⟩
  · change mapHandle kt t.dict m r [k] .update none (encode t x) = _ at hh
    simp only [mapHandle] at hh
    cases hy : entriesGet k r.entries with
    | some y =>
      rw [hy] at hh
      obtain ⟨y', h1, rfl⟩ := Res.map_ok hh
      obtain ⟨h2, h3⟩ := says_whole ht.2 ht.1 hx (hr.2.2 _ (entriesGet_mem hy)) h1
      exact .inr (.inl ⟨k, y', hk, hk', h3, by rw [h2], rfl⟩)
    | none =>
      rw [hy] at hh
      simp only [and_self, if_true] at hh
      cases hf : t.dict.merge m (t.dict.withRuntime (r.rt.nested k)) (encode t x) with
      | err _ _ => rw [hf] at hh; cases hh
      | ok y rest' =>
        rw [hf] at hh
        cases hh
        obtain ⟨h1, h2⟩ := says_fresh ht.2 hx hf
        exact .inr (.inl ⟨k, y, hk, hk', h2, by rw [h1], rfl⟩)
  · change mapHandle kt t.dict m r [] .mapRemove (some k) [] = _ at hh
    simp only [mapHandle] at hh
    cases hy : entriesGet k r.entries with
    | none => rw [hy] at hh; cases hh
    | some y =>
      rw [hy] at hh
      cases hh
      exact .inr (.inr (.inl ⟨k, List.mem_map.2 ⟨_, entriesGet_mem hy, rfl⟩, hr.2.1, rfl, rfl⟩))
  · cases hy : entriesGet k r.entries with
    | some y =>
      have key : ∀ path kind key bs, mapHandle kt t.dict m r (k :: path) kind key bs = .ok r' rest →
          ∃ y', r' = { r with entries := entriesInsert k y' r.entries } ∧ t.dict.handle m y path kind key bs = .ok y' rest := by
        intro path kind key bs h
        simp only [mapHandle, hy] at h
        obtain ⟨y', h1, rfl⟩ := Res.map_ok h
        exact ⟨y', rfl, h1⟩
      have h1 : ∃ y', r' = { r with entries := entriesInsert k y' r.entries } ∧ applyE (t.dict.handle m) y e' = .ok y' rest := by
        cases e' <;> exact key _ _ _ _ hh
      obtain ⟨y', rfl, h2⟩ := h1
      exact .inr (.inr (.inr ⟨k, y, e', y', hy, ih _ _ _ (hc.1 _ (entriesGet_mem hx)).2.2 hm m y _ y' rest (hr.2.2 _ (entriesGet_mem hy)) h2, rfl, rfl⟩))
    | none =>
      have key : ∀ path kind key bs, mapHandle kt t.dict m r (k :: path) kind key bs = .ok r' rest → kind = .update ∧ path = [] := by
        intro path kind key bs h
        by_cases hu : kind = .update ∧ path = []
        · exact hu
        · simp only [mapHandle, hy, if_neg hu] at h
          cases h
      have h1 : ∃ b, e' = .update [] b := by
        cases e' with
        | update q b => obtain ⟨-, rfl⟩ := key _ _ _ _ hh; exact ⟨b, rfl⟩
        | listPush q b => exact nomatch (key _ _ _ _ hh).1
        | listPop q => exact nomatch (key _ _ _ _ hh).1
        | mapRemove q j => exact nomatch (key _ _ _ _ hh).1
      obtain ⟨b, rfl⟩ := h1
      rcases hm with ⟨h2, h3⟩ | hm
      · cases h2
        change mapHandle kt t.dict m r [k] .update none (encode t x') = _ at hh
        simp only [mapHandle, hy, and_self, if_true] at hh
        cases hf : t.dict.merge m (t.dict.withRuntime (r.rt.nested k)) (encode t x') with
        | err _ _ => rw [hf] at hh; cases hh
        | ok y rest' =>
          rw [hf] at hh
          cases hh
          obtain ⟨h4, h5⟩ := says_fresh ht.2 h3 hf
          have hk := hc.1 _ (entriesGet_mem hx)
          exact .inr (.inl ⟨k, y, hk.1, hk.2.1, h5, by rw [h4]; rfl, rfl⟩)
      · exact absurd hm (inside_root t)

/-! ### Fields -/

/-- As `Says`, for the fields of a message. -/
def SaysFields (fs : Fields) : Prop :=
  ∀ a e a', CarriedFields fs a → InsideFields fs a e a' → ∀ m r rt r' rest, AtFields fs true rt r →
    applyE (variantHandle (fs.dict true) m) r e = .ok r' rest → InsideFields fs r e r'

theorem says_fields_cons {tag : U32} {attrs : FieldAttrs} {t : Ty} {fs : Fields} (hnew : tag ∉ fs.tags) (iht : attrs.noState = false → Says t)
    (ihf : SaysFields fs) : SaysFields (.cons tag attrs t fs) := by
  intro a e a' hc hm m r rt r' rest hr hh
  rcases hm with ⟨hn, -, e', hm, rfl⟩ | ⟨-, hm⟩
  · have hr1 : At t (rt.nested tag) r.1 := by
      have := hr.1
      simpa [hn] using this
    have key : ∀ path kind key bs, variantHandle ((Fields.cons tag attrs t fs).dict true) m r (tag :: path) kind key bs = .ok r' rest →
        ∃ y, r' = (y, r.2) ∧ t.dict.handle m r.1 path kind key bs = .ok y rest := by
      intro path kind key bs h
      simp only [variantHandle, Fields.dict, fieldsCons, if_true, hn, Bool.not_false, Bool.and_self] at h
      obtain ⟨y, h1, rfl⟩ := Res.map_ok h
      exact ⟨y, rfl, h1⟩
    have h1 : ∃ y, r' = (y, r.2) ∧ applyE (t.dict.handle m) r.1 e' = .ok y rest := by
      cases e' <;> exact key _ _ _ _ hh
    obtain ⟨y, rfl, h2⟩ := h1
    exact .inl ⟨hn, rfl, e', iht hn _ _ _ hc.1 hm m _ _ _ rest hr1 h2, rfl⟩
  · obtain ⟨tag', hmem, p, hp⟩ := headed_inside fs hm
    have hne : tag' ≠ tag := fun h => hnew (h ▸ hmem)
    have key : ∀ path kind key bs, variantHandle ((Fields.cons tag attrs t fs).dict true) m r (tag' :: path) kind key bs = .ok r' rest →
        ∃ y, r' = (r.1, y) ∧ variantHandle (fs.dict true) m r.2 (tag' :: path) kind key bs = .ok y rest := by
      intro path kind key bs h
      simp only [variantHandle, Fields.dict, fieldsCons, if_neg hne] at h ⊢
      cases hf : (fs.dict true).handleField m tag' r.2 path kind key bs with
      | none => rw [hf] at h; cases h
      | some res =>
        rw [hf] at h
        obtain ⟨y, rfl, rfl⟩ := Res.map_ok h
        exact ⟨y, rfl, rfl⟩
    have h1 : ∃ y, r' = (r.1, y) ∧ applyE (variantHandle (fs.dict true) m) r.2 e = .ok y rest := by
      cases e <;> cases hp <;> exact key _ _ _ _ hh
    obtain ⟨y, rfl, h2⟩ := h1
    exact .inr ⟨rfl, ihf _ _ _ hc.2 hm m _ _ _ rest hr.2 h2⟩

theorem says_struct {cached : Bool} {fs : Fields} (ht : (Ty.struct true cached fs).WF) (ih : SaysFields fs) :
    Says (.struct true cached fs) := by
  refine says_of ht rfl ?_
  intro a e a' hc hm m r rt r' rest hr hh
  obtain ⟨tag', hmem, p, hp⟩ := headed_inside fs hm
  have key : ∀ path kind key bs, structHandle (fs.dict true) m r (tag' :: path) kind key bs = .ok r' rest →
      ∃ y, r' = { r with fields := y } ∧ variantHandle (fs.dict true) m r.fields (tag' :: path) kind key bs = .ok y rest := by
    intro path kind key bs h
    simp only [variantHandle, structHandle] at h ⊢
    cases hf : (fs.dict true).handleField m tag' r.fields path kind key bs with
    | none => rw [hf] at h; cases h
    | some res =>
      rw [hf] at h
      obtain ⟨y, rfl, rfl⟩ := Res.map_ok h
      exact ⟨y, rfl, rfl⟩
  have h1 : ∃ y, r' = { r with fields := y } ∧ applyE (variantHandle (fs.dict true) m) r.fields e = .ok y rest := by
    cases e <;> cases hp <;> exact key _ _ _ _ hh
  obtain ⟨y, rfl, h2⟩ := h1
  exact .inr (ih _ _ _ hc hm m _ _ _ rest hr.2 h2)

/-! ### Enums -/

/-- As `Says`, for the variants of an enum. -/
def SaysVariants (vs : Variants) : Prop :=
  ∀ a e a', CarriedVariant vs a → InsideVariant vs a e a' → ∃ e', e = under [(vs.dict true).tagOf a] e' ∧
    ∀ m r rt r' rest, VarAt vs true rt r → (vs.dict true).tagOf r = (vs.dict true).tagOf a →
      applyE ((vs.dict true).handleFields m) r e' = .ok r' rest → InsideVariant vs r e r'

theorem says_variants_cons {tag : U32} {cached : Bool} {fs : Fields} {vs : Variants} (hnew : tag ∉ vs.tags) (ihf : SaysFields fs)
    (ihv : SaysVariants vs) : SaysVariants (.cons tag cached fs vs) := by
  intro a e a' hc hm
  rcases a with a | a <;> rcases a' with a' | a'
  · obtain ⟨e', rfl, hm⟩ := hm
    refine ⟨e', rfl, ?_⟩
    intro m r rt r' rest hr htag hh
    rcases r with r | r
    · have key : ∀ path kind key bs, ((Variants.cons tag cached fs vs).dict true).handleFields m (.inl r) path kind key bs = .ok r' rest →
          ∃ y, r' = .inl y ∧ variantHandle (fs.dict true) m r path kind key bs = .ok y rest := by
        intro path kind key bs h
        obtain ⟨y, h1, rfl⟩ := Res.map_ok (show (variantHandle (fs.dict true) m r path kind key bs).map Sum.inl = _ from h)
        exact ⟨y, rfl, h1⟩
      have h1 : ∃ y, r' = .inl y ∧ applyE (variantHandle (fs.dict true) m) r e' = .ok y rest := by
        cases e' <;> exact key _ _ _ _ hh
      obtain ⟨y, rfl, h2⟩ := h1
      exact ⟨e', rfl, ihf _ _ _ hc hm m _ _ _ rest hr h2⟩
    · exact absurd (show tag ∈ vs.tags from (show (vs.dict true).tagOf r = tag from htag) ▸ tagOf_mem' vs r) hnew
  · exact nomatch hm
  · exact nomatch hm
  · obtain ⟨e', he, h5⟩ := ihv a e a' hc hm
    refine ⟨e', he, ?_⟩
    intro m r rt r' rest hr htag hh
    rcases r with r | r
    · exact absurd (show tag ∈ vs.tags from (show tag = (vs.dict true).tagOf a from htag) ▸ tagOf_mem' vs a) hnew
    · have key : ∀ path kind key bs, ((Variants.cons tag cached fs vs).dict true).handleFields m (.inr r) path kind key bs = .ok r' rest →
          ∃ y, r' = .inr y ∧ (vs.dict true).handleFields m r path kind key bs = .ok y rest := by
        intro path kind key bs h
        obtain ⟨y, h1, rfl⟩ := Res.map_ok (show ((vs.dict true).handleFields m r path kind key bs).map Sum.inr = _ from h)
        exact ⟨y, rfl, h1⟩
      have h1 : ∃ y, r' = .inr y ∧ applyE ((vs.dict true).handleFields m) r e' = .ok y rest := by
        cases e' <;> exact key _ _ _ _ hh
      obtain ⟨y, rfl, h2⟩ := h1
      exact h5 m r rt y rest hr htag h2

theorem says_enum {cached : Bool} {fs : Fields} {vs : Variants} (ht : (Ty.enum true cached fs vs).WF)
    (ih : SaysVariants (allVariants cached fs vs)) : Says (.enum true cached fs vs) := by
  refine says_of ht rfl ?_
  intro a e a' hc hm m r rt r' rest hr hh
  rw [inside_enum] at hm
  have hc' : CarriedVariant (allVariants cached fs vs) a.val := by
    rcases a with ⟨_, x | x⟩ <;> exact hc
  obtain ⟨e', rfl, h5⟩ := ih _ _ _ hc' hm
  have key : ∀ d path kind key bs, enumHandle ((allVariants cached fs vs).dict true) d m r
      (((allVariants cached fs vs).dict true).tagOf a.val :: path) kind key bs = .ok r' rest →
      ((allVariants cached fs vs).dict true).tagOf r.val = ((allVariants cached fs vs).dict true).tagOf a.val ∧
      ∃ y, r' = { r with val := y } ∧ ((allVariants cached fs vs).dict true).handleFields m r.val path kind key bs = .ok y rest := by
    intro d path kind key bs h
    simp only [enumHandle] at h
    by_cases htag : ((allVariants cached fs vs).dict true).tagOf a.val = ((allVariants cached fs vs).dict true).tagOf r.val
    · rw [if_pos htag] at h
      obtain ⟨y, h1, rfl⟩ := Res.map_ok h
      exact ⟨htag.symm, y, rfl, h1⟩
    · rw [if_neg htag] at h; cases h
  have h1 : ((allVariants cached fs vs).dict true).tagOf r.val = ((allVariants cached fs vs).dict true).tagOf a.val ∧
      ∃ y, r' = { r with val := y } ∧ applyE (((allVariants cached fs vs).dict true).handleFields m) r.val e' = .ok y rest := by
    cases e' <;> exact key (fun rt => .inl ((fs.dict true).init rt)) _ _ _ _ hh
  obtain ⟨htag, y, rfl, h2⟩ := h1
  exact .inr (inside_enum.2 (h5 m r.val rt y rest ((at_enum_iff cached fs vs rt r).1 hr).2 htag h2))

mutual
theorem says_ty : (t : Ty) → t.WF → t.isState = true → Says t
  | .uint _, ht, hs => says_of ht hs (fun _ _ _ _ h => nomatch h)
  | .sint _, ht, hs => says_of ht hs (fun _ _ _ _ h => nomatch h)
  | .bool, ht, hs => says_of ht hs (fun _ _ _ _ h => nomatch h)
  | .string, _, hs => nomatch hs
  | .bytes, _, hs => nomatch hs
  | .vec _, _, hs => nomatch hs
  | .array _ _, _, hs => nomatch hs
  | .tuple _, _, hs => nomatch hs
  | .option _, _, hs => nomatch hs
  | .hashMap _ _, _, hs => nomatch hs
  | .struct false _ _, _, hs => nomatch hs
  | .enum false _ _ _, _, hs => nomatch hs
  | .box t, ht, hs => says_ty t ht hs
  | .list t, ht, _ => says_list ht (says_ty t ht.2 ht.1)
  | .map _ t, ht, _ => says_map ht (says_ty t ht.2 ht.1)
  | .struct true _ fs, ht, _ => says_struct ht (says_fields fs ht.2 ht.1)
  | .enum true _ fs vs, ht, _ =>
    says_enum ht (says_variants_cons ht.2.2.2.1 (says_fields fs ht.2.1 ht.1) (says_variants vs ht.2.2.2.2 ht.2.2.1))

theorem says_fields : (fs : Fields) → fs.WF true → fs.tags.Nodup → SaysFields fs
  | .nil, _, _ => fun _ _ _ _ h => nomatch h
  | .cons _ _ t fs, hf, hn =>
    says_fields_cons (List.nodup_cons.1 hn).1 (fun hs => says_ty t hf.2.2.1 (hf.2.1 (by simp [hs])))
      (says_fields fs hf.2.2.2 (List.nodup_cons.1 hn).2)

theorem says_variants : (vs : Variants) → vs.WF true → vs.tags.Nodup → SaysVariants vs
  | .nil, _, _ => fun _ _ _ _ h => nomatch h
  | .cons _ _ fs vs, hv, hn => says_variants_cons (List.nodup_cons.1 hn).1 (says_fields fs hv.2.2.1 hv.2.1)
    (says_variants vs hv.2.2.2 (List.nodup_cons.1 hn).2)
end

/-- Every entry of a history says something about some object. -/
theorem steps_said {t : Ty} {es : List Entry} : ∀ {v v' : t.El}, Carried t v → Steps (Means t) v es v' →
    ∀ e ∈ es, ∃ a a', Carried t a ∧ Means t a e a' := by
  induction es with
  | nil => exact fun _ _ _ h => nomatch h
  | cons e es ih =>
    rintro v v' hc ⟨u, h1, h2⟩ x hx
    rcases List.mem_cons.1 hx with rfl | hx
    · exact ⟨v, u, hc, h1⟩
    · exact ih (means_carried h1 hc) h2 x hx

/-- A log of such entries that can be replayed is a history. -/
theorem steps_of_applies {t : Ty} (ht : t.WF) (hst : t.isState = true) {m : Mode} {rt : Rt} : ∀ {es : List Entry} {r r' : t.El},
    (∀ e ∈ es, ∃ a a', Carried t a ∧ Means t a e a') → At t rt r → Applies (t.dict.handle m) r es r' → Steps (Means t) r es r'
  | [], _, _, _, _, h => h
  | e :: es, r, r', he, hr, h => by
    obtain ⟨r1, rest, h1, h2⟩ := h
    obtain ⟨a, a', hc, hm⟩ := he e (List.mem_cons_self ..)
    exact ⟨r1, says_ty t ht hst a e a' hc hm m r rt r1 rest hr h1,
      steps_of_applies ht hst (fun x hx => he x (List.mem_cons_of_mem _ hx)) (applies_at ht hst hr (es := [e]) ⟨r1, rest, h1, rfl⟩) h2⟩

end Steit
