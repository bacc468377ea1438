import Verif.Lemmas.RedoTy

/-! # The same write once more goes through -/

namespace Steit
open Spec

mutual
theorem againTy : (t : Ty) → t.WF → t.isState = true → ∀ m rt v w v1, At t rt v → stepD t.dict m v w = some v1 →
    ∃ v2, stepD t.dict m v1 w = some v2
  | .uint _, _, _, m, rt, v, w, v1, hv, h => again_prim m v v1 w h
  | .sint _, _, _, m, rt, v, w, v1, hv, h => again_prim m v v1 w h
  | .bool, _, _, m, rt, v, w, v1, hv, h => again_prim m v v1 w h
  | .box t, ht, hs, m, rt, v, w, v1, hv, h => againTy t ht hs m rt v w v1 hv h
  | .list t, ht, hs, m, rt, v, (p, b), v1, hv, h => by
    have hv1 := keeps_at ht hs v _ v1 hv h
    cases p with
    | nil => exact ⟨v1, by rw [whole_write _ ht hs m rt _ b hv] at h; rw [whole_write _ ht hs m rt _ b hv1, h]⟩
    | cons k p =>
      obtain ⟨r, h⟩ := stepD_ok.1 h
      change listHandle t.dict m v (k :: p) .update none b = _ at h
      simp only [listHandle] at h
      split at h
      · next x hx =>
        obtain ⟨y, h3, rfl⟩ := Res.map_ok h
        obtain ⟨z, h4⟩ := againTy t ht.2 ht.1 m _ x (p, b) y (hv.2 _ _ hx) (stepD_ok.2 ⟨r, h3⟩)
        obtain ⟨r', h4⟩ := stepD_ok.1 h4
        have hget : (v.items.set k.toNat y)[k.toNat]? = some y := List.getElem?_set_self (List.getElem?_eq_some_iff.1 hx).1
        refine ⟨⟨v.rt, (v.items.set k.toNat y).set k.toNat z⟩, stepD_ok.2 ⟨r', ?_⟩⟩
        show listHandle t.dict m ⟨v.rt, v.items.set k.toNat y⟩ (k :: p) .update none b = _
        simp only [listHandle, hget, h4]
        rfl
      · cases h
  | .map kt t, ht, hs, m, rt, v, (p, b), v1, hv, h => by
    have hv1 := keeps_at ht hs v _ v1 hv h
    cases p with
    | nil => exact ⟨v1, by rw [whole_write _ ht hs m rt _ b hv] at h; rw [whole_write _ ht hs m rt _ b hv1, h]⟩
    | cons k p =>
      obtain ⟨r, h⟩ := stepD_ok.1 h
      change mapHandle kt t.dict m v (k :: p) .update none b = _ at h
      have put : ∀ y z, v1 = { v with entries := entriesInsert k y v.entries } → stepD t.dict m y (p, b) = some z →
          ∃ v2, stepD (Ty.map kt t).dict m v1 (k :: p, b) = some v2 := by
        intro y z he h4
        subst he
        obtain ⟨r', h4⟩ := stepD_ok.1 h4
        refine ⟨⟨v.rt, entriesInsert k z (entriesInsert k y v.entries)⟩, stepD_ok.2 ⟨r', ?_⟩⟩
        show mapHandle kt t.dict m ⟨v.rt, entriesInsert k y v.entries⟩ (k :: p) .update none b = _
        simp only [mapHandle, entriesGet_insert, h4]
        rfl
      simp only [mapHandle] at h
      split at h
      · next x hx =>
        obtain ⟨y, h3, he⟩ := Res.map_ok h
        obtain ⟨z, h4⟩ := againTy t ht.2 ht.1 m _ x (p, b) y (hv.2.2 _ (entriesGet_mem hx)) (stepD_ok.2 ⟨r, h3⟩)
        exact put y z he h4
      · next hx =>
        split at h
        · next hp =>
          obtain ⟨-, hp⟩ := hp
          subst hp
          rename stepD _ _ _ _ = _ => hd
          clear hd
          split at h
          · next y r' hm =>
            cases h
            have hy : At t (rt.nested k) y := by
              have hr : v.rt = rt := hv.1
              rcases (anyLaw t ht.2).merge m (rt.nested k) _ b ((anyLaw t ht.2).at_new _) with ⟨x', r'', h3, h4⟩ | ⟨x', e, h3, h4⟩
              · rw [← hr, hm] at h3; cases h3; exact h4
              · rw [← hr, hm] at h3; cases h3
            refine put y y rfl ?_
            rw [whole_write t ht.2 ht.1 m (rt.nested k) y b hy]
            have hr : v.rt = rt := hv.1
            rw [← hr, hm]
            rfl
          · cases h
        · cases h
  | .struct true cached fs, ht, hs, m, rt, v, (p, b), v1, hv, h => by
    have hv1 := keeps_at ht hs v _ v1 hv h
    cases p with
    | nil => exact ⟨v1, by rw [whole_write _ ht hs m rt _ b hv] at h; rw [whole_write _ ht hs m rt _ b hv1, h]⟩
    | cons k p =>
      obtain ⟨r, h⟩ := stepD_ok.1 h
      change structHandle (fs.dict true) m v (k :: p) .update none b = _ at h
      simp only [structHandle] at h
      split at h
      · next r' hr' =>
        obtain ⟨x, rfl, rfl⟩ := Res.map_ok h
        obtain ⟨y, h4⟩ := againFields fs ht.2 m rt v.fields (k :: p, b) x hv.2 (stepF_ok.2 ⟨_, hr'⟩)
        obtain ⟨r'', h4⟩ := stepF_ok.1 h4
        refine ⟨⟨v.rt, y⟩, stepD_ok.2 ⟨r'', ?_⟩⟩
        show structHandle (fs.dict true) m ⟨v.rt, x⟩ (k :: p) .update none b = _
        simp only [structHandle, h4]
        rfl
      · cases h
  | .enum true cached fs vs, ht, hs, m, rt, v, (p, b), v1, hv, h => by
    have hv1 := keeps_at ht hs v _ v1 hv h
    cases p with
    | nil => exact ⟨v1, by rw [whole_write _ ht hs m rt _ b hv] at h; rw [whole_write _ ht hs m rt _ b hv1, h]⟩
    | cons k p =>
      obtain ⟨r, h⟩ := stepD_ok.1 h
      change enumHandle (variantsCons 0#32 cached (fs.dict true) (vs.dict true)) (fun rt => .inl ((fs.dict true).init rt)) m v (k :: p) .update none b = _ at h
      simp only [enumHandle] at h
      split at h
      · next hk =>
        obtain ⟨x, h3, rfl⟩ := Res.map_ok h
        have : ∃ y, stepV (variantsCons 0#32 cached (fs.dict true) (vs.dict true)) m x (p, b) = some y ∧
            (variantsCons 0#32 cached (fs.dict true) (vs.dict true)).tagOf x = (variantsCons 0#32 cached (fs.dict true) (vs.dict true)).tagOf v.val := by
          refine again_sum (I := AtFields fs true (rt.nested 0#32)) (J := AtVariant vs true rt v.rt) (againFields fs ht.2.1 m (rt.nested 0#32))
            (againVariants vs ht.2.2.2.2 m rt v.rt) v.val (p, b) x ?_ (stepV_ok.2 ⟨r, h3⟩)
          obtain ⟨r, val⟩ := v
          cases val with
          | inl x => exact hv.2
          | inr x => exact hv
        obtain ⟨y, h4, htag⟩ := this
        obtain ⟨r', h4⟩ := stepV_ok.1 h4
        refine ⟨⟨v.rt, y⟩, stepD_ok.2 ⟨r', ?_⟩⟩
        show enumHandle (variantsCons 0#32 cached (fs.dict true) (vs.dict true)) (fun rt => .inl ((fs.dict true).init rt)) m ⟨v.rt, x⟩ (k :: p) .update none b = _
        simp only [enumHandle, htag, if_pos hk, h4]
        rfl
      · cases h

theorem againFields : (fs : Fields) → fs.WF true → ∀ m rt v w v1, AtFields fs true rt v → stepF (fs.dict true) m v w = some v1 →
    ∃ v2, stepF (fs.dict true) m v1 w = some v2
  | _, _, _, _, _, ([], _), _, _, h => by cases h
  | .nil, _, m, rt, v, (k :: p, b), v1, _, h => by
    obtain ⟨r, h⟩ := stepF_ok.1 h
    cases h
  | .cons tag attrs t fs, ht, m, rt, v, (k :: p, b), v1, hv, h => by
    obtain ⟨r, h⟩ := stepF_ok.1 h
    by_cases hk : k = tag
    · by_cases hn : attrs.noState = true
      · refine ⟨v1, stepF_ok.2 ⟨r, ?_⟩⟩
        simp [Fields.dict, fieldsCons, hk, hn] at h ⊢
        exact h.2
      · have hn : attrs.noState = false := by simpa using hn
        simp [Fields.dict, fieldsCons, hk, hn] at h
        obtain ⟨y, h3, rfl⟩ := Res.map_ok h
        have hv' : At t (rt.nested tag) v.1 := by
          have := hv.1
          simpa [hn] using this
        obtain ⟨z, h4⟩ := againTy t ht.2.2.1 (ht.2.1 (by simp [hn])) m _ v.1 (p, b) y hv' (stepD_ok.2 ⟨r, h3⟩)
        obtain ⟨r', h4⟩ := stepD_ok.1 h4
        refine ⟨(z, v.2), stepF_ok.2 ⟨r', ?_⟩⟩
        simp [Fields.dict, fieldsCons, hk, hn, h4]
        rfl
    · simp only [Fields.dict, fieldsCons, if_neg hk, Option.map_eq_some_iff] at h
      obtain ⟨r', h3, h4⟩ := h
      obtain ⟨y, rfl, rfl⟩ := Res.map_ok h4
      obtain ⟨z, h5⟩ := againFields fs ht.2.2.2 m rt v.2 (k :: p, b) y hv.2 (stepF_ok.2 ⟨_, h3⟩)
      obtain ⟨r'', h5⟩ := stepF_ok.1 h5
      refine ⟨(v.1, z), stepF_ok.2 ⟨r'', ?_⟩⟩
      simp only [Fields.dict, fieldsCons, if_neg hk, h5]
      rfl

theorem againVariants : (vs : Variants) → vs.WF true → ∀ m rt own v w v1, AtVariant vs true rt own v → stepV (vs.dict true) m v w = some v1 →
    ∃ v2, stepV (vs.dict true) m v1 w = some v2 ∧ (vs.dict true).tagOf v1 = (vs.dict true).tagOf v
  | .nil, _, _, _, _, v, _, _, _, _ => nomatch v
  | .cons tag cached fs vs, ht, m, rt, own, v, w, v1, hv, h => by
    refine again_sum (I := AtFields fs true (rt.nested tag)) (J := AtVariant vs true rt own) (againFields fs ht.2.2.1 m (rt.nested tag))
      (againVariants vs ht.2.2.2 m rt own) v w v1 ?_ h
    cases v with
    | inl x => exact hv.2
    | inr x => exact hv
end

end Steit
