import Verif.Lemmas.AlikeCs

/-! # An update a client has applied can be applied again -/

namespace Steit
open Spec

variable {ρ : Bytes → Str}

/-- What works, works again. -/
def Again {β : Type} (f : β → Except Exn β) : Prop := ∀ v v1, f v = .ok v1 → ∃ v2, f v1 = .ok v2

theorem Again.descend {β : Type} {P : β → Except Exn β} {B : U32 → List U32 → β → Except Exn β} (hP : Again P) (hB : ∀ k p, Again (B k p))
    (path : List U32) : Again (descend P B path) := by
  cases path with
  | nil => exact hP
  | cons k p => exact hB k p

theorem Except.bind_ok {α β : Type} {x : Except Exn α} {f : α → β} {y : β} (h : (do
    let a ← x
    .ok (f a)) = Except.ok (ε := Exn) y) : ∃ a, x = .ok a ∧ f a = y := by
  cases x with
  | error e => cases h
  | ok a => cases h; exact ⟨a, rfl, rfl⟩

theorem replaceAt_again : (fs : Fields) → ∀ tag wire bs (c : fs.Cs) r, fs.csReplaceAt ρ tag wire bs c = .ok r → ∀ c' : fs.Cs,
    ∃ r', fs.csReplaceAt ρ tag wire bs c' = .ok r'
  | .nil, tag, wire, bs, c, r, h, c' => by
    simp only [Fields.csReplaceAt] at h ⊢
    obtain ⟨a, ha, _⟩ := Except.bind_ok h
    rw [ha]
    exact ⟨_, rfl⟩
  | .cons tag' _ t fs, tag, wire, bs, c, r, h, c' => by
    simp only [Fields.csReplaceAt] at h ⊢
    by_cases hk : tag = tag'
    · rw [if_pos hk] at h ⊢
      obtain ⟨a, ha, _⟩ := Except.bind_ok h
      rw [ha]
      exact ⟨_, rfl⟩
    · rw [if_neg hk] at h ⊢
      obtain ⟨a, ha, _⟩ := Except.bind_ok h
      obtain ⟨r', hr⟩ := replaceAt_again fs tag wire bs c.2 a ha c'.2
      rw [hr]
      exact ⟨_, rfl⟩

theorem performFields_again (fs : Fields) (tag : U32) (b : Bytes) : Again (fs.csPerform ρ (.update tag b)) := by
  intro v v1 h
  simp only [Fields.csPerform] at h ⊢
  cases hw : fs.csGetWireType tag with
  | none => exact ⟨v1, rfl⟩
  | some wire =>
    rw [hw] at h
    obtain ⟨a, ha, _⟩ := Except.bind_ok h
    obtain ⟨r', hr⟩ := replaceAt_again fs tag wire b v a ha v1
    simp only [hr]
    exact ⟨_, rfl⟩

theorem perform_again : (t : Ty) → ∀ tag b, Again (t.csPerform ρ (.update tag b))
  | .box t, tag, b => perform_again t tag b
  | .list t, tag, b => by
    intro v v1 h
    simp only [Ty.csPerform] at h ⊢
    split at h
    · cases h
    · next hl =>
      obtain ⟨a, ha, rfl⟩ := Except.bind_ok h
      rw [List.length_set, if_neg hl, ha]
      exact ⟨_, rfl⟩
  | .map kt t, tag, b => by
    intro v v1 h
    simp only [Ty.csPerform] at h ⊢
    obtain ⟨a, ha, rfl⟩ := Except.bind_ok h
    rw [ha]
    exact ⟨_, rfl⟩
  | .struct _ _ fs, tag, b => performFields_again fs tag b
  | .enum ds cached fs vs, tag, b => by
    intro v v1 h
    simp only [Ty.csPerform] at h ⊢
    split
    · next hk =>
      rw [if_pos hk] at h
      obtain ⟨a, ha, rfl⟩ := Except.bind_ok h
      rw [ha]
      exact ⟨_, rfl⟩
    · next hk =>
      rw [if_neg hk] at h
      cases hv : vs.csVariant ρ tag b with
      | error e => rw [hv] at h; cases h
      | ok o => cases o <;> exact ⟨_, rfl⟩
  | .uint _, _, _ => fun _ v1 _ => ⟨v1, rfl⟩
  | .sint _, _, _ => fun _ v1 _ => ⟨v1, rfl⟩
  | .bool, _, _ => fun _ v1 _ => ⟨v1, rfl⟩
  | .string, _, _ => fun _ v1 _ => ⟨v1, rfl⟩
  | .bytes, _, _ => fun _ v1 _ => ⟨v1, rfl⟩
  | .vec _, _, _ => fun _ v1 _ => ⟨v1, rfl⟩
  | .array _ _, _, _ => fun _ v1 _ => ⟨v1, rfl⟩
  | .tuple _, _, _ => fun _ v1 _ => ⟨v1, rfl⟩
  | .option _, _, _ => fun _ v1 _ => ⟨v1, rfl⟩
  | .hashMap _ _, _, _ => fun _ v1 _ => ⟨v1, rfl⟩

mutual
theorem below_again : (t : Ty) → ∀ tag b k p, Again (t.csBelow ρ (.update tag b) k p)
  | .box t, tag, b, k, p => by
    intro v v1 h
    rw [Ty.csBelow] at h ⊢
    exact below_again t tag b k p v v1 h
  | .list t, tag, b, k, p => by
    intro v v1 h
    simp only [Ty.csBelow] at h ⊢
    split
    · next hs =>
      rw [if_pos hs] at h
      cases hx : v[k.toNat]? with
      | none =>
        rw [hx] at h
        cases h
        rw [hx]
        exact ⟨_, rfl⟩
      | some x =>
        rw [hx] at h
        obtain ⟨a, ha, rfl⟩ := Except.bind_ok h
        obtain ⟨a', ha'⟩ := Again.descend (perform_again t tag b) (below_again t tag b) p x a ha
        have := (List.getElem?_eq_some_iff.1 hx).1
        rw [List.getElem?_set_self this]
        simp only
        rw [ha']
        exact ⟨_, rfl⟩
    · exact ⟨_, rfl⟩
  | .map _ t, tag, b, k, p => by
    intro v v1 h
    simp only [Ty.csBelow] at h ⊢
    split
    · next hs =>
      rw [if_pos hs] at h
      cases hx : v.lookup k with
      | none =>
        rw [hx] at h
        cases h
        rw [hx]
        exact ⟨_, rfl⟩
      | some x =>
        rw [hx] at h
        obtain ⟨a, ha, rfl⟩ := Except.bind_ok h
        obtain ⟨a', ha'⟩ := Again.descend (perform_again t tag b) (below_again t tag b) p x a ha
        have : (dictPut k a v).lookup k = some a := by rw [lookup_dictPut, if_pos rfl, hx]; rfl
        rw [this]
        simp only
        rw [ha']
        exact ⟨_, rfl⟩
    · exact ⟨_, rfl⟩
  | .struct _ _ fs, tag, b, k, p => by
    intro v v1 h
    rw [Ty.csBelow] at h ⊢
    exact belowFields_again fs tag b k p v v1 h
  | .enum _ _ fs vs, tag, b, k, p => by
    intro v v1 h
    simp only [Ty.csBelow] at h
    cases v with
    | inl x =>
      simp only at h
      by_cases hk : k = 0#32
      · rw [if_pos hk] at h
        obtain ⟨a, ha, rfl⟩ := Except.bind_ok h
        obtain ⟨a', ha'⟩ := Again.descend (performFields_again fs tag b) (belowFields_again fs tag b) p x a ha
        simp only [Ty.csBelow, if_pos hk]
        rw [ha']
        exact ⟨_, rfl⟩
      · rw [if_neg hk] at h
        cases h
        simp only [Ty.csBelow, if_neg hk]
        exact ⟨_, rfl⟩
    | inr x =>
      obtain ⟨a, ha, rfl⟩ := Except.bind_ok h
      obtain ⟨a', ha'⟩ := belowVariants_again vs tag b k p x a ha
      simp only [Ty.csBelow]
      rw [ha']
      exact ⟨_, rfl⟩
  | .uint _, _, _, _, _ => fun _ v1 _ => ⟨v1, rfl⟩
  | .sint _, _, _, _, _ => fun _ v1 _ => ⟨v1, rfl⟩
  | .bool, _, _, _, _ => fun _ v1 _ => ⟨v1, rfl⟩
  | .string, _, _, _, _ => fun _ v1 _ => ⟨v1, rfl⟩
  | .bytes, _, _, _, _ => fun _ v1 _ => ⟨v1, rfl⟩
  | .vec _, _, _, _, _ => fun _ v1 _ => ⟨v1, rfl⟩
  | .array _ _, _, _, _, _ => fun _ v1 _ => ⟨v1, rfl⟩
  | .tuple _, _, _, _, _ => fun _ v1 _ => ⟨v1, rfl⟩
  | .option _, _, _, _, _ => fun _ v1 _ => ⟨v1, rfl⟩
  | .hashMap _ _, _, _, _, _ => fun _ v1 _ => ⟨v1, rfl⟩

theorem belowFields_again : (fs : Fields) → ∀ tag b k p, Again (fs.csBelow ρ (.update tag b) k p)
  | .nil, _, _, _, _ => fun _ v1 _ => ⟨v1, rfl⟩
  | .cons tag' _ t fs, tag, b, k, p => by
    intro v v1 h
    simp only [Fields.csBelow] at h ⊢
    by_cases hk : k = tag'
    · rw [if_pos hk] at h ⊢
      by_cases hs : t.isCsState = true
      · rw [if_pos hs] at h ⊢
        obtain ⟨a, ha, rfl⟩ := Except.bind_ok h
        obtain ⟨a', ha'⟩ := Again.descend (perform_again t tag b) (below_again t tag b) p v.1 a ha
        simp only
        rw [ha']
        exact ⟨_, rfl⟩
      · rw [if_neg hs]
        exact ⟨_, rfl⟩
    · rw [if_neg hk] at h ⊢
      obtain ⟨a, ha, rfl⟩ := Except.bind_ok h
      obtain ⟨a', ha'⟩ := belowFields_again fs tag b k p v.2 a ha
      simp only
      rw [ha']
      exact ⟨_, rfl⟩

theorem belowVariants_again : (vs : Variants) → ∀ tag b k p, Again (vs.csBelow ρ (.update tag b) k p)
  | .nil, _, _, _, _ => fun _ v1 _ => ⟨v1, rfl⟩
  | .cons tag' _ fs vs, tag, b, k, p => by
    intro v v1 h
    simp only [Variants.csBelow] at h
    cases v with
    | inl x =>
      simp only at h
      by_cases hk : k = tag'
      · rw [if_pos hk] at h
        obtain ⟨a, ha, rfl⟩ := Except.bind_ok h
        obtain ⟨a', ha'⟩ := Again.descend (performFields_again fs tag b) (belowFields_again fs tag b) p x a ha
        simp only [Variants.csBelow, if_pos hk]
        rw [ha']
        exact ⟨_, rfl⟩
      · rw [if_neg hk] at h
        cases h
        simp only [Variants.csBelow, if_neg hk]
        exact ⟨_, rfl⟩
    | inr x =>
      obtain ⟨a, ha, rfl⟩ := Except.bind_ok h
      obtain ⟨a', ha'⟩ := belowVariants_again vs tag b k p x a ha
      simp only [Variants.csBelow]
      rw [ha']
      exact ⟨_, rfl⟩
end

theorem entry_again (t : Ty) (path : List U32) (b : Bytes) : Again fun c => t.csReplayEntry ρ c (.update path b) := by
  intro v v1 h
  simp only [Ty.csReplayEntry] at h ⊢
  cases hl : path.getLast? with
  | none => rw [hl] at h; exact ⟨v1, h⟩
  | some tag =>
    rw [hl] at h
    exact Again.descend (perform_again t tag b) (below_again t tag b) path.dropLast v v1 h

end Steit
