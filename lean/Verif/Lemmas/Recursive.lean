import Verif.Lemmas.RecursiveDerive

/-! # Unrollings of recursive declarations -/

namespace Steit
open Spec

/-! ## Equality -/

section
variable {α β κ κ' : Type} {R : α → β → Prop} {K : κ → κ' → Prop}

theorem itemsEq_same {eq : α → α → Bool} {eq' : β → β → Bool} (he : ∀ a b a' b', R a a' → R b b' → eq a b = eq' a' b') :
    ∀ {xs ys : List α} {xs' ys' : List β}, SameItems R xs xs' → SameItems R ys ys' → itemsEq eq xs ys = itemsEq eq' xs' ys'
  | [], [], [], [], _, _ => rfl
  | [], _ :: _, [], _ :: _, _, _ => rfl
  | _ :: _, [], _ :: _, [], _, _ => rfl
  | _ :: _, _ :: _, _ :: _, _ :: _, hx, hy => by
    rw [itemsEq, itemsEq, he _ _ _ _ hx.1 hy.1, itemsEq_same he hx.2 hy.2]

theorem find_same {S : κ × α → κ' × β → Prop} {p : κ × α → Bool} {q : κ' × β → Bool} (hp : ∀ x y, S x y → p x = q y) :
    ∀ {xs : List (κ × α)} {ys : List (κ' × β)}, SameItems S xs ys → SameOption S (xs.find? p) (ys.find? q)
  | [], [], _ => trivial
  | x :: xs, y :: ys, h => by
    rw [List.find?_cons, List.find?_cons, hp x y h.1]
    cases q y
    · exact find_same hp h.2
    · exact h.1

theorem all_same {α β : Type} {R : α → β → Prop} {p : α → Bool} {q : β → Bool} (hp : ∀ x y, R x y → p x = q y) :
    ∀ {xs : List α} {ys : List β}, SameItems R xs ys → xs.all p = ys.all q
  | [], [], _ => rfl
  | x :: xs, y :: ys, h => by rw [List.all_cons, List.all_cons, hp x y h.1, all_same hp h.2]

theorem entriesEq_same {eqk : κ → κ → Bool} {eqk' : κ' → κ' → Bool} {eqv : α → α → Bool} {eqv' : β → β → Bool}
    (hk : ∀ a b a' b', K a a' → K b b' → eqk a b = eqk' a' b') (hv : ∀ a b a' b', R a a' → R b b' → eqv a b = eqv' a' b')
    {xs ys : List (κ × α)} {xs' ys' : List (κ' × β)} (hx : SameItems (SamePair K R) xs xs') (hy : SameItems (SamePair K R) ys ys') :
    entriesEq eqk eqv xs ys = entriesEq eqk' eqv' xs' ys' := by
  unfold entriesEq
  rw [sameItems_length hx, sameItems_length hy]
  congr 1
  refine all_same (R := SamePair K R) ?_ hx
  intro e e' he
  have hf := find_same (S := SamePair K R) (p := fun x => eqk x.1 e.1) (q := fun x => eqk' x.1 e'.1)
    (fun x y hxy => hk _ _ _ _ hxy.1 he.1) hy
  cases ha : ys.find? (fun x => eqk x.1 e.1) <;> cases hb : ys'.find? (fun x => eqk' x.1 e'.1) <;> rw [ha, hb] at hf
  · exact absurd hf (by simp [SameOption])
  · exact absurd hf (by simp [SameOption])
  · exact hv _ _ _ _ he.2 hf.2

end

section
variable {A B : Nat → Ty} {P : ∀ i, (A i).El → (B i).El → Prop}

mutual
theorem RTy.eq_same (hP : ∀ i x y x' y', P i x x' → P i y y' → (A i).eq x y = (B i).eq x' y') : (t : RTy) →
    ∀ x y x' y', RTy.Same P t x x' → RTy.Same P t y y' → (t.fill A).eq x y = (t.fill B).eq x' y'
  | .named i, x, y, x', y', hx, hy => hP i x y x' y' hx hy
  | .uint _, x, y, x', y', hx, hy => by cases hx; cases hy; rfl
  | .sint _, x, y, x', y', hx, hy => by cases hx; cases hy; rfl
  | .bool, x, y, x', y', hx, hy => by cases hx; cases hy; rfl
  | .string, x, y, x', y', hx, hy => by cases hx; cases hy; rfl
  | .bytes, x, y, x', y', hx, hy => by cases hx; cases hy; rfl
  | .vec t, x, y, x', y', hx, hy => itemsEq_same (RTy.eq_same hP t) hx hy
  | .array _ t, x, y, x', y', hx, hy => itemsEq_same (RTy.eq_same hP t) hx hy
  | .tuple ts, x, y, x', y', hx, hy => RTys.eq_same hP ts x y x' y' hx hy
  | .option t, x, y, x', y', hx, hy => by
    have hx : SameOption (RTy.Same P t) x x' := hx
    have hy : SameOption (RTy.Same P t) y y' := hy
    show optionEq _ x y = optionEq _ x' y'
    cases x <;> cases x' <;> simp only [SameOption] at hx <;> cases y <;> cases y' <;> simp only [SameOption] at hy <;> try rfl
    exact RTy.eq_same hP t _ _ _ _ hx hy
  | .box t, x, y, x', y', hx, hy => RTy.eq_same hP t x y x' y' hx hy
  | .hashMap k v, x, y, x', y', hx, hy => entriesEq_same (RTy.eq_same hP k) (RTy.eq_same hP v) hx hy
  | .list t, x, y, x', y', hx, hy => itemsEq_same (RTy.eq_same hP t) hx.2 hy.2
  | .map _ t, x, y, x', y', hx, hy =>
    entriesEq_same (K := Eq) (fun a b a' b' h h' => by cases h; cases h'; rfl) (RTy.eq_same hP t) hx.2 hy.2
  | .struct _ _ fs, x, y, x', y', hx, hy => RFields.eq_same hP fs _ _ _ _ hx.2 hy.2
  | .enum _ _ fs vs, x, y, x', y', hx, hy => by
    have hx : SameSum (RFields.Same P fs) (RVariants.Same P vs) x.val x'.val := hx.2
    have hy : SameSum (RFields.Same P fs) (RVariants.Same P vs) y.val y'.val := hy.2
    obtain ⟨_, x⟩ := x
    obtain ⟨_, x'⟩ := x'
    obtain ⟨_, y⟩ := y
    obtain ⟨_, y'⟩ := y'
    cases x <;> cases x' <;> simp only [SameSum] at hx <;> cases y <;> cases y' <;> simp only [SameSum] at hy <;> try rfl
    · exact RFields.eq_same hP fs _ _ _ _ hx hy
    · exact RVariants.eq_same hP vs _ _ _ _ hx hy

theorem RTys.eq_same (hP : ∀ i x y x' y', P i x x' → P i y y' → (A i).eq x y = (B i).eq x' y') : (ts : RTys) →
    ∀ x y x' y', RTys.Same P ts x x' → RTys.Same P ts y y' → (ts.fill A).eq x y = (ts.fill B).eq x' y'
  | .nil, _, _, _, _, _, _ => rfl
  | .cons t ts, x, y, x', y', hx, hy => by
    show (_ && _) = (_ && _)
    rw [RTy.eq_same hP t _ _ _ _ hx.1 hy.1, RTys.eq_same hP ts _ _ _ _ hx.2 hy.2]

theorem RFields.eq_same (hP : ∀ i x y x' y', P i x x' → P i y y' → (A i).eq x y = (B i).eq x' y') : (fs : RFields) →
    ∀ x y x' y', RFields.Same P fs x x' → RFields.Same P fs y y' → (fs.fill A).eq x y = (fs.fill B).eq x' y'
  | .nil, _, _, _, _, _, _ => rfl
  | .cons _ attrs t fs, x, y, x', y', hx, hy => by
    show ((attrs.noEqHash || _) && _) = ((attrs.noEqHash || _) && _)
    rw [RTy.eq_same hP t _ _ _ _ hx.1 hy.1, RFields.eq_same hP fs _ _ _ _ hx.2 hy.2]

theorem RVariants.eq_same (hP : ∀ i x y x' y', P i x x' → P i y y' → (A i).eq x y = (B i).eq x' y') : (vs : RVariants) →
    ∀ x y x' y', RVariants.Same P vs x x' → RVariants.Same P vs y y' → (vs.fill A).eq x y = (vs.fill B).eq x' y'
  | .nil, x, _, _, _, _, _ => nomatch x
  | .cons _ _ fs vs, x, y, x', y', hx, hy => by
    have hx : SameSum (RFields.Same P fs) (RVariants.Same P vs) x x' := hx
    have hy : SameSum (RFields.Same P fs) (RVariants.Same P vs) y y' := hy
    cases x <;> cases x' <;> simp only [SameSum] at hx <;> cases y <;> cases y' <;> simp only [SameSum] at hy <;> try rfl
    · exact RFields.eq_same hP fs _ _ _ _ hx hy
    · exact RVariants.eq_same hP vs _ _ _ _ hx hy
end

/-! ## Default values -/

mutual
theorem RTy.dflt_same : (t : RTy) → t.guarded = true →
    RTy.Same P t (t.fill A).dict.dflt (t.fill B).dict.dflt ∧
      ∀ rt, RTy.Same P t ((t.fill A).dict.withRuntime rt) ((t.fill B).dict.withRuntime rt)
  | .named _, h => by simp [RTy.guarded] at h
  | .uint _, _ => ⟨rfl, fun _ => rfl⟩
  | .sint _, _ => ⟨rfl, fun _ => rfl⟩
  | .bool, _ => ⟨rfl, fun _ => rfl⟩
  | .string, _ => ⟨rfl, fun _ => rfl⟩
  | .bytes, _ => ⟨rfl, fun _ => rfl⟩
  | .vec _, _ => ⟨trivial, fun _ => trivial⟩
  | .array n t, h => by
    have ht := RTy.dflt_same t (by simpa [RTy.guarded] using h)
    exact ⟨sameItems_replicate ht.1 n, fun _ => sameItems_replicate ht.1 n⟩
  | .tuple ts, h => by
    have ht := RTys.dflt_same ts (by simpa [RTy.guarded] using h)
    exact ⟨ht, fun _ => ht⟩
  | .option _, _ => ⟨trivial, fun _ => trivial⟩
  | .box t, h => RTy.dflt_same t (by simpa [RTy.guarded] using h)
  | .hashMap _ _, _ => ⟨trivial, fun _ => trivial⟩
  | .list _, _ => ⟨⟨rfl, trivial⟩, fun _ => ⟨rfl, trivial⟩⟩
  | .map _ _, _ => ⟨⟨rfl, trivial⟩, fun _ => ⟨rfl, trivial⟩⟩
  | .struct ds cached fs, h => by
    have hf := RFields.init_same fs (by simpa [RTy.guarded] using h) ds
    cases ds with
    | false => exact ⟨⟨rfl, hf none⟩, fun _ => ⟨rfl, hf none⟩⟩
    | true => exact ⟨⟨rfl, hf _⟩, fun rt => ⟨rfl, hf _⟩⟩
  | .enum ds cached fs vs, h => by
    have hf := RFields.init_same fs (by simpa [RTy.guarded] using h) ds
    cases ds with
    | false => exact ⟨⟨rfl, hf none⟩, fun _ => ⟨rfl, hf none⟩⟩
    | true => exact ⟨⟨rfl, hf _⟩, fun rt => ⟨rfl, hf _⟩⟩

theorem RTys.dflt_same : (ts : RTys) → ts.guarded = true → RTys.Same P ts (ts.fill A).dict.dflt (ts.fill B).dict.dflt
  | .nil, _ => trivial
  | .cons t ts, h => by
    simp only [RTys.guarded, Bool.and_eq_true] at h
    exact ⟨(RTy.dflt_same t h.1).1, RTys.dflt_same ts h.2⟩

theorem RFields.init_same : (fs : RFields) → fs.guarded = true → (ds : Bool) → ∀ rt,
    RFields.Same P fs (((fs.fill A).dict ds).init rt) (((fs.fill B).dict ds).init rt)
  | .nil, _, _, _ => trivial
  | .cons tag attrs t fs, h, ds, rt => by
    simp only [RFields.guarded, Bool.and_eq_true] at h
    refine ⟨?_, RFields.init_same fs h.2 ds rt⟩
    have ht := RTy.dflt_same t h.1
    cases rt with
    | none => exact ht.1
    | some rt =>
      show RTy.Same P t (match some rt, ds && !attrs.noState with
        | some rt, true => (t.fill A).dict.withRuntime (rt.nested tag)
        | _, _ => (t.fill A).dict.dflt) (match some rt, ds && !attrs.noState with
        | some rt, true => (t.fill B).dict.withRuntime (rt.nested tag)
        | _, _ => (t.fill B).dict.dflt)
      cases ds && !attrs.noState
      · exact ht.1
      · exact ht.2 _
end

/-! ## All implementations -/

section
variable {j : Nat} (hP : ∀ i, Rel (P i) j (A i).dict (B i).dict)
  (hE : ∀ i x y x' y', P i x x' → P i y y' → (A i).eq x y = (B i).eq x' y')

set_option linter.unusedSectionVars false
include hP hE

mutual
theorem RTy.rel : (t : RTy) → Rel (RTy.Same P t) j (t.fill A).dict (t.fill B).dict
  | .named i => hP i
  | .uint w => uint_rel w j
  | .sint w => sint_rel w j
  | .bool => bool_rel j
  | .string => sized_rel (string_rel j) rfl
  | .bytes => sized_rel (bytes_rel j) rfl
  | .vec t => sized_rel ((vec_rel (RTy.rel t)).mono (Nat.le_succ j)) rfl
  | .array n t => sized_rel (array_rel n (RTy.rel t)) rfl
  | .tuple ts => sized_rel (tuple_rel (RTys.rel ts)) rfl
  | .option t => sized_rel ((option_rel (RTy.rel t)).mono (Nat.le_succ j)) rfl
  | .box t => box_rel (RTy.rel t)
  | .hashMap k v => sized_rel ((hashMap_rel (RTy.eq_same hE k) (RTy.rel k) (RTy.rel v)).mono (Nat.le_succ j)) rfl
  | .list t => sized_rel ((list_rel (RTy.rel t)).mono (Nat.le_succ j)) rfl
  | .map k t => sized_rel ((map_rel k (RTy.rel t)).mono (Nat.le_succ j)) rfl
  | .struct ds cached fs => by
    have h := RFields.rel fs ds
    exact sized_rel (struct_rel ds cached h (Nat.le_succ j) h.init) (by cases ds <;> rfl)
  | .enum ds cached fs vs => by
    have h := RFields.rel fs ds
    have hi : 1 ≤ j → ∀ rt, SameSum (RFields.Same P fs) (RVariants.Same P vs) (.inl (((fs.fill A).dict ds).init rt))
        (.inl (((fs.fill B).dict ds).init rt)) := h.init
    exact sized_rel (enum_rel ds (variantsCons_rel 0#32 cached h (RVariants.rel vs ds)) (Nat.le_succ j) hi) (by cases ds <;> rfl)

theorem RTys.rel : (ts : RTys) → TupleRel (RTys.Same P ts) j (ts.fill A).dict (ts.fill B).dict
  | .nil => tupleNil_rel j
  | .cons t ts => tupleCons_rel (RTy.rel t) (RTys.rel ts)

theorem RFields.rel : (fs : RFields) → (ds : Bool) → FieldsRel (RFields.Same P fs) j ((fs.fill A).dict ds) ((fs.fill B).dict ds)
  | .nil, _ => fieldsNil_rel j
  | .cons tag attrs t fs, ds => fieldsCons_rel ds tag attrs (RTy.rel t) (RFields.rel fs ds)

theorem RVariants.rel : (vs : RVariants) → (ds : Bool) →
    VariantsRel (RVariants.Same P vs) j ((vs.fill A).dict ds) ((vs.fill B).dict ds)
  | .nil, _ => variantsNil_rel j
  | .cons tag cached fs vs, ds => variantsCons_rel tag cached (RFields.rel fs ds) (RVariants.rel vs ds)
end

/-- A message that can be built on its own is related one level above the messages it mentions. -/
theorem RTy.rel_message : (t : RTy) → t.isMessage = true → t.guarded = true →
    Rel (RTy.Same P t) (j + 1) (t.fill A).dict (t.fill B).dict
  | .struct ds cached fs, _, hg =>
    sized_rel (struct_rel ds cached (RFields.rel hP hE fs ds) (Nat.le_refl _)
      fun _ => RFields.init_same fs (by simpa [RTy.guarded] using hg) ds) (by cases ds <;> rfl)
  | .enum ds cached fs vs, _, hg => by
    have hi : 1 ≤ j + 1 → ∀ rt, SameSum (RFields.Same P fs) (RVariants.Same P vs) (.inl (((fs.fill A).dict ds).init rt))
        (.inl (((fs.fill B).dict ds).init rt)) := 
      fun _ rt => RFields.init_same fs (by simpa [RTy.guarded] using hg) ds rt
    exact sized_rel (enum_rel ds (variantsCons_rel 0#32 cached (RFields.rel hP hE fs ds) (RVariants.rel hP hE vs ds))
      (Nat.le_refl _) hi) (by cases ds <;> rfl)

end

end

end Steit
