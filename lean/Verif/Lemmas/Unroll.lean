import Verif.Lemmas.RecursiveOps
import Verif.Lemmas.EntryWeight

/-! # Unrollings: levels, values, calls, logs -/

namespace Steit
open Spec

/-! ## The same value: symmetric, transitive, one to one -/

section
variable {α β γ : Type} {R : α → β → Prop}

theorem sameItems_symm {Q : β → α → Prop} (h : ∀ x y, R x y → Q y x) : ∀ {xs ys}, SameItems R xs ys → SameItems Q ys xs
  | [], [], _ => trivial
  | _ :: _, _ :: _, hx => ⟨h _ _ hx.1, sameItems_symm h hx.2⟩

theorem sameOption_symm {Q : β → α → Prop} (h : ∀ x y, R x y → Q y x) : ∀ {xs ys}, SameOption R xs ys → SameOption Q ys xs
  | none, none, _ => trivial
  | some _, some _, hx => h _ _ hx

theorem sameItems_trans {Q : β → γ → Prop} {T : α → γ → Prop} (h : ∀ x y z, R x y → Q y z → T x z) :
    ∀ {xs ys zs}, SameItems R xs ys → SameItems Q ys zs → SameItems T xs zs
  | [], [], [], _, _ => trivial
  | _ :: _, _ :: _, _ :: _, hx, hy => ⟨h _ _ _ hx.1 hy.1, sameItems_trans h hx.2 hy.2⟩

theorem sameOption_trans {Q : β → γ → Prop} {T : α → γ → Prop} (h : ∀ x y z, R x y → Q y z → T x z) :
    ∀ {xs ys zs}, SameOption R xs ys → SameOption Q ys zs → SameOption T xs zs
  | none, none, none, _, _ => trivial
  | some _, some _, some _, hx, hy => h _ _ _ hx hy

theorem sameItems_inj (h : ∀ x y x' y', R x y → R x' y' → (x = x' ↔ y = y')) :
    ∀ {xs ys xs' ys'}, SameItems R xs ys → SameItems R xs' ys' → (xs = xs' ↔ ys = ys')
  | [], [], [], [], _, _ => by simp
  | [], [], _ :: _, _ :: _, _, _ => by simp
  | _ :: _, _ :: _, [], [], _, _ => by simp
  | _ :: _, _ :: _, _ :: _, _ :: _, hx, hy => by
    rw [List.cons.injEq, List.cons.injEq, h _ _ _ _ hx.1 hy.1, sameItems_inj h hx.2 hy.2]

theorem sameOption_inj (h : ∀ x y x' y', R x y → R x' y' → (x = x' ↔ y = y')) :
    ∀ {xs ys xs' ys'}, SameOption R xs ys → SameOption R xs' ys' → (xs = xs' ↔ ys = ys')
  | none, none, none, none, _, _ => by simp
  | none, none, some _, some _, _, _ => by simp
  | some _, some _, none, none, _, _ => by simp
  | some _, some _, some _, some _, hx, hy => by
    rw [Option.some.injEq, Option.some.injEq, h _ _ _ _ hx hy]

theorem sameItems_grow {Q : α → γ → Prop} {T : α → α → Prop} (h : ∀ x, T x x → ∃ y, Q x y) :
    ∀ {xs}, SameItems T xs xs → ∃ ys, SameItems Q xs ys
  | [], _ => ⟨[], trivial⟩
  | x :: xs, hx => by
    obtain ⟨y, hy⟩ := h x hx.1
    obtain ⟨ys, hys⟩ := sameItems_grow h hx.2
    exact ⟨y :: ys, hy, hys⟩

end

section
variable {α β α' β' α'' β'' : Type} {R : α → α' → Prop} {Q : β → β' → Prop}

theorem samePair_inj (h : ∀ x y x' y', R x y → R x' y' → (x = x' ↔ y = y')) (k : ∀ x y x' y', Q x y → Q x' y' → (x = x' ↔ y = y')) 
    (x y x' y') (hx : SamePair R Q x y) (hy : SamePair R Q x' y') : x = x' ↔ y = y' := by
  rw [Prod.ext_iff, Prod.ext_iff, h _ _ _ _ hx.1 hy.1, k _ _ _ _ hx.2 hy.2]

theorem sameSum_inj (h : ∀ x y x' y', R x y → R x' y' → (x = x' ↔ y = y')) (k : ∀ x y x' y', Q x y → Q x' y' → (x = x' ↔ y = y')) 
    (x y x' y') (hx : SameSum R Q x y) (hy : SameSum R Q x' y') : x = x' ↔ y = y' := by
  cases x <;> cases y <;> simp only [SameSum] at hx <;> cases x' <;> cases y' <;> simp only [SameSum] at hy
  · rw [Sum.inl.injEq, Sum.inl.injEq, h _ _ _ _ hx hy]
  · simp
  · simp
  · rw [Sum.inr.injEq, Sum.inr.injEq, k _ _ _ _ hx hy]

theorem sameSum_symm {R' : α' → α → Prop} {Q' : β' → β → Prop} (h : ∀ x y, R x y → R' y x) (k : ∀ x y, Q x y → Q' y x) (x y)
    (hx : SameSum R Q x y) : SameSum R' Q' y x := by
  cases x <;> cases y <;> simp only [SameSum] at hx
  · exact h _ _ hx
  · exact k _ _ hx

theorem sameSum_trans {R' : α' → α'' → Prop} {Q' : β' → β'' → Prop} {R'' : α → α'' → Prop} {Q'' : β → β'' → Prop}
    (h : ∀ x y z, R x y → R' y z → R'' x z) (k : ∀ x y z, Q x y → Q' y z → Q'' x z) (x y z)
    (hx : SameSum R Q x y) (hy : SameSum R' Q' y z) : SameSum R'' Q'' x z := by
  cases x <;> cases y <;> simp only [SameSum] at hx <;> cases z <;> simp only [SameSum] at hy
  · exact h _ _ _ hx hy
  · exact k _ _ _ hx hy

end

section
variable {A B C : Nat → Ty} {P : ∀ i, (A i).El → (B i).El → Prop}

mutual
theorem RTy.same_symm {Q : ∀ i, (B i).El → (A i).El → Prop} (h : ∀ i x y, P i x y → Q i y x) : (t : RTy) → ∀ x y,
    RTy.Same P t x y → RTy.Same Q t y x
  | .named i, x, y, hx => h i x y hx
  | .uint _, _, _, hx => Eq.symm hx
  | .sint _, _, _, hx => Eq.symm hx
  | .bool, _, _, hx => Eq.symm hx
  | .string, _, _, hx => Eq.symm hx
  | .bytes, _, _, hx => Eq.symm hx
  | .vec t, _, _, hx => sameItems_symm (RTy.same_symm h t) hx
  | .array _ t, _, _, hx => sameItems_symm (RTy.same_symm h t) hx
  | .tuple ts, _, _, hx => RTys.same_symm h ts _ _ hx
  | .option t, _, _, hx => sameOption_symm (RTy.same_symm h t) hx
  | .box t, x, y, hx => RTy.same_symm h t x y hx
  | .hashMap k v, _, _, hx => sameItems_symm (fun _ _ hp => ⟨RTy.same_symm h k _ _ hp.1, RTy.same_symm h v _ _ hp.2⟩) hx
  | .list t, _, _, hx => ⟨hx.1.symm, sameItems_symm (RTy.same_symm h t) hx.2⟩
  | .map _ t, _, _, hx => ⟨hx.1.symm, sameItems_symm (fun _ _ hp => ⟨hp.1.symm, RTy.same_symm h t _ _ hp.2⟩) hx.2⟩
  | .struct _ _ fs, _, _, hx => ⟨hx.1.symm, RFields.same_symm h fs _ _ hx.2⟩
  | .enum _ _ fs vs, _, _, hx => ⟨hx.1.symm, sameSum_symm (RFields.same_symm h fs) (RVariants.same_symm h vs) _ _ hx.2⟩

theorem RTys.same_symm {Q : ∀ i, (B i).El → (A i).El → Prop} (h : ∀ i x y, P i x y → Q i y x) : (ts : RTys) → ∀ x y,
    RTys.Same P ts x y → RTys.Same Q ts y x
  | .nil, _, _, _ => trivial
  | .cons t ts, _, _, hx => ⟨RTy.same_symm h t _ _ hx.1, RTys.same_symm h ts _ _ hx.2⟩

theorem RFields.same_symm {Q : ∀ i, (B i).El → (A i).El → Prop} (h : ∀ i x y, P i x y → Q i y x) : (fs : RFields) → ∀ x y,
    RFields.Same P fs x y → RFields.Same Q fs y x
  | .nil, _, _, _ => trivial
  | .cons _ _ t fs, _, _, hx => ⟨RTy.same_symm h t _ _ hx.1, RFields.same_symm h fs _ _ hx.2⟩

theorem RVariants.same_symm {Q : ∀ i, (B i).El → (A i).El → Prop} (h : ∀ i x y, P i x y → Q i y x) : (vs : RVariants) → ∀ x y,
    RVariants.Same P vs x y → RVariants.Same Q vs y x
  | .nil, _, _, hx => hx.elim
  | .cons _ _ fs vs, _, _, hx => sameSum_symm (RFields.same_symm h fs) (RVariants.same_symm h vs) _ _ hx
end

mutual
theorem RTy.same_trans {Q : ∀ i, (B i).El → (C i).El → Prop} {R : ∀ i, (A i).El → (C i).El → Prop}
    (h : ∀ i x y z, P i x y → Q i y z → R i x z) : (t : RTy) → ∀ x y z, RTy.Same P t x y → RTy.Same Q t y z → RTy.Same R t x z
  | .named i, x, y, z, hx, hy => h i x y z hx hy
  | .uint _, _, _, _, hx, hy => Eq.trans hx hy
  | .sint _, _, _, _, hx, hy => Eq.trans hx hy
  | .bool, _, _, _, hx, hy => Eq.trans hx hy
  | .string, _, _, _, hx, hy => Eq.trans hx hy
  | .bytes, _, _, _, hx, hy => Eq.trans hx hy
  | .vec t, _, _, _, hx, hy => sameItems_trans (RTy.same_trans h t) hx hy
  | .array _ t, _, _, _, hx, hy => sameItems_trans (RTy.same_trans h t) hx hy
  | .tuple ts, _, _, _, hx, hy => RTys.same_trans h ts _ _ _ hx hy
  | .option t, _, _, _, hx, hy => sameOption_trans (RTy.same_trans h t) hx hy
  | .box t, x, y, z, hx, hy => RTy.same_trans h t x y z hx hy
  | .hashMap k v, _, _, _, hx, hy =>
    sameItems_trans (fun _ _ _ hp hq => ⟨RTy.same_trans h k _ _ _ hp.1 hq.1, RTy.same_trans h v _ _ _ hp.2 hq.2⟩) hx hy
  | .list t, _, _, _, hx, hy => ⟨hx.1.trans hy.1, sameItems_trans (RTy.same_trans h t) hx.2 hy.2⟩
  | .map _ t, _, _, _, hx, hy =>
    ⟨hx.1.trans hy.1, sameItems_trans (fun _ _ _ hp hq => ⟨hp.1.trans hq.1, RTy.same_trans h t _ _ _ hp.2 hq.2⟩) hx.2 hy.2⟩
  | .struct _ _ fs, _, _, _, hx, hy => ⟨hx.1.trans hy.1, RFields.same_trans h fs _ _ _ hx.2 hy.2⟩
  | .enum _ _ fs vs, _, _, _, hx, hy =>
    ⟨hx.1.trans hy.1, sameSum_trans (RFields.same_trans h fs) (RVariants.same_trans h vs) _ _ _ hx.2 hy.2⟩

theorem RTys.same_trans {Q : ∀ i, (B i).El → (C i).El → Prop} {R : ∀ i, (A i).El → (C i).El → Prop}
    (h : ∀ i x y z, P i x y → Q i y z → R i x z) : (ts : RTys) → ∀ x y z, RTys.Same P ts x y → RTys.Same Q ts y z →
    RTys.Same R ts x z
  | .nil, _, _, _, _, _ => trivial
  | .cons t ts, _, _, _, hx, hy => ⟨RTy.same_trans h t _ _ _ hx.1 hy.1, RTys.same_trans h ts _ _ _ hx.2 hy.2⟩

theorem RFields.same_trans {Q : ∀ i, (B i).El → (C i).El → Prop} {R : ∀ i, (A i).El → (C i).El → Prop}
    (h : ∀ i x y z, P i x y → Q i y z → R i x z) : (fs : RFields) → ∀ x y z, RFields.Same P fs x y → RFields.Same Q fs y z →
    RFields.Same R fs x z
  | .nil, _, _, _, _, _ => trivial
  | .cons _ _ t fs, _, _, _, hx, hy => ⟨RTy.same_trans h t _ _ _ hx.1 hy.1, RFields.same_trans h fs _ _ _ hx.2 hy.2⟩

theorem RVariants.same_trans {Q : ∀ i, (B i).El → (C i).El → Prop} {R : ∀ i, (A i).El → (C i).El → Prop}
    (h : ∀ i x y z, P i x y → Q i y z → R i x z) : (vs : RVariants) → ∀ x y z, RVariants.Same P vs x y → RVariants.Same Q vs y z →
    RVariants.Same R vs x z
  | .nil, _, _, _, hx, _ => hx.elim
  | .cons _ _ fs vs, _, _, _, hx, hy => sameSum_trans (RFields.same_trans h fs) (RVariants.same_trans h vs) _ _ _ hx hy
end

mutual
theorem RTy.same_inj (h : ∀ i x y x' y', P i x y → P i x' y' → (x = x' ↔ y = y')) : (t : RTy) → ∀ x y x' y',
    RTy.Same P t x y → RTy.Same P t x' y' → (x = x' ↔ y = y')
  | .named i, x, y, x', y', hx, hy => h i x y x' y' hx hy
  | .uint _, _, _, _, _, hx, hy => by cases hx; cases hy; exact Iff.rfl
  | .sint _, _, _, _, _, hx, hy => by cases hx; cases hy; exact Iff.rfl
  | .bool, _, _, _, _, hx, hy => by cases hx; cases hy; exact Iff.rfl
  | .string, _, _, _, _, hx, hy => by cases hx; cases hy; exact Iff.rfl
  | .bytes, _, _, _, _, hx, hy => by cases hx; cases hy; exact Iff.rfl
  | .vec t, _, _, _, _, hx, hy => sameItems_inj (RTy.same_inj h t) hx hy
  | .array _ t, x, y, x', y', hx, hy => by
    have := sameItems_inj (RTy.same_inj h t) hx hy
    exact Iff.trans Subtype.ext_iff (Iff.trans this Subtype.ext_iff.symm)
  | .tuple ts, _, _, _, _, hx, hy => RTys.same_inj h ts _ _ _ _ hx hy
  | .option t, _, _, _, _, hx, hy => sameOption_inj (RTy.same_inj h t) hx hy
  | .box t, x, y, x', y', hx, hy => RTy.same_inj h t x y x' y' hx hy
  | .hashMap k v, _, _, _, _, hx, hy => sameItems_inj (samePair_inj (RTy.same_inj h k) (RTy.same_inj h v)) hx hy
  | .list t, ⟨r, x⟩, ⟨s, y⟩, ⟨r', x'⟩, ⟨s', y'⟩, hx, hy => by
    have := sameItems_inj (RTy.same_inj h t) hx.2 hy.2
    have h1 : r = s := hx.1
    have h2 : r' = s' := hy.1
    subst h1 h2
    rw [ListV.mk.injEq, ListV.mk.injEq, this]
  | .map _ t, ⟨r, x⟩, ⟨s, y⟩, ⟨r', x'⟩, ⟨s', y'⟩, hx, hy => by
    have := sameItems_inj (samePair_inj (R := Eq) (fun _ _ _ _ h1 h2 => by subst h1 h2; exact Iff.rfl) (RTy.same_inj h t)) hx.2 hy.2
    have h1 : r = s := hx.1
    have h2 : r' = s' := hy.1
    subst h1 h2
    rw [MapV.mk.injEq, MapV.mk.injEq, this]
  | .struct _ _ fs, ⟨r, x⟩, ⟨s, y⟩, ⟨r', x'⟩, ⟨s', y'⟩, hx, hy => by
    have := RFields.same_inj h fs _ _ _ _ hx.2 hy.2
    have h1 : r = s := hx.1
    have h2 : r' = s' := hy.1
    subst h1 h2
    rw [StructV.mk.injEq, StructV.mk.injEq, this]
  | .enum _ _ fs vs, ⟨r, x⟩, ⟨s, y⟩, ⟨r', x'⟩, ⟨s', y'⟩, hx, hy => by
    have := sameSum_inj (RFields.same_inj h fs) (RVariants.same_inj h vs) _ _ _ _ hx.2 hy.2
    have h1 : r = s := hx.1
    have h2 : r' = s' := hy.1
    subst h1 h2
    rw [EnumV.mk.injEq, EnumV.mk.injEq, this]

theorem RTys.same_inj (h : ∀ i x y x' y', P i x y → P i x' y' → (x = x' ↔ y = y')) : (ts : RTys) → ∀ x y x' y',
    RTys.Same P ts x y → RTys.Same P ts x' y' → (x = x' ↔ y = y')
  | .nil, _, _, _, _, _, _ => by constructor <;> intro _ <;> rfl
  | .cons t ts, x, y, x', y', hx, hy => samePair_inj (RTy.same_inj h t) (RTys.same_inj h ts) x y x' y' hx hy

theorem RFields.same_inj (h : ∀ i x y x' y', P i x y → P i x' y' → (x = x' ↔ y = y')) : (fs : RFields) → ∀ x y x' y',
    RFields.Same P fs x y → RFields.Same P fs x' y' → (x = x' ↔ y = y')
  | .nil, _, _, _, _, _, _ => by constructor <;> intro _ <;> rfl
  | .cons _ _ t fs, x, y, x', y', hx, hy => samePair_inj (RTy.same_inj h t) (RFields.same_inj h fs) x y x' y' hx hy

theorem RVariants.same_inj (h : ∀ i x y x' y', P i x y → P i x' y' → (x = x' ↔ y = y')) : (vs : RVariants) → ∀ x y x' y',
    RVariants.Same P vs x y → RVariants.Same P vs x' y' → (x = x' ↔ y = y')
  | .nil, _, _, _, _, hx, _ => hx.elim
  | .cons _ _ fs vs, x, y, x', y', hx, hy => sameSum_inj (RFields.same_inj h fs) (RVariants.same_inj h vs) x y x' y' hx hy
end

end

section
variable {A B : Nat → Ty} {P : ∀ i, (A i).El → (A i).El → Prop} {Q : ∀ i, (A i).El → (B i).El → Prop}

mutual
theorem RTy.grow (h : ∀ i x, P i x x → ∃ y, Q i x y) : (t : RTy) → ∀ x, RTy.Same P t x x → ∃ y, RTy.Same Q t x y
  | .named i, x, hx => h i x hx
  | .uint _, x, _ => ⟨x, rfl⟩
  | .sint _, x, _ => ⟨x, rfl⟩
  | .bool, x, _ => ⟨x, rfl⟩
  | .string, x, _ => ⟨x, rfl⟩
  | .bytes, x, _ => ⟨x, rfl⟩
  | .vec t, _, hx => sameItems_grow (RTy.grow h t) hx
  | .array _ t, ⟨x, hn⟩, hx => by
    obtain ⟨y, hy⟩ := sameItems_grow (RTy.grow h t) hx
    exact ⟨⟨y, (sameItems_length hy).symm.trans hn⟩, hy⟩
  | .tuple ts, x, hx => RTys.grow h ts x hx
  | .option _, none, _ => ⟨none, trivial⟩
  | .option t, some x, hx => by
    obtain ⟨y, hy⟩ := RTy.grow h t x hx
    exact ⟨some y, hy⟩
  | .box t, x, hx => RTy.grow h t x hx
  | .hashMap k v, x, hx => sameItems_grow (T := SamePair (RTy.Same P k) (RTy.Same P v)) (fun p hp => by
      obtain ⟨a, ha⟩ := RTy.grow h k p.1 hp.1
      obtain ⟨b, hb⟩ := RTy.grow h v p.2 hp.2
      exact ⟨(a, b), ha, hb⟩) hx
  | .list t, ⟨r, x⟩, hx => by
    obtain ⟨y, hy⟩ := sameItems_grow (RTy.grow h t) hx.2
    exact ⟨⟨r, y⟩, rfl, hy⟩
  | .map _ t, ⟨r, x⟩, hx => by
    obtain ⟨y, hy⟩ := sameItems_grow (Q := SamePair Eq (RTy.Same Q t)) (T := SamePair Eq (RTy.Same P t)) (fun p hp => by
      obtain ⟨b, hb⟩ := RTy.grow h t p.2 hp.2
      exact ⟨(p.1, b), rfl, hb⟩) hx.2
    exact ⟨⟨r, y⟩, rfl, hy⟩
  | .struct _ _ fs, ⟨r, x⟩, hx => by
    obtain ⟨y, hy⟩ := RFields.grow h fs x hx.2
    exact ⟨⟨r, y⟩, rfl, hy⟩
  | .enum _ _ fs _, ⟨r, .inl x⟩, hx => by
    obtain ⟨y, hy⟩ := RFields.grow h fs x hx.2
    exact ⟨⟨r, .inl y⟩, rfl, hy⟩
  | .enum _ _ _ vs, ⟨r, .inr x⟩, hx => by
    obtain ⟨y, hy⟩ := RVariants.grow h vs x hx.2
    exact ⟨⟨r, .inr y⟩, rfl, hy⟩

theorem RTys.grow (h : ∀ i x, P i x x → ∃ y, Q i x y) : (ts : RTys) → ∀ x, RTys.Same P ts x x → ∃ y, RTys.Same Q ts x y
  | .nil, _, _ => ⟨(), trivial⟩
  | .cons t ts, x, hx => by
    obtain ⟨a, ha⟩ := RTy.grow h t x.1 hx.1
    obtain ⟨b, hb⟩ := RTys.grow h ts x.2 hx.2
    exact ⟨(a, b), ha, hb⟩

theorem RFields.grow (h : ∀ i x, P i x x → ∃ y, Q i x y) : (fs : RFields) → ∀ x, RFields.Same P fs x x → ∃ y, RFields.Same Q fs x y
  | .nil, _, _ => ⟨(), trivial⟩
  | .cons _ _ t fs, x, hx => by
    obtain ⟨a, ha⟩ := RTy.grow h t x.1 hx.1
    obtain ⟨b, hb⟩ := RFields.grow h fs x.2 hx.2
    exact ⟨(a, b), ha, hb⟩

theorem RVariants.grow (h : ∀ i x, P i x x → ∃ y, Q i x y) : (vs : RVariants) → ∀ x, RVariants.Same P vs x x →
    ∃ y, RVariants.Same Q vs x y
  | .nil, _, hx => hx.elim
  | .cons _ _ fs _, .inl x, hx => by
    obtain ⟨y, hy⟩ := RFields.grow h fs x hx
    exact ⟨.inl y, hy⟩
  | .cons _ _ _ vs, .inr x, hx => by
    obtain ⟨y, hy⟩ := RVariants.grow h vs x hx
    exact ⟨.inr y, hy⟩
end

end

/-! ## Levels -/

section
variable {D : Decls} {S S' S'' : Nat → Ty}

theorem sameAt_symm : ∀ (n n' i : Nat) v w, SameAt D S S' n n' i v w → SameAt D S' S n' n i w v
  | n + 1, n' + 1, i, v, w, h => RTy.same_symm (sameAt_symm n n') (D i) v w h
  | 0, _, _, _, _, h => by rw [SameAt] at h; exact h.elim
  | _ + 1, 0, _, _, _, h => by rw [SameAt] at h; exact h.elim

theorem sameAt_trans : ∀ (n n' n'' i : Nat) u v w, SameAt D S S' n n' i u v → SameAt D S' S'' n' n'' i v w →
    SameAt D S S'' n n'' i u w
  | n + 1, n' + 1, n'' + 1, i, u, v, w, h, h' => RTy.same_trans (sameAt_trans n n' n'') (D i) u v w h h'
  | 0, _, _, _, _, _, _, h, _ => by rw [SameAt] at h; exact h.elim
  | _ + 1, 0, _, _, _, _, _, h, _ => by rw [SameAt] at h; exact h.elim
  | _ + 1, _ + 1, 0, _, _, _, _, _, h => by rw [SameAt] at h; exact h.elim

theorem sameAt_inj : ∀ (n n' i : Nat) v w v' w', SameAt D S S' n n' i v w → SameAt D S S' n n' i v' w' → (v = v' ↔ w = w')
  | n + 1, n' + 1, i, v, w, v', w', h, h' => RTy.same_inj (sameAt_inj n n') (D i) v w v' w' h h'
  | 0, _, _, _, _, _, _, h, _ => by rw [SameAt] at h; exact h.elim
  | _ + 1, 0, _, _, _, _, _, h, _ => by rw [SameAt] at h; exact h.elim

theorem sameAt_grow : ∀ (n n' i : Nat), n ≤ n' → ∀ v, SameAt D S S n n i v v → ∃ w, SameAt D S S' n n' i v w
  | n + 1, n' + 1, i, hn, v, h => RTy.grow (fun i x => sameAt_grow n n' i (by omega) x) (D i) v h
  | 0, _, _, _, _, h => by rw [SameAt] at h; exact h.elim
  | _ + 1, 0, _, hn, _, _ => by omega

theorem eq_at : ∀ (n n' i : Nat) x y x' y', SameAt D S S' n n' i x x' → SameAt D S S' n n' i y y' →
    (unroll D S n i).eq x y = (unroll D S' n' i).eq x' y'
  | n + 1, n' + 1, i, x, y, x', y', h, h' => RTy.eq_same (eq_at n n') (D i) x y x' y' h h'
  | 0, _, _, _, _, _, _, h, _ => by rw [SameAt] at h; exact h.elim
  | _ + 1, 0, _, _, _, _, _, h, _ => by rw [SameAt] at h; exact h.elim

theorem message_sized {A : Nat → Ty} : ∀ {t : RTy}, t.isMessage = true → (t.fill A).dict.wire = .sized
  | .struct ds _ _, _ => by cases ds <;> rfl
  | .enum ds _ _ _, _ => by cases ds <;> rfl

theorem unroll_sized (hm : ∀ i, (D i).isMessage = true) (hS : ∀ i, (S i).dict.wire = .sized) : ∀ n i,
    (unroll D S n i).dict.wire = .sized
  | 0, i => hS i
  | _ + 1, i => message_sized (hm i)

theorem rel_bottom {α β : Type} {P : α → β → Prop} {d : Dict α} {d' : Dict β} (h : ∀ x y, ¬ P x y) (hw : d.wire = .sized)
    (hw' : d'.wire = .sized) : Rel P 0 d d' :=
  sized_rel
    { ser := ⟨fun hx => (h _ _ hx).elim, fun _ _ _ _ hx => (h _ _ hx).elim, fun _ _ _ _ hx => (h _ _ hx).elim⟩
      wire := hw.trans hw'.symm
      isOmissible := fun _ _ _ _ _ hx => (h _ _ hx).elim
      dflt := fun hj => by omega
      withRuntime := fun hj => by omega
      runtime := fun hx => (h _ _ hx).elim
      setRuntime := fun _ _ _ hx => (h _ _ hx).elim
      isRoot := fun hx => (h _ _ hx).elim
      merge := fun _ _ _ _ hx => (h _ _ hx).elim
      handleUpdate := fun _ _ _ _ hx => (h _ _ hx).elim
      handle := fun _ _ _ _ _ _ _ hx => (h _ _ hx).elim } hw

theorem rel_at (hm : ∀ i, (D i).isMessage = true) (hg : ∀ i, (D i).guarded = true) (hS : ∀ i, (S i).dict.wire = .sized)
    (hS' : ∀ i, (S' i).dict.wire = .sized) : ∀ n n' i,
    Rel (SameAt D S S' n n' i) (min n n') (unroll D S n i).dict (unroll D S' n' i).dict
  | n + 1, n' + 1, i => by
    have := RTy.rel_message (fun i => rel_at hm hg hS hS' n n' i) (eq_at n n') (D i) (hm i) (hg i)
    rw [show min (n + 1) (n' + 1) = min n n' + 1 by omega]
    exact this
  | 0, n', i => by
    rw [Nat.zero_min]
    exact rel_bottom (fun x y h => by rw [SameAt] at h; exact h) (hS i) (unroll_sized hm hS' n' i)
  | n + 1, 0, i => by
    rw [Nat.min_zero]
    exact rel_bottom (fun x y h => by rw [SameAt] at h; exact h) (unroll_sized hm hS (n + 1) i) (hS' i)

/-! ## Calls -/

theorem run_at (hm : ∀ i, (D i).isMessage = true) (hg : ∀ i, (D i).guarded = true) (hS : ∀ i, (S i).dict.wire = .sized)
    (hS' : ∀ i, (S' i).dict.wire = .sized) (m : Mode) : ∀ n n' i op op' x y, SameOpAt D S S' n n' i op op' →
    SameAt D S S' n n' i x y → SameRun (SameAt D S S' n n' i) ((unroll D S n i).run m op x) ((unroll D S' n' i).run m op' y)
  | n + 2, n' + 2, i, op, op', x, y, ho, hx => by
    rw [SameOpAt] at ho
    exact RTy.run_same (A := unroll D S (n + 1)) (B := unroll D S' (n' + 1)) (rel_at hm hg hS hS' (n + 1) (n' + 1))
      (eq_at (n + 1) (n' + 1)) (by omega) m (run_at hm hg hS hS' m (n + 1) (n' + 1)) (D i) op op' x y ho hx
  | 0, _, _, _, _, _, _, ho, _ => by rw [SameOpAt] at ho; exact ho.elim
  | 1, _, _, _, _, _, _, ho, _ => by rw [SameOpAt] at ho; exact ho.elim
  | _ + 2, 0, _, _, _, _, _, ho, _ => by rw [SameOpAt] at ho; exact ho.elim
  | _ + 2, 1, _, _, _, _, _, ho, _ => by rw [SameOpAt] at ho; exact ho.elim

theorem calls_same {t t' : Ty} {m : Mode} {P : t.El → t'.El → Prop} {O : t.Op → t'.Op → Prop}
    (h : ∀ op op' x y, O op op' → P x y → SameRun P (t.run m op x) (t'.run m op' y)) : ∀ ops ops' x y, SameItems O ops ops' →
    P x y → SameRun P (calls t m ops x) (calls t' m ops' y)
  | [], [], _, _, _, hx => sameRun_ok hx
  | _ :: ops, _ :: ops', _, _, ho, hx => sameRun_bind (h _ _ _ _ ho.1 hx) fun a b hab => calls_same h ops ops' a b ho.2 hab

end

/-! ## Logs -/

theorem applyEntry_same {α β : Type} {P : α → β → Prop} {j : Nat} {d : Dict α} {d' : Dict β} (h : DictRel P j d d') (m : Mode)
    {v : α} {w : β} (hv : P v w) (e : Entry) (he : e.weight + 1 < j) : SameRes P (applyEntry d m v e) (applyEntry d' m w e) := by
  unfold applyEntry
  cases e <;> simp only [Entry.unpack, Entry.weight] at he ⊢ <;>
    exact h.handle m _ _ hv (by simp only [Option.getD, List.length_nil]; omega)

theorem replay_same {α β : Type} {P : α → β → Prop} {j : Nat} {d : Dict α} {d' : Dict β} (h : DictRel P j d d') (m : Mode)
    {v : α} {w : β} (hv : P v w) (bs : Bytes) (hb : bs.length < j) : SameRes P (replay d m v bs) (replay d' m w bs) := by
  unfold replay
  rw [h.isRoot hv]
  cases d'.isRoot w with
  | error e => exact ⟨hv, rfl⟩
  | ok b =>
    cases b with
    | false => exact ⟨hv, rfl⟩
    | true =>
      refine (untilEof_rel (k := bs.length) ?_ _ hv (Nat.le_refl _)).same
      intro v w bs' hv _ hk
      unfold replayStep
      cases hd : logEntryTy.dict.deserializeNested m logEntryTy.dict.wire bs' with
      | error e => exact .err hv
      | ok p =>
        obtain ⟨e, rest⟩ := p
        have hw := entry_weight hd
        have ha := applyEntry_same h m hv (Entry.ofEl e) (by omega)
        dsimp only
        cases h1 : applyEntry d m v (Entry.ofEl e) <;> cases h2 : applyEntry d' m w (Entry.ofEl e) <;> rw [h1, h2] at ha <;>
          simp only [SameRes] at ha
        · exact .ok ha.1 (by omega)
        · rw [ha.2]; exact .err ha.1

/-! ## Unrollings of programs that compile -/

set_option linter.unusedSectionVars false

section
variable {D : Decls} {A : Nat → Ty} (hA : ∀ i, (A i).WF ∧ (A i).isState = (RTy.named i).isState D)
include hA

theorem RTy.fill_isState : (t : RTy) → (t.fill A).isState = t.isState D
  | .named i => (hA i).2
  | .box t => RTy.fill_isState t
  | .uint _ => rfl
  | .sint _ => rfl
  | .bool => rfl
  | .string => rfl
  | .bytes => rfl
  | .vec _ => rfl
  | .array _ _ => rfl
  | .tuple _ => rfl
  | .option _ => rfl
  | .hashMap _ _ => rfl
  | .list _ => rfl
  | .map _ _ => rfl
  | .struct _ _ _ => rfl
  | .enum _ _ _ _ => rfl

omit hA in
theorem RTys.fill_length : (ts : RTys) → (ts.fill A).length = ts.length
  | .nil => rfl
  | .cons _ ts => by rw [RTys.fill, Tys.length, RTys.length, RTys.fill_length ts]

omit hA in
theorem RFields.fill_tags : (fs : RFields) → (fs.fill A).tags = fs.tags
  | .nil => rfl
  | .cons _ _ _ fs => by rw [RFields.fill, Fields.tags, RFields.tags, RFields.fill_tags fs]

omit hA in
theorem RVariants.fill_tags : (vs : RVariants) → (vs.fill A).tags = vs.tags
  | .nil => rfl
  | .cons _ _ _ vs => by rw [RVariants.fill, Variants.tags, RVariants.tags, RVariants.fill_tags vs]

mutual
theorem RTy.fill_wf : (t : RTy) → t.WF D → (t.fill A).WF
  | .named i, _ => (hA i).1
  | .vec t, h => RTy.fill_wf t h
  | .array _ t, h => ⟨h.1, h.2.1, RTy.fill_wf t h.2.2⟩
  | .tuple ts, h => by
    refine ⟨?_, ?_, RTys.fill_wf ts h.2.2⟩
    · rw [RTys.fill_length]; exact h.1
    · rw [RTys.fill_length]; exact h.2.1
  | .option t, h => RTy.fill_wf t h
  | .box t, h => RTy.fill_wf t h
  | .hashMap k v, h => ⟨RTy.fill_wf k h.1, RTy.fill_wf v h.2⟩
  | .list t, h => ⟨(RTy.fill_isState hA t).trans h.1, RTy.fill_wf t h.2⟩
  | .map _ t, h => ⟨(RTy.fill_isState hA t).trans h.1, RTy.fill_wf t h.2⟩
  | .struct ds _ fs, h => ⟨by rw [RFields.fill_tags]; exact h.1, RFields.fill_wf fs ds h.2⟩
  | .enum ds _ fs vs, h => ⟨by rw [RFields.fill_tags]; exact h.1, RFields.fill_wf fs ds h.2.1,
      by rw [RVariants.fill_tags]; exact h.2.2.1, by rw [RVariants.fill_tags]; exact h.2.2.2.1, RVariants.fill_wf vs ds h.2.2.2.2⟩
  | .uint _, _ => trivial
  | .sint _, _ => trivial
  | .bool, _ => trivial
  | .string, _ => trivial
  | .bytes, _ => trivial

theorem RTys.fill_wf : (ts : RTys) → ts.WF D → (ts.fill A).WF
  | .nil, _ => trivial
  | .cons t ts, h => ⟨RTy.fill_wf t h.1, RTys.fill_wf ts h.2⟩

theorem RFields.fill_wf : (fs : RFields) → (ds : Bool) → fs.WF D ds → (fs.fill A).WF ds
  | .nil, _, _ => trivial
  | .cons _ _ t fs, ds, h =>
    ⟨h.1, fun hs => (RTy.fill_isState hA t).trans (h.2.1 hs), RTy.fill_wf t h.2.2.1, RFields.fill_wf fs ds h.2.2.2⟩

theorem RVariants.fill_wf : (vs : RVariants) → (ds : Bool) → vs.WF D ds → (vs.fill A).WF ds
  | .nil, _, _ => trivial
  | .cons _ _ fs vs, ds, h =>
    ⟨h.1, by rw [RFields.fill_tags]; exact h.2.1, RFields.fill_wf fs ds h.2.2.1, RVariants.fill_wf vs ds h.2.2.2⟩
end

end

theorem unroll_wf {D : Decls} {S : Nat → Ty} (hD : D.WF) (hS : Stub D S) : ∀ n i,
    (unroll D S n i).WF ∧ (unroll D S n i).isState = (RTy.named i).isState D
  | 0, i => ⟨(hS i).1, (hS i).2.1⟩
  | n + 1, i => by
    refine ⟨RTy.fill_wf (unroll_wf hD hS n) (D i) (hD i).2.2, ?_⟩
    show ((D i).fill _).isState = _
    rw [RTy.fill_isState (unroll_wf hD hS n) (D i)]
    have := (hD i).1
    simp only [RTy.isState]
    cases hi : D i <;> rw [hi] at this <;> simp_all [RTy.isMessage, RTy.isState]

end Steit
