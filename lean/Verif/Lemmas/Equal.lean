import Mathlib.Data.List.Perm.Basic
import Mathlib.Data.List.Pairwise
import Verif.Spec.Equal
import Verif.Model.Hash
import Verif.Lemmas.Carried

/-! # Equality and hashing -/

namespace Steit
open Spec

/-! ## Entries in any order -/

/-- The same entries in any order, up to `r`. -/
abbrev UpToOrder {α : Type} (r : α → α → Prop) (a b : List α) : Prop := ∃ c, List.Forall₂ r a c ∧ c.Perm b

theorem forall₂_refl' {α : Type} {r : α → α → Prop} (h : ∀ x, r x x) (a : List α) : List.Forall₂ r a a := by
  induction a with
  | nil => exact .nil
  | cons x xs ih => exact .cons (h x) ih

theorem forall₂_symm' {α : Type} {r : α → α → Prop} (h : ∀ x y, r x y → r y x) {a b : List α} (hab : List.Forall₂ r a b) :
    List.Forall₂ r b a := by
  induction hab with
  | nil => exact .nil
  | cons hx _ ih => exact .cons (h _ _ hx) ih

theorem forall₂_trans' {α : Type} {r : α → α → Prop} (h : ∀ x y z, r x y → r y z → r x z) {a b c : List α}
    (hab : List.Forall₂ r a b) (hbc : List.Forall₂ r b c) : List.Forall₂ r a c := by
  induction hab generalizing c with
  | nil => cases hbc; exact .nil
  | cons hx _ ih => cases hbc with | cons hy h2 => exact .cons (h _ _ _ hx hy) (ih h2)

theorem upToOrder_refl {α : Type} {r : α → α → Prop} (h : ∀ x, r x x) (a : List α) : UpToOrder r a a :=
  ⟨a, forall₂_refl' h a, .refl _⟩

theorem upToOrder_symm {α : Type} {r : α → α → Prop} (h : ∀ x y, r x y → r y x) {a b : List α} (hab : UpToOrder r a b) :
    UpToOrder r b a := by
  obtain ⟨c, h1, h2⟩ := hab
  obtain ⟨d, h3, h4⟩ := List.perm_comp_forall₂ h2.symm (forall₂_symm' h h1)
  exact ⟨d, h3, h4⟩

theorem upToOrder_trans {α : Type} {r : α → α → Prop} (h : ∀ x y z, r x y → r y z → r x z) {a b c : List α}
    (hab : UpToOrder r a b) (hbc : UpToOrder r b c) : UpToOrder r a c := by
  obtain ⟨x, h1, h2⟩ := hab
  obtain ⟨y, h3, h4⟩ := hbc
  obtain ⟨z, h5, h6⟩ := List.perm_comp_forall₂ h2 h3
  exact ⟨z, forall₂_trans' h h1 h5, h6.trans h4⟩

/-! ## `Equal` is an equivalence relation -/

mutual
theorem equal_refl : (t : Ty) → ∀ a, Equal t a a
  | .uint _, _ => rfl
  | .sint _, _ => rfl
  | .bool, _ => rfl
  | .string, _ => rfl
  | .bytes, _ => rfl
  | .vec t, a => forall₂_refl' (equal_refl t) a
  | .array _ t, a => forall₂_refl' (equal_refl t) a.1
  | .tuple ts, a => equalTuple_refl ts a
  | .option _, none => .inl ⟨rfl, rfl⟩
  | .option t, some x => .inr ⟨x, x, rfl, rfl, equal_refl t x⟩
  | .box t, a => equal_refl t a
  | .hashMap k v, a => upToOrder_refl (fun x => ⟨equal_refl k x.1, equal_refl v x.2⟩) a
  | .list t, a => forall₂_refl' (equal_refl t) a.items
  | .map _ t, a => upToOrder_refl (fun x => ⟨rfl, equal_refl t x.2⟩) a.entries
  | .struct _ _ fs, a => equalFields_refl fs a.fields
  | .enum _ _ fs _, ⟨_, .inl x⟩ => .inl ⟨x, x, rfl, rfl, equalFields_refl fs x⟩
  | .enum _ _ _ vs, ⟨_, .inr x⟩ => .inr ⟨x, x, rfl, rfl, equalVariant_refl vs x⟩

theorem equalTuple_refl : (ts : Tys) → ∀ a, EqualTuple ts a a
  | .nil, _ => trivial
  | .cons t ts, a => ⟨equal_refl t a.1, equalTuple_refl ts a.2⟩

theorem equalFields_refl : (fs : Fields) → ∀ a, EqualFields fs a a
  | .nil, _ => trivial
  | .cons _ _ t fs, a => ⟨fun _ => equal_refl t a.1, equalFields_refl fs a.2⟩

theorem equalVariant_refl : (vs : Variants) → ∀ a, EqualVariant vs a a
  | .nil, a => nomatch a
  | .cons _ _ fs _, .inl x => .inl ⟨x, x, rfl, rfl, equalFields_refl fs x⟩
  | .cons _ _ _ vs, .inr x => .inr ⟨x, x, rfl, rfl, equalVariant_refl vs x⟩
end

mutual
theorem equal_symm : (t : Ty) → ∀ a b, Equal t a b → Equal t b a
  | .uint _, _, _, h => Eq.symm h
  | .sint _, _, _, h => Eq.symm h
  | .bool, _, _, h => Eq.symm h
  | .string, _, _, h => Eq.symm h
  | .bytes, _, _, h => Eq.symm h
  | .vec t, _, _, h => forall₂_symm' (equal_symm t) h
  | .array _ t, _, _, h => forall₂_symm' (equal_symm t) h
  | .tuple ts, a, b, h => equalTuple_symm ts a b h
  | .option t, _, _, h =>
    h.elim (fun h => .inl ⟨h.2, h.1⟩) (fun ⟨x, y, h1, h2, h3⟩ => .inr ⟨y, x, h2, h1, equal_symm t x y h3⟩)
  | .box t, a, b, h => equal_symm t a b h
  | .hashMap k v, _, _, h =>
    upToOrder_symm (fun x y hxy => ⟨equal_symm k x.1 y.1 hxy.1, equal_symm v x.2 y.2 hxy.2⟩) h
  | .list t, _, _, h => forall₂_symm' (equal_symm t) h
  | .map _ t, _, _, h => upToOrder_symm (fun x y hxy => ⟨Eq.symm hxy.1, equal_symm t x.2 y.2 hxy.2⟩) h
  | .struct _ _ fs, a, b, h => equalFields_symm fs a.fields b.fields h
  | .enum _ _ fs vs, _, _, h =>
    h.elim (fun ⟨x, y, h1, h2, h3⟩ => .inl ⟨y, x, h2, h1, equalFields_symm fs x y h3⟩)
      (fun ⟨x, y, h1, h2, h3⟩ => .inr ⟨y, x, h2, h1, equalVariant_symm vs x y h3⟩)

theorem equalTuple_symm : (ts : Tys) → ∀ a b, EqualTuple ts a b → EqualTuple ts b a
  | .nil, _, _, _ => trivial
  | .cons t ts, a, b, h => ⟨equal_symm t a.1 b.1 h.1, equalTuple_symm ts a.2 b.2 h.2⟩

theorem equalFields_symm : (fs : Fields) → ∀ a b, EqualFields fs a b → EqualFields fs b a
  | .nil, _, _, _ => trivial
  | .cons _ _ t fs, a, b, h => ⟨fun hn => equal_symm t a.1 b.1 (h.1 hn), equalFields_symm fs a.2 b.2 h.2⟩

theorem equalVariant_symm : (vs : Variants) → ∀ a b, EqualVariant vs a b → EqualVariant vs b a
  | .nil, a, _, _ => nomatch a
  | .cons _ _ fs vs, _, _, h =>
    h.elim (fun ⟨x, y, h1, h2, h3⟩ => .inl ⟨y, x, h2, h1, equalFields_symm fs x y h3⟩)
      (fun ⟨x, y, h1, h2, h3⟩ => .inr ⟨y, x, h2, h1, equalVariant_symm vs x y h3⟩)
end

mutual
theorem equal_trans : (t : Ty) → ∀ a b c, Equal t a b → Equal t b c → Equal t a c
  | .uint _, _, _, _, h, h' => Eq.trans h h'
  | .sint _, _, _, _, h, h' => Eq.trans h h'
  | .bool, _, _, _, h, h' => Eq.trans h h'
  | .string, _, _, _, h, h' => Eq.trans h h'
  | .bytes, _, _, _, h, h' => Eq.trans h h'
  | .vec t, _, _, _, h, h' => forall₂_trans' (equal_trans t) h h'
  | .array _ t, _, _, _, h, h' => forall₂_trans' (equal_trans t) h h'
  | .tuple ts, a, b, c, h, h' => equalTuple_trans ts a b c h h'
  | .option t, _, _, _, h, h' => by
    rcases h with ⟨rfl, rfl⟩ | ⟨x, y, rfl, rfl, h⟩
    · rcases h' with ⟨_, rfl⟩ | ⟨_, _, h, _⟩
      · exact .inl ⟨rfl, rfl⟩
      · cases h
    · rcases h' with ⟨h, _⟩ | ⟨y', z, h1, rfl, h'⟩
      · cases h
      · cases h1
        exact .inr ⟨x, z, rfl, rfl, equal_trans t x y z h h'⟩
  | .box t, a, b, c, h, h' => equal_trans t a b c h h'
  | .hashMap k v, _, _, _, h, h' =>
    upToOrder_trans (fun x y z hx hy => ⟨equal_trans k x.1 y.1 z.1 hx.1 hy.1, equal_trans v x.2 y.2 z.2 hx.2 hy.2⟩) h h'
  | .list t, _, _, _, h, h' => forall₂_trans' (equal_trans t) h h'
  | .map _ t, _, _, _, h, h' =>
    upToOrder_trans (fun x y z hx hy => ⟨Eq.trans hx.1 hy.1, equal_trans t x.2 y.2 z.2 hx.2 hy.2⟩) h h'
  | .struct _ _ fs, a, b, c, h, h' => equalFields_trans fs a.fields b.fields c.fields h h'
  | .enum _ _ fs vs, _, _, _, h, h' => by
    rcases h with ⟨x, y, h1, h2, h⟩ | ⟨x, y, h1, h2, h⟩ <;> rcases h' with ⟨y', z, h3, h4, h'⟩ | ⟨y', z, h3, h4, h'⟩ <;>
      rw [h2] at h3 <;> cases h3
    · exact .inl ⟨x, z, h1, h4, equalFields_trans fs x y z h h'⟩
    · exact .inr ⟨x, z, h1, h4, equalVariant_trans vs x y z h h'⟩

theorem equalTuple_trans : (ts : Tys) → ∀ a b c, EqualTuple ts a b → EqualTuple ts b c → EqualTuple ts a c
  | .nil, _, _, _, _, _ => trivial
  | .cons t ts, a, b, c, h, h' => ⟨equal_trans t a.1 b.1 c.1 h.1 h'.1, equalTuple_trans ts a.2 b.2 c.2 h.2 h'.2⟩

theorem equalFields_trans : (fs : Fields) → ∀ a b c, EqualFields fs a b → EqualFields fs b c → EqualFields fs a c
  | .nil, _, _, _, _, _ => trivial
  | .cons _ _ t fs, a, b, c, h, h' =>
    ⟨fun hn => equal_trans t a.1 b.1 c.1 (h.1 hn) (h'.1 hn), equalFields_trans fs a.2 b.2 c.2 h.2 h'.2⟩

theorem equalVariant_trans : (vs : Variants) → ∀ a b c, EqualVariant vs a b → EqualVariant vs b c → EqualVariant vs a c
  | .nil, a, _, _, _, _ => nomatch a
  | .cons _ _ fs vs, _, _, _, h, h' => by
    rcases h with ⟨x, y, h1, h2, h⟩ | ⟨x, y, h1, h2, h⟩ <;> rcases h' with ⟨y', z, h3, h4, h'⟩ | ⟨y', z, h3, h4, h'⟩ <;>
      rw [h2] at h3 <;> cases h3
    · exact .inl ⟨x, z, h1, h4, equalFields_trans fs x y z h h'⟩
    · exact .inr ⟨x, z, h1, h4, equalVariant_trans vs x y z h h'⟩
end

/-! ## Runtimes do not matter -/

theorem forall₂_map_self {α : Type} {r : α → α → Prop} {f : α → α} (h : ∀ x, r x (f x)) (a : List α) :
    List.Forall₂ r a (a.map f) := by
  induction a with
  | nil => exact .nil
  | cons x xs ih => exact .cons (h x) ih

mutual
theorem equal_strip : (t : Ty) → ∀ a, Equal t a (strip t a)
  | .uint _, _ => rfl
  | .sint _, _ => rfl
  | .bool, _ => rfl
  | .string, _ => rfl
  | .bytes, _ => rfl
  | .vec t, a => forall₂_map_self (equal_strip t) a
  | .array _ t, a => forall₂_map_self (equal_strip t) a.1
  | .tuple ts, a => equalTuple_strip ts a
  | .option _, none => .inl ⟨rfl, rfl⟩
  | .option t, some x => .inr ⟨x, _, rfl, rfl, equal_strip t x⟩
  | .box t, a => equal_strip t a
  | .hashMap k v, a => ⟨_, forall₂_map_self (f := fun e => (strip k e.1, strip v e.2))
      (fun x => ⟨equal_strip k x.1, equal_strip v x.2⟩) a, .refl _⟩
  | .list t, a => forall₂_map_self (equal_strip t) a.items
  | .map _ t, a => ⟨_, forall₂_map_self (f := fun e => (e.1, strip t e.2)) (fun x => ⟨rfl, equal_strip t x.2⟩) a.entries, .refl _⟩
  | .struct _ _ fs, a => equalFields_strip fs a.fields
  | .enum _ _ fs _, ⟨_, .inl x⟩ => .inl ⟨x, _, rfl, rfl, equalFields_strip fs x⟩
  | .enum _ _ _ vs, ⟨_, .inr x⟩ => .inr ⟨x, _, rfl, rfl, equalVariant_strip vs x⟩

theorem equalTuple_strip : (ts : Tys) → ∀ a, EqualTuple ts a (stripTuple ts a)
  | .nil, _ => trivial
  | .cons t ts, a => ⟨equal_strip t a.1, equalTuple_strip ts a.2⟩

theorem equalFields_strip : (fs : Fields) → ∀ a, EqualFields fs a (stripFields fs a)
  | .nil, _ => trivial
  | .cons _ _ t fs, a => ⟨fun _ => equal_strip t a.1, equalFields_strip fs a.2⟩

theorem equalVariant_strip : (vs : Variants) → ∀ a, EqualVariant vs a (stripVariant vs a)
  | .nil, a => nomatch a
  | .cons _ _ fs _, .inl x => .inl ⟨x, _, rfl, rfl, equalFields_strip fs x⟩
  | .cons _ _ _ vs, .inr x => .inr ⟨x, _, rfl, rfl, equalVariant_strip vs x⟩
end

theorem equal_of_same {t : Ty} {a b : t.El} (h : Same t a b) : Equal t a b := by
  have h1 := equal_strip t a
  rw [show strip t a = strip t b from h] at h1
  exact equal_trans t _ _ _ h1 (equal_symm t _ _ (equal_strip t b))

/-! ## The code's comparison decides `Equal` -/

theorem itemsEq_iff {α : Type} {eq : α → α → Bool} {r : α → α → Prop} {a b : List α}
    (h : ∀ x ∈ a, ∀ y ∈ b, eq x y = true ↔ r x y) : itemsEq eq a b = true ↔ List.Forall₂ r a b := by
  induction a generalizing b with
  | nil => cases b <;> simp [itemsEq]
  | cons x xs ih =>
    cases b with
    | nil => simp [itemsEq]
    | cons y ys =>
      rw [itemsEq, Bool.and_eq_true, h x (by simp) y (by simp), List.forall₂_cons,
        ih (fun x hx y hy => h x (by simp [hx]) y (by simp [hy]))]

theorem entriesEq_iff {κ ν : Type} {eqk : κ → κ → Bool} {eqv : ν → ν → Bool} {rk : κ → κ → Prop} {rv : ν → ν → Prop}
    (hsymm : ∀ x y, rk x y → rk y x) (htrans : ∀ x y z, rk x y → rk y z → rk x z) {a b : List (κ × ν)}
    (hk : ∀ x ∈ a, ∀ y ∈ b, eqk y.1 x.1 = true ↔ rk y.1 x.1) (hv : ∀ x ∈ a, ∀ y ∈ b, eqv x.2 y.2 = true ↔ rv x.2 y.2)
    (ha : a.Pairwise (fun e e' => ¬ rk e.1 e'.1)) (hb : b.Pairwise (fun e e' => ¬ rk e.1 e'.1)) :
    entriesEq eqk eqv a b = true ↔ UpToOrder (fun e e' => rk e.1 e'.1 ∧ rv e.2 e'.2) a b := by
  constructor
  · intro h
    induction a generalizing b with
    | nil =>
      cases b with
      | nil => exact ⟨[], .nil, .refl _⟩
      | cons y ys => simp [entriesEq] at h
    | cons x xs ih =>
      unfold entriesEq at h
      rw [Bool.and_eq_true, List.all_cons, Bool.and_eq_true, List.all_eq_true] at h
      obtain ⟨hl, h1, h2⟩ := h
      cases hf : b.find? (fun e' => eqk e'.1 x.1) with
      | none => rw [hf] at h1; cases h1
      | some y =>
        rw [hf] at h1
        obtain ⟨hy, l1, l2, rfl, _⟩ := List.find?_eq_some_iff_append.1 hf
        have hxy : rk y.1 x.1 := (hk x (by simp) y (by simp)).1 hy
        rw [List.pairwise_cons] at ha
        have hb' : (l1 ++ l2).Pairwise (fun e e' => ¬ rk e.1 e'.1) :=
          hb.sublist (List.Sublist.append_left (List.sublist_cons_self _ _) _)
        have hmem : ∀ z, z ∈ l1 ++ l2 → z ∈ l1 ++ y :: l2 := fun z hz => by
          rcases List.mem_append.1 hz with h | h <;> simp [h]
        obtain ⟨c, h3, h4⟩ := ih (b := l1 ++ l2) (fun x hx z hz => hk x (by simp [hx]) z (hmem z hz))
          (fun x hx z hz => hv x (by simp [hx]) z (hmem z hz)) ha.2 hb' (by
            unfold entriesEq
            rw [Bool.and_eq_true, List.all_eq_true]
            refine ⟨by simp at hl ⊢; omega, fun z hz => ?_⟩
            have h5 := h2 z hz
            have h6 : eqk y.1 z.1 = false := by
              cases h7 : eqk y.1 z.1 with
              | false => rfl
              | true =>
                exact absurd (htrans _ _ _ (hsymm _ _ hxy) ((hk z (by simp [hz]) y (by simp)).1 h7)) (ha.1 z hz)
            have h7 : (l1 ++ y :: l2).find? (fun e' => eqk e'.1 z.1) = (l1 ++ l2).find? (fun e' => eqk e'.1 z.1) := by
              rw [List.find?_append, List.find?_append, List.find?_cons, h6]
            rwa [h7] at h5)
        exact ⟨y :: c, .cons ⟨hsymm _ _ hxy, (hv x (by simp) y (by simp)).1 h1⟩ h3,
          (List.Perm.cons _ h4).trans (List.perm_middle.symm)⟩
  · rintro ⟨c, h1, h2⟩
    unfold entriesEq
    rw [Bool.and_eq_true, List.all_eq_true]
    refine ⟨by simp [← h2.length_eq, h1.length_eq], fun x hx => ?_⟩
    have h3 : ∃ y ∈ c, rk x.1 y.1 ∧ rv x.2 y.2 := by
      clear ha hb hk hv h2
      induction h1 with
      | nil => cases hx
      | cons h _ ih =>
        rcases List.mem_cons.1 hx with rfl | hx
        · exact ⟨_, by simp, h⟩
        · obtain ⟨y, hy, h⟩ := ih hx
          exact ⟨y, by simp [hy], h⟩
    obtain ⟨y, hy, h4, h5⟩ := h3
    have hyb : y ∈ b := h2.mem_iff.1 hy
    have hp : eqk y.1 x.1 = true := (hk x hx y hyb).2 (hsymm _ _ h4)
    cases hf : b.find? (fun e' => eqk e'.1 x.1) with
    | none => exact absurd hp (by simpa using List.find?_eq_none.1 hf y hyb)
    | some z =>
      have hz := List.find?_some hf
      have hzb := List.mem_of_find?_eq_some hf
      have hzx : rk z.1 x.1 := (hk x hx z hzb).1 hz
      have hzy : z = y := by
        by_cases hne : z = y
        · exact hne
        · exfalso
          have hpw : b.Pairwise (fun e e' => ¬ rk e.1 e'.1 ∧ ¬ rk e'.1 e.1) :=
            hb.imp (fun h => ⟨h, fun h' => h (hsymm _ _ h')⟩)
          have : Std.Symm (fun e e' : κ × ν => ¬ rk e.1 e'.1 ∧ ¬ rk e'.1 e.1) := ⟨fun _ _ h => ⟨h.2, h.1⟩⟩
          have := (hpw.forall hzb hyb hne).1
          exact this (htrans _ _ _ hzx h4)
      subst hzy
      exact (hv x hx z hzb).2 h5

mutual
theorem eq_iff : (t : Ty) → ∀ a b, Keyed t a → Keyed t b → (t.eq a b = true ↔ Equal t a b)
  | .uint _, _, _, _, _ => decide_eq_true_iff
  | .sint _, _, _, _, _ => decide_eq_true_iff
  | .bool, _, _, _, _ => decide_eq_true_iff
  | .string, _, _, _, _ => decide_eq_true_iff
  | .bytes, _, _, _, _ => decide_eq_true_iff
  | .vec t, _, _, ha, hb => itemsEq_iff (fun x hx y hy => eq_iff t x y (ha x hx) (hb y hy))
  | .array _ t, _, _, ha, hb => itemsEq_iff (fun x hx y hy => eq_iff t x y (ha x hx) (hb y hy))
  | .tuple ts, a, b, ha, hb => eq_iffTuple ts a b ha hb
  | .option t, a, b, ha, hb => by
    cases a with
    | none => cases b <;> simp [Ty.eq, optionEq, Equal]
    | some x =>
      cases b with
      | none => simp [Ty.eq, optionEq, Equal]
      | some y => simpa [Ty.eq, optionEq, Equal] using eq_iff t x y (ha x rfl) (hb y rfl)
  | .box t, a, b, ha, hb => eq_iff t a b ha hb
  | .hashMap k v, _, _, ha, hb =>
    entriesEq_iff (equal_symm k) (equal_trans k) (fun x hx y hy => eq_iff k y.1 x.1 (hb.1 y hy).1 (ha.1 x hx).1)
      (fun x hx y hy => eq_iff v x.2 y.2 (ha.1 x hx).2 (hb.1 y hy).2) ha.2 hb.2
  | .list t, _, _, ha, hb => itemsEq_iff (fun x hx y hy => eq_iff t x y (ha x hx) (hb y hy))
  | .map _ t, _, _, ha, hb =>
    entriesEq_iff (rk := fun x y => x = y) (fun _ _ => Eq.symm) (fun _ _ _ => Eq.trans)
      (fun _ _ _ _ => decide_eq_true_iff) (fun x hx y hy => eq_iff t x.2 y.2 (ha.1 x hx) (hb.1 y hy))
      (List.pairwise_map.1 ha.2) (List.pairwise_map.1 hb.2)
  | .struct _ _ fs, a, b, ha, hb => eq_iffFields fs a.fields b.fields ha hb
  | .enum _ _ fs vs, ⟨_, a⟩, ⟨_, b⟩, ha, hb => by
    cases a with
    | inl x =>
      cases b with
      | inl y => simpa [Ty.eq, Equal] using eq_iffFields fs x y ha hb
      | inr y => simp [Ty.eq, Equal]
    | inr x =>
      cases b with
      | inl y => simp [Ty.eq, Equal]
      | inr y => simpa [Ty.eq, Equal] using eq_iffVariant vs x y ha hb

theorem eq_iffTuple : (ts : Tys) → ∀ a b, KeyedTuple ts a → KeyedTuple ts b → (ts.eq a b = true ↔ EqualTuple ts a b)
  | .nil, _, _, _, _ => by simp [Tys.eq, EqualTuple]
  | .cons t ts, a, b, ha, hb => by
    rw [Tys.eq, Bool.and_eq_true, eq_iff t a.1 b.1 ha.1 hb.1, eq_iffTuple ts a.2 b.2 ha.2 hb.2]; rfl

theorem eq_iffFields : (fs : Fields) → ∀ a b, KeyedFields fs a → KeyedFields fs b → (fs.eq a b = true ↔ EqualFields fs a b)
  | .nil, _, _, _, _ => by simp [Fields.eq, EqualFields]
  | .cons _ attrs t fs, a, b, ha, hb => by
    rw [Fields.eq, Bool.and_eq_true, Bool.or_eq_true, eq_iff t a.1 b.1 ha.1 hb.1, eq_iffFields fs a.2 b.2 ha.2 hb.2]
    show _ ↔ (attrs.noEqHash = false → _) ∧ _
    cases attrs.noEqHash <;> simp

theorem eq_iffVariant : (vs : Variants) → ∀ a b, KeyedVariant vs a → KeyedVariant vs b →
    (vs.eq a b = true ↔ EqualVariant vs a b)
  | .nil, a, _, _, _ => nomatch a
  | .cons _ _ fs vs, a, b, ha, hb => by
    cases a with
    | inl x =>
      cases b with
      | inl y => simpa [Variants.eq, EqualVariant] using eq_iffFields fs x y ha hb
      | inr y => simp [Variants.eq, EqualVariant]
    | inr x =>
      cases b with
      | inl y => simp [Variants.eq, EqualVariant]
      | inr y => simpa [Variants.eq, EqualVariant] using eq_iffVariant vs x y ha hb
end

mutual
/-- Values the wire carries have distinct keys. -/
theorem keyed_of_carried : (t : Ty) → ∀ v, Carried t v → Keyed t v
  | .uint _, _, _ => trivial
  | .sint _, _, _ => trivial
  | .bool, _, _ => trivial
  | .string, _, _ => trivial
  | .bytes, _, _ => trivial
  | .vec t, _, h => fun x hx => keyed_of_carried t x (h x hx)
  | .array _ t, _, h => fun x hx => keyed_of_carried t x (h x hx)
  | .tuple ts, v, h => keyed_of_carriedTuple ts v h
  | .option t, _, h => fun x hx => keyed_of_carried t x (h x hx)
  | .box t, v, h => keyed_of_carried t v h
  | .hashMap k w, v, h => by
    have h1 : ∀ e ∈ v, Keyed k e.1 ∧ Keyed w e.2 := fun e he =>
      ⟨keyed_of_carried k e.1 (h.1 e he).1, keyed_of_carried w e.2 (h.1 e he).2⟩
    refine ⟨h1, h.2.imp_of_mem (fun {a b} ha hb hab heq => ?_)⟩
    rw [(eq_iff k a.1 b.1 (h1 a ha).1 (h1 b hb).1).2 heq] at hab
    cases hab
  | .list t, _, h => fun x hx => keyed_of_carried t x (h x hx)
  | .map _ t, _, h => ⟨fun e he => keyed_of_carried t e.2 (h.1 e he).2.2, h.2⟩
  | .struct _ _ fs, v, h => keyed_of_carriedFields fs v.fields h
  | .enum _ _ fs _, ⟨_, .inl x⟩, h => keyed_of_carriedFields fs x h
  | .enum _ _ _ vs, ⟨_, .inr x⟩, h => keyed_of_carriedVariant vs x h

theorem keyed_of_carriedTuple : (ts : Tys) → ∀ v, CarriedTuple ts v → KeyedTuple ts v
  | .nil, _, _ => trivial
  | .cons t ts, v, h => ⟨keyed_of_carried t v.1 h.1, keyed_of_carriedTuple ts v.2 h.2⟩

theorem keyed_of_carriedFields : (fs : Fields) → ∀ v, CarriedFields fs v → KeyedFields fs v
  | .nil, _, _ => trivial
  | .cons _ _ t fs, v, h => ⟨keyed_of_carried t v.1 h.1, keyed_of_carriedFields fs v.2 h.2⟩

theorem keyed_of_carriedVariant : (vs : Variants) → ∀ v, CarriedVariant vs v → KeyedVariant vs v
  | .nil, v, _ => nomatch v
  | .cons _ _ fs _, .inl x, h => keyed_of_carriedFields fs x h
  | .cons _ _ _ vs, .inr x, h => keyed_of_carriedVariant vs x h
end

/-! ## Hashing -/

theorem hashItems_eq {α : Type} {hash : α → List HashTok} {r : α → α → Prop} (h : ∀ x y, r x y → hash x = hash y)
    {a b : List α} (hab : List.Forall₂ r a b) : hashItems hash a = hashItems hash b := by
  induction hab with
  | nil => rfl
  | cons hx _ ih => rw [hashItems, hashItems, h _ _ hx, ih]

mutual
theorem hash_equal : (t : Ty) → t.hashable = true → ∀ a b, Equal t a b → t.hash a = t.hash b
  | .uint _, _, a, b, h => by rw [show a = b from h]
  | .sint _, _, a, b, h => by rw [show a = b from h]
  | .bool, _, a, b, h => by rw [show a = b from h]
  | .string, _, a, b, h => by rw [Ty.hash, Ty.hash, show a.bytes = b.bytes from h]
  | .bytes, _, a, b, h => by rw [show a = b from h]
  | .vec t, ht, a, b, h => by
    have h : List.Forall₂ (Equal t) a b := h
    rw [Ty.hash, Ty.hash, h.length_eq, hashItems_eq (hash_equal t ht) h]
  | .array _ t, ht, a, b, h => by
    have h : List.Forall₂ (Equal t) a.1 b.1 := h
    rw [Ty.hash, Ty.hash, hashItems_eq (hash_equal t ht) h]
  | .tuple ts, ht, a, b, h => hash_equalTuple ts ht a b h
  | .option t, ht, _, _, h => by
    rcases h with ⟨rfl, rfl⟩ | ⟨x, y, rfl, rfl, h⟩
    · rfl
    · simp only [Ty.hash, hash_equal t ht x y h]
  | .box t, ht, a, b, h => hash_equal t ht a b h
  | .hashMap _ _, ht, _, _, _ => by cases ht
  | .list t, ht, a, b, h => by
    have h : List.Forall₂ (Equal t) a.items b.items := h
    rw [Ty.hash, Ty.hash, h.length_eq, hashItems_eq (hash_equal t ht) h]
  | .map _ _, ht, _, _, _ => by cases ht
  | .struct _ _ fs, ht, a, b, h => hash_equalFields fs ht a.fields b.fields h
  | .enum _ _ fs vs, ht, a, b, h => by
    rw [Ty.hashable, Bool.and_eq_true] at ht
    rcases h with ⟨x, y, h1, h2, h⟩ | ⟨x, y, h1, h2, h⟩
    · simp only [Ty.hash, h1, h2, hash_equalFields fs ht.1 x y h]
    · simp only [Ty.hash, h1, h2, hash_equalVariant vs ht.2 x y h]

theorem hash_equalTuple : (ts : Tys) → ts.hashable = true → ∀ a b, EqualTuple ts a b → ts.hash a = ts.hash b
  | .nil, _, _, _, _ => rfl
  | .cons t ts, ht, a, b, h => by
    rw [Tys.hashable, Bool.and_eq_true] at ht
    rw [Tys.hash, Tys.hash, hash_equal t ht.1 _ _ h.1, hash_equalTuple ts ht.2 _ _ h.2]

theorem hash_equalFields : (fs : Fields) → fs.hashable = true → ∀ a b, EqualFields fs a b → fs.hash a = fs.hash b
  | .nil, _, _, _, _ => rfl
  | .cons _ attrs t fs, ht, a, b, h => by
    rw [Fields.hashable, Bool.and_eq_true] at ht
    rw [Fields.hash, Fields.hash, hash_equalFields fs ht.2 _ _ h.2]
    cases h1 : attrs.noHash with
    | true => simp
    | false =>
      cases h2 : attrs.noEqHash with
      | true => simp
      | false =>
        have h3 := ht.1
        rw [h1, h2] at h3
        rw [hash_equal t (by simpa using h3) _ _ (h.1 h2)]

theorem hash_equalVariant : (vs : Variants) → vs.hashable = true → ∀ a b, EqualVariant vs a b → vs.hash a = vs.hash b
  | .nil, _, a, _, _ => nomatch a
  | .cons _ _ fs vs, ht, _, _, h => by
    rw [Variants.hashable, Bool.and_eq_true] at ht
    rcases h with ⟨x, y, rfl, rfl, h⟩ | ⟨x, y, rfl, rfl, h⟩
    · simp only [Variants.hash, hash_equalFields fs ht.1 x y h]
    · simp only [Variants.hash, hash_equalVariant vs ht.2 x y h]
end

/-! ### What is fed to the hasher determines the value -/

theorem hashItems_inj {α : Type} {hash : α → List HashTok} {r : α → α → Prop}
    (h : ∀ x y p q, hash x ++ p = hash y ++ q → r x y ∧ p = q) {a b : List α} (hl : a.length = b.length) {p q : List HashTok}
    (he : hashItems hash a ++ p = hashItems hash b ++ q) : List.Forall₂ r a b ∧ p = q := by
  induction a generalizing b with
  | nil =>
    cases b with
    | nil => exact ⟨.nil, he⟩
    | cons y ys => cases hl
  | cons x xs ih =>
    cases b with
    | nil => cases hl
    | cons y ys =>
      rw [hashItems, hashItems, List.append_assoc, List.append_assoc] at he
      obtain ⟨h1, h2⟩ := h x y _ _ he
      obtain ⟨h3, h4⟩ := ih (by simpa using hl) h2
      exact ⟨.cons h1 h3, h4⟩

theorem num_inj {w : Width} {x y : BitVec w.bits} (h : HashTok.num w x = .num w y) : x = y := by
  cases h; rfl

/-- The tokens of a variant begin with its tag. -/
theorem variant_hash_tag : (vs : Variants) → ∀ a, ∃ tag rest, tag ∈ vs.tags ∧ vs.hash a = .num .w32 tag :: rest
  | .nil, a => nomatch a
  | .cons tag _ fs _, .inl x => ⟨tag, fs.hash x, by simp [Variants.tags], rfl⟩
  | .cons _ _ _ vs, .inr x => by
    obtain ⟨tag, rest, h1, h2⟩ := variant_hash_tag vs x
    exact ⟨tag, rest, by simp [Variants.tags, h1], h2⟩

mutual
theorem hash_inj : (t : Ty) → t.WF → t.hashable = true → FullyHashed t → ∀ a b p q, t.hash a ++ p = t.hash b ++ q →
    Equal t a b ∧ p = q
  | .uint _, _, _, _, _, _, _, _, he => by
    simp only [Ty.hash, List.cons_append, List.nil_append, List.cons.injEq, HashTok.num.injEq, heq_eq_eq, true_and] at he
    exact he
  | .sint _, _, _, _, _, _, _, _, he => by
    simp only [Ty.hash, List.cons_append, List.nil_append, List.cons.injEq, HashTok.num.injEq, heq_eq_eq, true_and] at he
    exact he
  | .bool, _, _, _, a, b, _, _, he => by
    simp only [Ty.hash, List.cons_append, List.nil_append, List.cons.injEq, HashTok.num.injEq, heq_eq_eq, true_and] at he
    refine ⟨?_, he.2⟩
    have h := he.1
    cases a <;> cases b <;> first | rfl | (exfalso; revert h; decide)
  | .string, _, _, _, _, _, _, _, he => by
    simp only [Ty.hash, List.cons_append, List.nil_append, List.cons.injEq, HashTok.raw.injEq, true_and] at he
    exact he
  | .bytes, _, _, _, _, _, _, _, he => by
    simp only [Ty.hash, List.cons_append, List.nil_append, List.cons.injEq, HashTok.raw.injEq, HashTok.len.injEq] at he
    exact he.2
  | .vec t, hw, ht, hf, _, _, _, _, he => by
    simp only [Ty.hash, List.cons_append, List.cons.injEq, HashTok.len.injEq] at he
    exact hashItems_inj (hash_inj t hw ht hf) he.1 he.2
  | .array _ t, hw, ht, hf, a, b, _, _, he => by
    simp only [Ty.hash, List.cons_append, List.cons.injEq, true_and] at he
    exact hashItems_inj (hash_inj t hw.2.2 ht hf) (a.2.trans b.2.symm) he
  | .tuple ts, hw, ht, hf, a, b, p, q, he => hash_injTuple ts hw.2.2 ht hf a b p q he
  | .option t, hw, ht, hf, a, b, p, q, he => by
    cases a with
    | none =>
      cases b with
      | none => simp only [Ty.hash, List.cons_append, List.nil_append, List.cons.injEq, true_and] at he; exact ⟨.inl ⟨rfl, rfl⟩, he⟩
      | some y => simp [Ty.hash] at he
    | some x =>
      cases b with
      | none => simp [Ty.hash] at he
      | some y =>
        simp only [Ty.hash, List.cons_append, List.cons.injEq, true_and] at he
        obtain ⟨h1, h2⟩ := hash_inj t hw ht hf x y p q he
        exact ⟨.inr ⟨x, y, rfl, rfl, h1⟩, h2⟩
  | .box t, hw, ht, hf, a, b, p, q, he => hash_inj t hw ht hf a b p q he
  | .hashMap _ _, _, ht, _, _, _, _, _, _ => by cases ht
  | .list t, hw, ht, hf, _, _, _, _, he => by
    simp only [Ty.hash, List.cons_append, List.cons.injEq, HashTok.len.injEq] at he
    exact hashItems_inj (hash_inj t hw.2 ht hf) he.1 he.2
  | .map _ _, _, ht, _, _, _, _, _, _ => by cases ht
  | .struct _ _ fs, hw, ht, hf, a, b, p, q, he => hash_injFields fs _ hw.2 ht hf a.fields b.fields p q he
  | .enum _ _ fs vs, hw, ht, hf, ⟨_, a⟩, ⟨_, b⟩, p, q, he => by
    rw [Ty.hashable, Bool.and_eq_true] at ht
    cases a with
    | inl x =>
      cases b with
      | inl y =>
        simp only [Ty.hash, List.cons_append, List.cons.injEq, true_and] at he
        obtain ⟨h1, h2⟩ := hash_injFields fs _ hw.2.1 ht.1 hf.1 x y p q he
        exact ⟨.inl ⟨x, y, rfl, rfl, h1⟩, h2⟩
      | inr y =>
        obtain ⟨tag, rest, h1, h2⟩ := variant_hash_tag vs y
        simp only [Ty.hash, List.cons_append, h2, List.cons.injEq] at he
        exact absurd (num_inj he.1 ▸ h1) hw.2.2.2.1
    | inr x =>
      cases b with
      | inl y =>
        obtain ⟨tag, rest, h1, h2⟩ := variant_hash_tag vs x
        simp only [Ty.hash, List.cons_append, h2, List.cons.injEq] at he
        exact absurd (num_inj he.1 ▸ h1) hw.2.2.2.1
      | inr y =>
        obtain ⟨h1, h2⟩ := hash_injVariant vs _ hw.2.2.1 hw.2.2.2.2 ht.2 hf.2 x y p q he
        exact ⟨.inr ⟨x, y, rfl, rfl, h1⟩, h2⟩

theorem hash_injTuple : (ts : Tys) → ts.WF → ts.hashable = true → FullyHashedTuple ts → ∀ a b p q,
    ts.hash a ++ p = ts.hash b ++ q → EqualTuple ts a b ∧ p = q
  | .nil, _, _, _, _, _, _, _, he => ⟨trivial, he⟩
  | .cons t ts, hw, ht, hf, a, b, p, q, he => by
    rw [Tys.hashable, Bool.and_eq_true] at ht
    rw [Tys.hash, Tys.hash, List.append_assoc, List.append_assoc] at he
    obtain ⟨h1, h2⟩ := hash_inj t hw.1 ht.1 hf.1 _ _ _ _ he
    obtain ⟨h3, h4⟩ := hash_injTuple ts hw.2 ht.2 hf.2 _ _ _ _ h2
    exact ⟨⟨h1, h3⟩, h4⟩

theorem hash_injFields : (fs : Fields) → (ds : Bool) → fs.WF ds → fs.hashable = true → FullyHashedFields fs → ∀ a b p q,
    fs.hash a ++ p = fs.hash b ++ q → EqualFields fs a b ∧ p = q
  | .nil, _, _, _, _, _, _, _, _, he => ⟨trivial, he⟩
  | .cons _ attrs t fs, ds, hw, ht, hf, a, b, p, q, he => by
    rw [Fields.hashable, Bool.and_eq_true] at ht
    rw [Fields.hash, Fields.hash, List.append_assoc, List.append_assoc] at he
    cases h1 : attrs.noEqHash with
    | true =>
      rw [h1] at he
      simp only [Bool.not_true, Bool.and_false, Bool.false_eq_true, if_false, List.nil_append] at he
      obtain ⟨h3, h4⟩ := hash_injFields fs ds hw.2.2.2 ht.2 hf.2 _ _ _ _ he
      exact ⟨⟨fun h => (by rw [h1] at h; cases h), h3⟩, h4⟩
    | false =>
      have h2 := hf.1 h1
      rw [h1, h2.1] at he
      simp only [Bool.not_false, Bool.and_self, if_true] at he
      have h5 := ht.1
      rw [h1, h2.1] at h5
      obtain ⟨k1, k2⟩ := hash_inj t hw.2.2.1 (by simpa using h5) h2.2 _ _ _ _ he
      obtain ⟨h3, h4⟩ := hash_injFields fs ds hw.2.2.2 ht.2 hf.2 _ _ _ _ k2
      exact ⟨⟨fun _ => k1, h3⟩, h4⟩

theorem hash_injVariant : (vs : Variants) → (ds : Bool) → vs.tags.Nodup → vs.WF ds → vs.hashable = true →
    FullyHashedVariants vs → ∀ a b p q, vs.hash a ++ p = vs.hash b ++ q → EqualVariant vs a b ∧ p = q
  | .nil, _, _, _, _, _, a, _, _, _, _ => nomatch a
  | .cons tag c fs vs, ds, hn, hw, ht, hf, a, b, p, q, he => by
    rw [Variants.hashable, Bool.and_eq_true] at ht
    rw [Variants.tags, List.nodup_cons] at hn
    cases a with
    | inl x =>
      cases b with
      | inl y =>
        simp only [Variants.hash, List.cons_append, List.cons.injEq, true_and] at he
        obtain ⟨h1, h2⟩ := hash_injFields fs ds hw.2.2.1 ht.1 hf.1 x y p q he
        exact ⟨.inl ⟨x, y, rfl, rfl, h1⟩, h2⟩
      | inr y =>
        obtain ⟨tag', rest, h1, h2⟩ := variant_hash_tag vs y
        simp only [Variants.hash, List.cons_append, h2, List.cons.injEq] at he
        exact absurd (num_inj he.1 ▸ h1) hn.1
    | inr x =>
      cases b with
      | inl y =>
        obtain ⟨tag', rest, h1, h2⟩ := variant_hash_tag vs x
        simp only [Variants.hash, List.cons_append, h2, List.cons.injEq] at he
        exact absurd (num_inj he.1 ▸ h1) hn.1
      | inr y =>
        obtain ⟨h1, h2⟩ := hash_injVariant vs ds hn.2 hw.2.2.2 ht.2 hf.2 x y p q he
        exact ⟨.inr ⟨x, y, rfl, rfl, h1⟩, h2⟩
end

end Steit
