import Verif.Spec.Order
import Verif.Lemmas.Equal
import Verif.Lemmas.Unroll
import Verif.Lemmas.SetRuntime
import Verif.Lemmas.BlindTy

/-! # Hash maps in any order: what does not depend on the order -/

namespace Steit
open Spec

theorem sameItems_iff {α β : Type} {R : α → β → Prop} : ∀ {xs : List α} {ys : List β}, SameItems R xs ys ↔ List.Forall₂ R xs ys
  | [], [] => by simp [SameItems]
  | [], _ :: _ => by simp [SameItems]
  | _ :: _, [] => by simp [SameItems]
  | _ :: _, _ :: _ => by rw [List.forall₂_cons, ← sameItems_iff]; rfl

theorem reordered_iff {α : Type} {R : α → α → Prop} {a b : List α} : Reordered R a b ↔ UpToOrder R a b := by
  simp only [Reordered, UpToOrder, sameItems_iff]

theorem sameItems_refl {α : Type} {R : α → α → Prop} (h : ∀ x, R x x) (a : List α) : SameItems R a a :=
  sameItems_iff.2 (forall₂_refl' h a)

/-- A property that corresponding items share. -/
theorem sameItems_all {α : Type} {R : α → α → Prop} {P : α → Prop} (h : ∀ x y, R x y → P x → P y) {a b : List α} (hab : SameItems R a b)
    (ha : ∀ x ∈ a, P x) : ∀ y ∈ b, P y := by
  induction a generalizing b with
  | nil => cases b with
    | nil => exact fun _ hy => nomatch hy
    | cons _ _ => exact hab.elim
  | cons x xs ih => cases b with
    | nil => exact hab.elim
    | cons y ys =>
      intro z hz
      rcases List.mem_cons.1 hz with rfl | hz
      · exact h _ _ hab.1 (ha x (by simp))
      · exact ih hab.2 (fun x hx => ha x (by simp [hx])) z hz

theorem reordered_all {α : Type} {R : α → α → Prop} {P : α → Prop} (h : ∀ x y, R x y → P x → P y) {a b : List α} (hab : Reordered R a b)
    (ha : ∀ x ∈ a, P x) : ∀ y ∈ b, P y := by
  obtain ⟨c, h1, h2⟩ := hab
  exact fun y hy => sameItems_all h h1 ha y (h2.mem_iff.2 hy)

/-! ## An equivalence relation -/

mutual
theorem shuffle_of_same : (t : Ty) → ∀ v w, Same t v w → Shuffle t v w
  | .uint _, _, _, h => h
  | .sint _, _, _, h => h
  | .bool, _, _, h => h
  | .string, _, _, h => h
  | .bytes, _, _, h => h
  | .vec t, _, _, h => sameItems_of_map (fun x _ y _ hxy => shuffle_of_same t x y hxy) h
  | .array _ t, _, _, h => sameItems_of_map (fun x _ y _ hxy => shuffle_of_same t x y hxy) (congrArg Subtype.val h)
  | .tuple ts, v, w, h => shuffleTuple_of_same ts v w h
  | .option t, none, none, _ => trivial
  | .option t, some x, some y, h => shuffle_of_same t x y (Option.some.inj h)
  | .option t, none, some _, h => nomatch h
  | .option t, some _, none, h => nomatch h
  | .box t, v, w, h => shuffle_of_same t v w h
  | .hashMap k u, _, w, h => ⟨w, sameItems_of_map (fun x _ y _ hxy => by
      rw [Prod.mk.injEq] at hxy
      exact ⟨shuffle_of_same k x.1 y.1 hxy.1, shuffle_of_same u x.2 y.2 hxy.2⟩) h, .refl _⟩
  | .list t, v, w, h => sameItems_of_map (fun x _ y _ hxy => shuffle_of_same t x y hxy) (congrArg ListV.items h)
  | .map _ t, v, w, h => sameItems_of_map (fun x _ y _ hxy => by
      rw [Prod.mk.injEq] at hxy
      exact ⟨hxy.1, shuffle_of_same t x.2 y.2 hxy.2⟩) (congrArg MapV.entries h)
  | .struct _ _ fs, v, w, h => shuffleFields_of_same fs _ _ (congrArg StructV.fields h)
  | .enum _ _ fs vs, ⟨_, .inl x⟩, ⟨_, .inl y⟩, h => shuffleFields_of_same fs x y (Sum.inl.inj (congrArg EnumV.val h))
  | .enum _ _ fs vs, ⟨_, .inr x⟩, ⟨_, .inr y⟩, h => shuffleVariant_of_same vs x y (Sum.inr.inj (congrArg EnumV.val h))
  | .enum _ _ fs vs, ⟨_, .inl x⟩, ⟨_, .inr y⟩, h => nomatch congrArg EnumV.val h
  | .enum _ _ fs vs, ⟨_, .inr x⟩, ⟨_, .inl y⟩, h => nomatch congrArg EnumV.val h

theorem shuffleTuple_of_same : (ts : Tys) → ∀ v w, stripTuple ts v = stripTuple ts w → ShuffleTuple ts v w
  | .nil, _, _, _ => trivial
  | .cons t ts, v, w, h => ⟨shuffle_of_same t v.1 w.1 (Prod.mk.inj h).1, shuffleTuple_of_same ts v.2 w.2 (Prod.mk.inj h).2⟩

theorem shuffleFields_of_same : (fs : Fields) → ∀ v w, stripFields fs v = stripFields fs w → ShuffleFields fs v w
  | .nil, _, _, _ => trivial
  | .cons _ _ t fs, v, w, h => ⟨shuffle_of_same t v.1 w.1 (Prod.mk.inj h).1, shuffleFields_of_same fs v.2 w.2 (Prod.mk.inj h).2⟩

theorem shuffleVariant_of_same : (vs : Variants) → ∀ v w, stripVariant vs v = stripVariant vs w → ShuffleVariant vs v w
  | .nil, v, _, _ => nomatch v
  | .cons _ _ fs vs, .inl x, .inl y, h => shuffleFields_of_same fs x y (Sum.inl.inj h)
  | .cons _ _ fs vs, .inr x, .inr y, h => shuffleVariant_of_same vs x y (Sum.inr.inj h)
  | .cons _ _ fs vs, .inl x, .inr y, h => nomatch h
  | .cons _ _ fs vs, .inr x, .inl y, h => nomatch h
end

theorem shuffle_refl (t : Ty) (v : t.El) : Shuffle t v v := shuffle_of_same t v v rfl

mutual
theorem shuffle_symm : (t : Ty) → ∀ v w, Shuffle t v w → Shuffle t w v
  | .uint _, _, _, h => Eq.symm h
  | .sint _, _, _, h => Eq.symm h
  | .bool, _, _, h => Eq.symm h
  | .string, _, _, h => Eq.symm h
  | .bytes, _, _, h => Eq.symm h
  | .vec t, _, _, h => sameItems_symm (shuffle_symm t) h
  | .array _ t, _, _, h => sameItems_symm (shuffle_symm t) h
  | .tuple ts, v, w, h => shuffleTuple_symm ts v w h
  | .option t, none, none, _ => trivial
  | .option t, some x, some y, h => shuffle_symm t x y h
  | .option t, none, some _, h => h.elim
  | .option t, some _, none, h => h.elim
  | .box t, v, w, h => shuffle_symm t v w h
  | .hashMap k u, _, _, h => reordered_iff.2 (upToOrder_symm (fun x y hxy => ⟨shuffle_symm k _ _ hxy.1, shuffle_symm u _ _ hxy.2⟩) (reordered_iff.1 h))
  | .list t, _, _, h => sameItems_symm (shuffle_symm t) h
  | .map _ t, _, _, h => sameItems_symm (R := SamePair Eq (Shuffle t)) (Q := SamePair Eq (Shuffle t))
      (fun _ _ hxy => ⟨Eq.symm hxy.1, shuffle_symm t _ _ hxy.2⟩) h
  | .struct _ _ fs, v, w, h => shuffleFields_symm fs _ _ h
  | .enum _ _ fs vs, ⟨_, .inl x⟩, ⟨_, .inl y⟩, h => shuffleFields_symm fs x y h
  | .enum _ _ fs vs, ⟨_, .inr x⟩, ⟨_, .inr y⟩, h => shuffleVariant_symm vs x y h
  | .enum _ _ fs vs, ⟨_, .inl x⟩, ⟨_, .inr y⟩, h => h.elim
  | .enum _ _ fs vs, ⟨_, .inr x⟩, ⟨_, .inl y⟩, h => h.elim

theorem shuffleTuple_symm : (ts : Tys) → ∀ v w, ShuffleTuple ts v w → ShuffleTuple ts w v
  | .nil, _, _, _ => trivial
  | .cons t ts, v, w, h => ⟨shuffle_symm t v.1 w.1 h.1, shuffleTuple_symm ts v.2 w.2 h.2⟩

theorem shuffleFields_symm : (fs : Fields) → ∀ v w, ShuffleFields fs v w → ShuffleFields fs w v
  | .nil, _, _, _ => trivial
  | .cons _ _ t fs, v, w, h => ⟨shuffle_symm t v.1 w.1 h.1, shuffleFields_symm fs v.2 w.2 h.2⟩

theorem shuffleVariant_symm : (vs : Variants) → ∀ v w, ShuffleVariant vs v w → ShuffleVariant vs w v
  | .nil, v, _, _ => nomatch v
  | .cons _ _ fs vs, .inl x, .inl y, h => shuffleFields_symm fs x y h
  | .cons _ _ fs vs, .inr x, .inr y, h => shuffleVariant_symm vs x y h
  | .cons _ _ fs vs, .inl x, .inr y, h => h.elim
  | .cons _ _ fs vs, .inr x, .inl y, h => h.elim
end

mutual
theorem shuffle_trans : (t : Ty) → ∀ u v w, Shuffle t u v → Shuffle t v w → Shuffle t u w
  | .uint _, _, _, _, h, h' => Eq.trans h h'
  | .sint _, _, _, _, h, h' => Eq.trans h h'
  | .bool, _, _, _, h, h' => Eq.trans h h'
  | .string, _, _, _, h, h' => Eq.trans h h'
  | .bytes, _, _, _, h, h' => Eq.trans h h'
  | .vec t, _, _, _, h, h' => sameItems_trans (shuffle_trans t) h h'
  | .array _ t, _, _, _, h, h' => sameItems_trans (shuffle_trans t) h h'
  | .tuple ts, _, _, _, h, h' => shuffleTuple_trans ts _ _ _ h h'
  | .option t, none, none, none, _, _ => trivial
  | .option t, some x, some y, some z, h, h' => shuffle_trans t x y z h h'
  | .option t, none, some _, _, h, _ => h.elim
  | .option t, some _, none, _, h, _ => h.elim
  | .option t, none, none, some _, _, h => h.elim
  | .option t, some _, some _, none, _, h => h.elim
  | .box t, _, _, _, h, h' => shuffle_trans t _ _ _ h h'
  | .hashMap k u, _, _, _, h, h' => reordered_iff.2 (upToOrder_trans
      (fun x y z hx hy => ⟨shuffle_trans k _ _ _ hx.1 hy.1, shuffle_trans u _ _ _ hx.2 hy.2⟩) (reordered_iff.1 h) (reordered_iff.1 h'))
  | .list t, _, _, _, h, h' => sameItems_trans (shuffle_trans t) h h'
  | .map _ t, _, _, _, h, h' => sameItems_trans (R := SamePair Eq (Shuffle t)) (Q := SamePair Eq (Shuffle t)) (T := SamePair Eq (Shuffle t))
      (fun _ _ _ hx hy => ⟨Eq.trans hx.1 hy.1, shuffle_trans t _ _ _ hx.2 hy.2⟩) h h'
  | .struct _ _ fs, _, _, _, h, h' => shuffleFields_trans fs _ _ _ h h'
  | .enum _ _ fs vs, ⟨_, .inl x⟩, ⟨_, .inl y⟩, ⟨_, .inl z⟩, h, h' => shuffleFields_trans fs x y z h h'
  | .enum _ _ fs vs, ⟨_, .inr x⟩, ⟨_, .inr y⟩, ⟨_, .inr z⟩, h, h' => shuffleVariant_trans vs x y z h h'
  | .enum _ _ fs vs, ⟨_, .inl x⟩, ⟨_, .inr y⟩, _, h, _ => h.elim
  | .enum _ _ fs vs, ⟨_, .inr x⟩, ⟨_, .inl y⟩, _, h, _ => h.elim
  | .enum _ _ fs vs, ⟨_, .inl x⟩, ⟨_, .inl y⟩, ⟨_, .inr z⟩, _, h => h.elim
  | .enum _ _ fs vs, ⟨_, .inr x⟩, ⟨_, .inr y⟩, ⟨_, .inl z⟩, _, h => h.elim

theorem shuffleTuple_trans : (ts : Tys) → ∀ u v w, ShuffleTuple ts u v → ShuffleTuple ts v w → ShuffleTuple ts u w
  | .nil, _, _, _, _, _ => trivial
  | .cons t ts, _, _, _, h, h' => ⟨shuffle_trans t _ _ _ h.1 h'.1, shuffleTuple_trans ts _ _ _ h.2 h'.2⟩

theorem shuffleFields_trans : (fs : Fields) → ∀ u v w, ShuffleFields fs u v → ShuffleFields fs v w → ShuffleFields fs u w
  | .nil, _, _, _, _, _ => trivial
  | .cons _ _ t fs, _, _, _, h, h' => ⟨shuffle_trans t _ _ _ h.1 h'.1, shuffleFields_trans fs _ _ _ h.2 h'.2⟩

theorem shuffleVariant_trans : (vs : Variants) → ∀ u v w, ShuffleVariant vs u v → ShuffleVariant vs v w → ShuffleVariant vs u w
  | .nil, v, _, _, _, _ => nomatch v
  | .cons _ _ fs vs, .inl x, .inl y, .inl z, h, h' => shuffleFields_trans fs x y z h h'
  | .cons _ _ fs vs, .inr x, .inr y, .inr z, h, h' => shuffleVariant_trans vs x y z h h'
  | .cons _ _ fs vs, .inl x, .inr y, _, h, _ => h.elim
  | .cons _ _ fs vs, .inr x, .inl y, _, h, _ => h.elim
  | .cons _ _ fs vs, .inl x, .inl y, .inr z, _, h => h.elim
  | .cons _ _ fs vs, .inr x, .inr y, .inl z, _, h => h.elim
end

/-! ## Equality -/

mutual
theorem equal_of_shuffle : (t : Ty) → ∀ v w, Shuffle t v w → Equal t v w
  | .uint _, _, _, h => h
  | .sint _, _, _, h => h
  | .bool, _, _, h => h
  | .string, _, _, h => congrArg Str.bytes h
  | .bytes, _, _, h => h
  | .vec t, _, _, h => (sameItems_iff.1 h).imp (equal_of_shuffle t)
  | .array _ t, _, _, h => (sameItems_iff.1 h).imp (equal_of_shuffle t)
  | .tuple ts, v, w, h => equalTuple_of_shuffle ts v w h
  | .option t, none, none, _ => .inl ⟨rfl, rfl⟩
  | .option t, some x, some y, h => .inr ⟨x, y, rfl, rfl, equal_of_shuffle t x y h⟩
  | .option t, none, some _, h => h.elim
  | .option t, some _, none, h => h.elim
  | .box t, v, w, h => equal_of_shuffle t v w h
  | .hashMap k u, _, _, h => by
    obtain ⟨c, h1, h2⟩ := h
    exact ⟨c, (sameItems_iff.1 h1).imp fun x y hxy => ⟨equal_of_shuffle k _ _ hxy.1, equal_of_shuffle u _ _ hxy.2⟩, h2⟩
  | .list t, _, _, h => (sameItems_iff.1 h).imp (equal_of_shuffle t)
  | .map _ t, _, w, h => ⟨_, (sameItems_iff.1 h).imp fun x y hxy => ⟨hxy.1, equal_of_shuffle t _ _ hxy.2⟩, .refl _⟩
  | .struct _ _ fs, v, w, h => equalFields_of_shuffle fs _ _ h
  | .enum _ _ fs vs, ⟨_, .inl x⟩, ⟨_, .inl y⟩, h => .inl ⟨x, y, rfl, rfl, equalFields_of_shuffle fs x y h⟩
  | .enum _ _ fs vs, ⟨_, .inr x⟩, ⟨_, .inr y⟩, h => .inr ⟨x, y, rfl, rfl, equalVariant_of_shuffle vs x y h⟩
  | .enum _ _ fs vs, ⟨_, .inl x⟩, ⟨_, .inr y⟩, h => h.elim
  | .enum _ _ fs vs, ⟨_, .inr x⟩, ⟨_, .inl y⟩, h => h.elim

theorem equalTuple_of_shuffle : (ts : Tys) → ∀ v w, ShuffleTuple ts v w → EqualTuple ts v w
  | .nil, _, _, _ => trivial
  | .cons t ts, v, w, h => ⟨equal_of_shuffle t v.1 w.1 h.1, equalTuple_of_shuffle ts v.2 w.2 h.2⟩

theorem equalFields_of_shuffle : (fs : Fields) → ∀ v w, ShuffleFields fs v w → EqualFields fs v w
  | .nil, _, _, _ => trivial
  | .cons _ _ t fs, v, w, h => ⟨fun _ => equal_of_shuffle t v.1 w.1 h.1, equalFields_of_shuffle fs v.2 w.2 h.2⟩

theorem equalVariant_of_shuffle : (vs : Variants) → ∀ v w, ShuffleVariant vs v w → EqualVariant vs v w
  | .nil, v, _, _ => nomatch v
  | .cons _ _ fs vs, .inl x, .inl y, h => .inl ⟨x, y, rfl, rfl, equalFields_of_shuffle fs x y h⟩
  | .cons _ _ fs vs, .inr x, .inr y, h => .inr ⟨x, y, rfl, rfl, equalVariant_of_shuffle vs x y h⟩
  | .cons _ _ fs vs, .inl x, .inr y, h => h.elim
  | .cons _ _ fs vs, .inr x, .inl y, h => h.elim
end

/-! ## Length -/

theorem flatMap_length_same {α β : Type} {R : α → β → Prop} {f : α → Bytes} {g : β → Bytes} (h : ∀ x y, R x y → (f x).length = (g y).length) :
    ∀ {xs : List α} {ys : List β}, SameItems R xs ys → (xs.flatMap f).length = (ys.flatMap g).length
  | [], [], _ => rfl
  | _ :: _, _ :: _, hx => by
    rw [List.flatMap_cons, List.flatMap_cons, List.length_append, List.length_append, h _ _ hx.1, flatMap_length_same h hx.2]

theorem framed_length_congr (w : Nat) {a b : Bytes} (h : a.length = b.length) : (framed w a).length = (framed w b).length := by
  unfold framed
  split
  · exact h
  · rw [List.length_append, List.length_append, h]

theorem leftOut_shuffle (t : Ty) (v w : t.El) {a b : Bytes} (h : Shuffle t v w) (hl : a.length = b.length) : leftOut t v a = leftOut t w b := by
  have he : a.isEmpty = b.isEmpty := by cases a <;> cases b <;> simp at hl <;> rfl
  cases t <;> first
    | exact he
    | (have h' : v = w := h
       subst h'; rfl)

mutual
theorem shuffle_length : (t : Ty) → ∀ v w, Shuffle t v w → (encode t v).length = (encode t w).length
  | .uint _, _, _, h => by rw [show _ = _ from h]
  | .sint _, _, _, h => by rw [show _ = _ from h]
  | .bool, _, _, h => by rw [show _ = _ from h]
  | .string, _, _, h => by rw [show _ = _ from h]
  | .bytes, _, _, h => by rw [show _ = _ from h]
  | .vec t, _, _, h => flatMap_length_same (fun x y hxy => framed_length_congr _ (shuffle_length t x y hxy)) h
  | .array _ t, _, _, h => flatMap_length_same (fun x y hxy => framed_length_congr _ (shuffle_length t x y hxy)) h
  | .tuple ts, v, w, h => shuffleTuple_length ts v w h
  | .option t, none, none, _ => rfl
  | .option t, some x, some y, h => by
    simp only [encode, Option.toList, List.flatMap_cons, List.flatMap_nil, List.append_nil]
    exact framed_length_congr _ (shuffle_length t x y h)
  | .option t, none, some _, h => h.elim
  | .option t, some _, none, h => h.elim
  | .box t, v, w, h => shuffle_length t v w h
  | .hashMap k u, _, _, h => by
    obtain ⟨c, h1, h2⟩ := h
    simp only [encode]
    refine Eq.trans (flatMap_length_same (R := SamePair (Shuffle k) (Shuffle u)) (fun x y hxy => ?_) h1) (h2.flatMap_right _).length_eq
    rw [List.length_append, List.length_append, framed_length_congr _ (shuffle_length k _ _ hxy.1), framed_length_congr _ (shuffle_length u _ _ hxy.2)]
  | .list t, _, _, h => flatMap_length_same (fun x y hxy => framed_length_congr _ (shuffle_length t x y hxy)) h
  | .map _ t, _, _, h => by
    simp only [encode]
    refine flatMap_length_same (R := SamePair Eq (Shuffle t)) (fun x y hxy => ?_) h
    rw [List.length_append, List.length_append, hxy.1, framed_length_congr _ (shuffle_length t _ _ hxy.2)]
  | .struct _ _ fs, v, w, h => shuffleFields_length fs _ _ h
  | .enum _ _ fs vs, ⟨_, .inl x⟩, ⟨_, .inl y⟩, h => by
    simp only [encode, List.length_append]
    rw [shuffleFields_length fs x y h]
  | .enum _ _ fs vs, ⟨_, .inr x⟩, ⟨_, .inr y⟩, h => by
    simp only [encode]
    exact shuffleVariant_length vs x y h
  | .enum _ _ fs vs, ⟨_, .inl x⟩, ⟨_, .inr y⟩, h => h.elim
  | .enum _ _ fs vs, ⟨_, .inr x⟩, ⟨_, .inl y⟩, h => h.elim

theorem shuffleTuple_length : (ts : Tys) → ∀ v w, ShuffleTuple ts v w → (encodeTuple ts v).length = (encodeTuple ts w).length
  | .nil, _, _, _ => rfl
  | .cons t ts, v, w, h => by
    simp only [encodeTuple, List.length_append]
    rw [framed_length_congr _ (shuffle_length t v.1 w.1 h.1), shuffleTuple_length ts v.2 w.2 h.2]

theorem shuffleFields_length : (fs : Fields) → ∀ v w, ShuffleFields fs v w → (encodeFields fs v).length = (encodeFields fs w).length
  | .nil, _, _, _ => rfl
  | .cons _ _ t fs, v, w, h => by
    have h1 := shuffle_length t v.1 w.1 h.1
    simp only [encodeFields, List.length_append]
    rw [shuffleFields_length fs v.2 w.2 h.2, leftOut_shuffle t v.1 w.1 h.1 h1]
    split
    · rfl
    · rw [List.length_append, List.length_append, framed_length_congr _ h1]

theorem shuffleVariant_length : (vs : Variants) → ∀ v w, ShuffleVariant vs v w → (encodeVariant vs v).length = (encodeVariant vs w).length
  | .nil, v, _, _ => nomatch v
  | .cons _ _ fs vs, .inl x, .inl y, h => by
    simp only [encodeVariant, List.length_append]
    rw [shuffleFields_length fs x y h]
  | .cons _ _ fs vs, .inr x, .inr y, h => by
    simp only [encodeVariant]
    exact shuffleVariant_length vs x y h
  | .cons _ _ fs vs, .inl x, .inr y, h => h.elim
  | .cons _ _ fs vs, .inr x, .inl y, h => h.elim
end

/-! ## What can be written and carried -/

mutual
theorem shuffle_writable : (t : Ty) → ∀ v w, Shuffle t v w → Writable t v → Writable t w
  | .uint _, _, _, _, _ => trivial
  | .sint _, _, _, _, _ => trivial
  | .bool, _, _, _, _ => trivial
  | .string, _, _, _, _ => trivial
  | .bytes, _, _, _, _ => trivial
  | .vec t, _, _, h, hv => sameItems_all (shuffle_writable t) h hv
  | .array _ t, _, _, h, hv => sameItems_all (shuffle_writable t) h hv
  | .tuple ts, v, w, h, hv => shuffleTuple_writable ts v w h hv
  | .option t, none, none, _, _ => fun _ hx => nomatch hx
  | .option t, some x, some y, h, hv => fun z hz => by cases hz; exact shuffle_writable t x y h (hv x rfl)
  | .option t, none, some _, h, _ => h.elim
  | .option t, some _, none, h, _ => h.elim
  | .box t, v, w, h, hv => shuffle_writable t v w h hv
  | .hashMap k u, _, _, h, hv => reordered_all (R := SamePair (Shuffle k) (Shuffle u)) (P := fun e => Writable k e.1 ∧ Writable u e.2)
      (fun x y hxy hx => ⟨shuffle_writable k _ _ hxy.1 hx.1, shuffle_writable u _ _ hxy.2 hx.2⟩) h hv
  | .list t, _, _, h, hv => sameItems_all (shuffle_writable t) h hv
  | .map _ t, _, _, h, hv => sameItems_all (R := SamePair Eq (Shuffle t)) (P := fun e : U32 × t.El => e.1.toNat < 2 ^ 29 ∧ Writable t e.2)
      (fun x y hxy hx => ⟨by rw [← hxy.1]; exact hx.1, shuffle_writable t _ _ hxy.2 hx.2⟩) h hv
  | .struct _ _ fs, v, w, h, hv => shuffleFields_writable fs _ _ h hv
  | .enum _ _ fs vs, ⟨_, .inl x⟩, ⟨_, .inl y⟩, h, hv => shuffleFields_writable fs x y h hv
  | .enum _ _ fs vs, ⟨_, .inr x⟩, ⟨_, .inr y⟩, h, hv => shuffleVariant_writable vs x y h hv
  | .enum _ _ fs vs, ⟨_, .inl x⟩, ⟨_, .inr y⟩, h, _ => h.elim
  | .enum _ _ fs vs, ⟨_, .inr x⟩, ⟨_, .inl y⟩, h, _ => h.elim

theorem shuffleTuple_writable : (ts : Tys) → ∀ v w, ShuffleTuple ts v w → WritableTuple ts v → WritableTuple ts w
  | .nil, _, _, _, _ => trivial
  | .cons t ts, v, w, h, hv => ⟨shuffle_writable t v.1 w.1 h.1 hv.1, shuffleTuple_writable ts v.2 w.2 h.2 hv.2⟩

theorem shuffleFields_writable : (fs : Fields) → ∀ v w, ShuffleFields fs v w → WritableFields fs v → WritableFields fs w
  | .nil, _, _, _, _ => trivial
  | .cons _ _ t fs, v, w, h, hv => ⟨shuffle_writable t v.1 w.1 h.1 hv.1, shuffleFields_writable fs v.2 w.2 h.2 hv.2⟩

theorem shuffleVariant_writable : (vs : Variants) → ∀ v w, ShuffleVariant vs v w → WritableVariant vs v → WritableVariant vs w
  | .nil, v, _, _, _ => nomatch v
  | .cons _ _ fs vs, .inl x, .inl y, h, hv => shuffleFields_writable fs x y h hv
  | .cons _ _ fs vs, .inr x, .inr y, h, hv => shuffleVariant_writable vs x y h hv
  | .cons _ _ fs vs, .inl x, .inr y, h, _ => h.elim
  | .cons _ _ fs vs, .inr x, .inl y, h, _ => h.elim
end

theorem sameItems_mem {α : Type} {R : α → α → Prop} : ∀ {a b : List α}, SameItems R a b → ∀ y ∈ b, ∃ x ∈ a, R x y
  | [], [], _, _, hy => nomatch hy
  | x :: xs, y :: ys, h, z, hz => by
    rcases List.mem_cons.1 hz with rfl | hz
    · exact ⟨x, by simp, h.1⟩
    · obtain ⟨u, hu, huz⟩ := sameItems_mem h.2 z hz
      exact ⟨u, by simp [hu], huz⟩

theorem pairwise_sameItems {α : Type} {R : α → α → Prop} {P : α → α → Prop} : ∀ {a b : List α},
    (∀ x ∈ a, ∀ y ∈ a, ∀ x' ∈ b, ∀ y' ∈ b, R x x' → R y y' → P x y → P x' y') → SameItems R a b → a.Pairwise P → b.Pairwise P
  | [], [], _, _, _ => .nil
  | x :: xs, y :: ys, h, hab, ha => by
    rw [List.pairwise_cons] at ha ⊢
    refine ⟨fun z hz => ?_, pairwise_sameItems (fun x hx y hy x' hx' y' hy' => h x (by simp [hx]) y (by simp [hy]) x' (by simp [hx']) y' (by simp [hy'])) hab.2 ha.2⟩
    obtain ⟨u, hu, huz⟩ := sameItems_mem hab.2 z hz
    exact h x (by simp) u (by simp [hu]) y (by simp) z (by simp [hz]) hab.1 huz (ha.1 u hu)

theorem map_fst_same {α β γ : Type} {R : β → γ → Prop} : ∀ {a : List (α × β)} {b : List (α × γ)}, SameItems (SamePair Eq R) a b →
    a.map (·.1) = b.map (·.1)
  | [], [], _ => rfl
  | _ :: _, _ :: _, h => by rw [List.map_cons, List.map_cons, h.1.1, map_fst_same h.2]

mutual
theorem shuffle_keyed : (t : Ty) → ∀ v w, Shuffle t v w → Keyed t v → Keyed t w
  | .uint _, _, _, _, _ => trivial
  | .sint _, _, _, _, _ => trivial
  | .bool, _, _, _, _ => trivial
  | .string, _, _, _, _ => trivial
  | .bytes, _, _, _, _ => trivial
  | .vec t, _, _, h, hv => sameItems_all (shuffle_keyed t) h hv
  | .array _ t, _, _, h, hv => sameItems_all (shuffle_keyed t) h hv
  | .tuple ts, v, w, h, hv => shuffleTuple_keyed ts v w h hv
  | .option t, none, none, _, _ => fun _ hx => nomatch hx
  | .option t, some x, some y, h, hv => fun z hz => by cases hz; exact shuffle_keyed t x y h (hv x rfl)
  | .option t, none, some _, h, _ => h.elim
  | .option t, some _, none, h, _ => h.elim
  | .box t, v, w, h, hv => shuffle_keyed t v w h hv
  | .hashMap k u, v, w, h, hv => by
    refine ⟨reordered_all (R := SamePair (Shuffle k) (Shuffle u)) (P := fun e => Keyed k e.1 ∧ Keyed u e.2)
      (fun x y hxy hx => ⟨shuffle_keyed k _ _ hxy.1 hx.1, shuffle_keyed u _ _ hxy.2 hx.2⟩) h hv.1, ?_⟩
    obtain ⟨c, h1, h2⟩ := h
    refine h2.pairwise (pairwise_sameItems (fun x _ y _ x' _ y' _ hx hy hne heq => hne ?_) h1 hv.2) fun hne heq => hne (equal_symm k _ _ heq)
    exact equal_trans k _ _ _ (equal_of_shuffle k _ _ hx.1) (equal_trans k _ _ _ heq (equal_symm k _ _ (equal_of_shuffle k _ _ hy.1)))
  | .list t, _, _, h, hv => sameItems_all (shuffle_keyed t) h hv
  | .map _ t, v, w, h, hv => by
    refine ⟨sameItems_all (R := SamePair Eq (Shuffle t)) (P := fun e : U32 × t.El => Keyed t e.2) (fun x y hxy hx => shuffle_keyed t _ _ hxy.2 hx) h hv.1, ?_⟩
    have := hv.2
    rwa [map_fst_same h] at this
  | .struct _ _ fs, v, w, h, hv => shuffleFields_keyed fs _ _ h hv
  | .enum _ _ fs vs, ⟨_, .inl x⟩, ⟨_, .inl y⟩, h, hv => shuffleFields_keyed fs x y h hv
  | .enum _ _ fs vs, ⟨_, .inr x⟩, ⟨_, .inr y⟩, h, hv => shuffleVariant_keyed vs x y h hv
  | .enum _ _ fs vs, ⟨_, .inl x⟩, ⟨_, .inr y⟩, h, _ => h.elim
  | .enum _ _ fs vs, ⟨_, .inr x⟩, ⟨_, .inl y⟩, h, _ => h.elim

theorem shuffleTuple_keyed : (ts : Tys) → ∀ v w, ShuffleTuple ts v w → KeyedTuple ts v → KeyedTuple ts w
  | .nil, _, _, _, _ => trivial
  | .cons t ts, v, w, h, hv => ⟨shuffle_keyed t v.1 w.1 h.1 hv.1, shuffleTuple_keyed ts v.2 w.2 h.2 hv.2⟩

theorem shuffleFields_keyed : (fs : Fields) → ∀ v w, ShuffleFields fs v w → KeyedFields fs v → KeyedFields fs w
  | .nil, _, _, _, _ => trivial
  | .cons _ _ t fs, v, w, h, hv => ⟨shuffle_keyed t v.1 w.1 h.1 hv.1, shuffleFields_keyed fs v.2 w.2 h.2 hv.2⟩

theorem shuffleVariant_keyed : (vs : Variants) → ∀ v w, ShuffleVariant vs v w → KeyedVariant vs v → KeyedVariant vs w
  | .nil, v, _, _, _ => nomatch v
  | .cons _ _ fs vs, .inl x, .inl y, h, hv => shuffleFields_keyed fs x y h hv
  | .cons _ _ fs vs, .inr x, .inr y, h, hv => shuffleVariant_keyed vs x y h hv
  | .cons _ _ fs vs, .inl x, .inr y, h, _ => h.elim
  | .cons _ _ fs vs, .inr x, .inl y, h, _ => h.elim
end

mutual
theorem shuffle_carried : (t : Ty) → ∀ v w, Shuffle t v w → Carried t v → Carried t w
  | .uint _, _, _, _, _ => trivial
  | .sint _, _, _, h, hv => by rw [← show _ = _ from h]; exact hv
  | .bool, _, _, _, _ => trivial
  | .string, _, _, _, _ => trivial
  | .bytes, _, _, _, _ => trivial
  | .vec t, _, _, h, hv => sameItems_all (shuffle_carried t) h hv
  | .array _ t, _, _, h, hv => sameItems_all (shuffle_carried t) h hv
  | .tuple ts, v, w, h, hv => shuffleTuple_carried ts v w h hv
  | .option t, none, none, _, _ => fun _ hx => nomatch hx
  | .option t, some x, some y, h, hv => fun z hz => by cases hz; exact shuffle_carried t x y h (hv x rfl)
  | .option t, none, some _, h, _ => h.elim
  | .option t, some _, none, h, _ => h.elim
  | .box t, v, w, h, hv => shuffle_carried t v w h hv
  | .hashMap k u, v, w, h, hv => by
    have hw := shuffle_keyed (.hashMap k u) v w h (keyed_of_carried (.hashMap k u) v hv)
    refine ⟨reordered_all (R := SamePair (Shuffle k) (Shuffle u)) (P := fun e => Carried k e.1 ∧ Carried u e.2)
      (fun x y hxy hx => ⟨shuffle_carried k _ _ hxy.1 hx.1, shuffle_carried u _ _ hxy.2 hx.2⟩) h hv.1, ?_⟩
    refine hw.2.imp_of_mem fun {a b} ha hb hne => ?_
    rw [← Bool.not_eq_true, eq_iff k _ _ (hw.1 a ha).1 (hw.1 b hb).1]
    exact hne
  | .list t, _, _, h, hv => sameItems_all (shuffle_carried t) h hv
  | .map kt t, v, w, h, hv => by
    refine ⟨sameItems_all (R := SamePair Eq (Shuffle t)) (P := fun e : U32 × t.El => e.1.toNat ≤ kt.max ∧ e.1.toNat < 2 ^ 29 ∧ Carried t e.2)
      (fun x y hxy hx => ⟨by rw [← hxy.1]; exact hx.1, by rw [← hxy.1]; exact hx.2.1, shuffle_carried t _ _ hxy.2 hx.2.2⟩) h hv.1, ?_⟩
    have := hv.2
    rwa [map_fst_same h] at this
  | .struct _ _ fs, v, w, h, hv => shuffleFields_carried fs _ _ h hv
  | .enum _ _ fs vs, ⟨_, .inl x⟩, ⟨_, .inl y⟩, h, hv => shuffleFields_carried fs x y h hv
  | .enum _ _ fs vs, ⟨_, .inr x⟩, ⟨_, .inr y⟩, h, hv => shuffleVariant_carried vs x y h hv
  | .enum _ _ fs vs, ⟨_, .inl x⟩, ⟨_, .inr y⟩, h, _ => h.elim
  | .enum _ _ fs vs, ⟨_, .inr x⟩, ⟨_, .inl y⟩, h, _ => h.elim

theorem shuffleTuple_carried : (ts : Tys) → ∀ v w, ShuffleTuple ts v w → CarriedTuple ts v → CarriedTuple ts w
  | .nil, _, _, _, _ => trivial
  | .cons t ts, v, w, h, hv => ⟨shuffle_carried t v.1 w.1 h.1 hv.1, shuffleTuple_carried ts v.2 w.2 h.2 hv.2⟩

theorem shuffleFields_carried : (fs : Fields) → ∀ v w, ShuffleFields fs v w → CarriedFields fs v → CarriedFields fs w
  | .nil, _, _, _, _ => trivial
  | .cons _ _ t fs, v, w, h, hv => ⟨shuffle_carried t v.1 w.1 h.1 hv.1, shuffleFields_carried fs v.2 w.2 h.2 hv.2⟩

theorem shuffleVariant_carried : (vs : Variants) → ∀ v w, ShuffleVariant vs v w → CarriedVariant vs v → CarriedVariant vs w
  | .nil, v, _, _, _ => nomatch v
  | .cons _ _ fs vs, .inl x, .inl y, h, hv => shuffleFields_carried fs x y h hv
  | .cons _ _ fs vs, .inr x, .inr y, h, hv => shuffleVariant_carried vs x y h hv
  | .cons _ _ fs vs, .inl x, .inr y, h, _ => h.elim
  | .cons _ _ fs vs, .inr x, .inl y, h, _ => h.elim
end

end Steit
