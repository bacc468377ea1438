import Verif.Lemmas.Shuffle
import Verif.Lemmas.Opaque

/-! # A program with opaque parts that reorders its hash maps: what this amounts to for the whole value -/

namespace Steit
open Spec

section
variable {α β γ : Type} {f : α → β} {s : β → γ} {R : β → β → Prop} {Q : α → α → Prop}

theorem lift_items (h : ∀ x y, R (f x) y → ∃ x', Q x x' ∧ s y = s (f x')) : ∀ {v : List α} {w : List β}, SameItems R (v.map f) w →
    ∃ v', SameItems Q v v' ∧ w.map s = (v'.map f).map s
  | [], [], _ => ⟨[], trivial, rfl⟩
  | x :: v, y :: w, hx => by
    obtain ⟨x', h1, h2⟩ := h x y hx.1
    obtain ⟨v', h3, h4⟩ := lift_items h hx.2
    exact ⟨x' :: v', ⟨h1, h3⟩, by rw [List.map_cons, List.map_cons, List.map_cons, h2, h4]⟩

theorem forall₂_of_map {g : α → γ} : ∀ {a : List β} {b : List α}, a.map s = b.map g → List.Forall₂ (fun y x => s y = g x) a b
  | [], [], _ => .nil
  | [], _ :: _, h => nomatch h
  | _ :: _, [], h => nomatch h
  | _ :: _, _ :: _, h => by
    rw [List.map_cons, List.map_cons, List.cons.injEq] at h
    exact .cons h.1 (forall₂_of_map h.2)

theorem map_of_forall₂ {g : α → γ} {a : List β} {b : List α} (h : List.Forall₂ (fun y x => s y = g x) a b) : a.map s = b.map g := by
  induction h with
  | nil => rfl
  | cons h _ ih => rw [List.map_cons, List.map_cons, h, ih]

theorem lift_reordered (h : ∀ x y, R (f x) y → ∃ x', Q x x' ∧ s y = s (f x')) {v : List α} {w : List β} (hr : Reordered R (v.map f) w) :
    ∃ v', Reordered Q v v' ∧ w.map s = (v'.map f).map s := by
  obtain ⟨c, h1, h2⟩ := hr
  obtain ⟨u, h3, h4⟩ := lift_items h h1
  rw [List.map_map] at h4
  obtain ⟨v', h5, h6⟩ := List.perm_comp_forall₂ h2.symm (forall₂_of_map h4)
  exact ⟨v', ⟨u, h3, h6.symm⟩, by rw [List.map_map]; exact map_of_forall₂ h5⟩

end

mutual
/-- Whatever the program in between does to the order of its hash maps, it holds what it would see of a value that differs from the
original one in the order of hash maps. -/
theorem Spec.Veil.lift : (r : Veil) → ∀ v w, Shuffle r.relay (r.seen v) w → ∃ v', Shuffle r.src v v' ∧ strip r.relay w = strip r.relay (r.seen v')
  | .same _, _, w, h => ⟨w, h, rfl⟩
  | .hide t, v, _, h => ⟨v, shuffle_refl t v, Eq.symm h⟩
  | .vec r, v, w, h => lift_items r.lift h
  | .array _ r, v, w, h => by
    obtain ⟨v', h1, h2⟩ := lift_items r.lift h
    have hl : v'.length = _ := (sameItems_length h1).symm.trans v.2
    exact ⟨⟨v', hl⟩, h1, Subtype.ext h2⟩
  | .tuple rs, v, w, h => rs.lift v w h
  | .option r, none, none, h => ⟨none, trivial, rfl⟩
  | .option r, some x, some y, h => by
    obtain ⟨x', h1, h2⟩ := r.lift x y h
    exact ⟨some x', h1, congrArg some h2⟩
  | .option r, none, some _, h => h.elim
  | .option r, some _, none, h => h.elim
  | .box r, v, w, h => r.lift v w h
  | .hashMap k r, v, w, h => lift_reordered (f := fun e : k.El × r.src.El => (e.1, r.seen e.2)) (s := fun e => (strip k e.1, strip r.relay e.2))
      (R := SamePair (Shuffle k) (Shuffle r.relay)) (Q := SamePair (Shuffle k) (Shuffle r.src)) (fun x y hxy => by
        obtain ⟨x', h1, h2⟩ := r.lift x.2 y.2 hxy.2
        exact ⟨(y.1, x'), ⟨hxy.1, h1⟩, Prod.ext rfl h2⟩) h
  | .list r, v, w, h => by
    obtain ⟨v', h1, h2⟩ := lift_items r.lift h
    exact ⟨⟨Rt.dflt, v'⟩, h1, congrArg (ListV.mk Rt.dflt) h2⟩
  | .map kt r, v, w, h => by
    obtain ⟨v', h1, h2⟩ := lift_items (f := fun e : U32 × r.src.El => (e.1, r.seen e.2)) (s := fun e => (e.1, strip r.relay e.2))
      (R := SamePair Eq (Shuffle r.relay)) (Q := SamePair Eq (Shuffle r.src)) (fun x y hxy => by
        obtain ⟨x', h1, h2⟩ := r.lift x.2 y.2 hxy.2
        exact ⟨(y.1, x'), ⟨hxy.1, h1⟩, Prod.ext rfl h2⟩) h
    exact ⟨⟨Rt.dflt, v'⟩, h1, congrArg (MapV.mk Rt.dflt) h2⟩
  | .struct _ _ _ _ fs, v, w, h => by
    obtain ⟨v', h1, h2⟩ := fs.lift v.fields w.fields h
    exact ⟨⟨Rt.dflt, v'⟩, h1, congrArg (StructV.mk Rt.dflt) h2⟩
  | .enum _ _ _ _ fs vs, ⟨_, .inl x⟩, ⟨_, .inl y⟩, h => by
    obtain ⟨v', h1, h2⟩ := fs.lift x y h
    exact ⟨⟨Rt.dflt, .inl v'⟩, h1, congrArg (fun z => EnumV.mk Rt.dflt (Sum.inl z)) h2⟩
  | .enum _ _ _ _ fs vs, ⟨_, .inr x⟩, ⟨_, .inr y⟩, h => by
    obtain ⟨v', h1, h2⟩ := vs.lift x y h
    exact ⟨⟨Rt.dflt, .inr v'⟩, h1, congrArg (fun z => EnumV.mk Rt.dflt (Sum.inr z)) h2⟩
  | .enum _ _ _ _ fs vs, ⟨_, .inl x⟩, ⟨_, .inr y⟩, h => h.elim
  | .enum _ _ _ _ fs vs, ⟨_, .inr x⟩, ⟨_, .inl y⟩, h => h.elim

theorem Spec.VeilTuple.lift : (rs : VeilTuple) → ∀ v w, ShuffleTuple rs.relay (rs.seen v) w →
    ∃ v', ShuffleTuple rs.src v v' ∧ stripTuple rs.relay w = stripTuple rs.relay (rs.seen v')
  | .nil, v, _, _ => ⟨v, trivial, rfl⟩
  | .cons r rs, v, w, h => by
    obtain ⟨x, h1, h2⟩ := r.lift v.1 w.1 h.1
    obtain ⟨y, h3, h4⟩ := rs.lift v.2 w.2 h.2
    exact ⟨(x, y), ⟨h1, h3⟩, Prod.ext h2 h4⟩

theorem Spec.VeilFields.lift : (fs : VeilFields) → ∀ v w, ShuffleFields fs.relay (fs.seen v) w →
    ∃ v', ShuffleFields fs.src v v' ∧ stripFields fs.relay w = stripFields fs.relay (fs.seen v')
  | .nil, v, _, _ => ⟨v, trivial, rfl⟩
  | .cons _ _ _ r fs, v, w, h => by
    obtain ⟨x, h1, h2⟩ := r.lift v.1 w.1 h.1
    obtain ⟨y, h3, h4⟩ := fs.lift v.2 w.2 h.2
    exact ⟨(x, y), ⟨h1, h3⟩, Prod.ext h2 h4⟩

theorem Spec.VeilVariants.lift : (vs : VeilVariants) → ∀ v w, ShuffleVariant vs.relay (vs.seen v) w →
    ∃ v', ShuffleVariant vs.src v v' ∧ stripVariant vs.relay w = stripVariant vs.relay (vs.seen v')
  | .nil, v, _, _ => nomatch v
  | .cons _ _ _ fs vs, .inl x, .inl y, h => by
    obtain ⟨v', h1, h2⟩ := fs.lift x y h
    exact ⟨.inl v', h1, congrArg Sum.inl h2⟩
  | .cons _ _ _ fs vs, .inr x, .inr y, h => by
    obtain ⟨v', h1, h2⟩ := vs.lift x y h
    exact ⟨.inr v', h1, congrArg Sum.inr h2⟩
  | .cons _ _ _ fs vs, .inl x, .inr y, h => h.elim
  | .cons _ _ _ fs vs, .inr x, .inl y, h => h.elim
end

end Steit
