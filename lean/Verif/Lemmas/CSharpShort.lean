import Verif.Lemmas.CSharpHeard

/-! # Objects whose lists are short -/

namespace Steit
open Spec

mutual
/-- All lists in an object have less than 2³² items. -/
def Ty.Short : (t : Ty) → t.CsObj → Prop
  | .vec t, o => ∀ x ∈ o.data, t.Short x
  | .array _ t, o => ∀ x ∈ o.data, t.Short x
  | .option t, o => ∀ x ∈ o.data, t.Short x
  | .box t, o => t.Short o
  | .list t, o => o.data.length < 2 ^ 32 ∧ ∀ x ∈ o.data, t.Short x
  | .map _ t, o => ∀ e ∈ o.data, t.Short e.2
  | .struct _ _ fs, o => fs.Short o.data
  | .enum _ _ fs vs, o =>
    match o.data with
    | .inl x => fs.Short x.data
    | .inr x => vs.Short x
  | _, _ => True

def Fields.Short : (fs : Fields) → fs.CsObj → Prop
  | .nil, _ => True
  | .cons _ _ t fs, v => t.Short v.1 ∧ fs.Short v.2

def Variants.Short : (vs : Variants) → vs.CsObj → Prop
  | .nil, v => nomatch v
  | .cons _ _ fs vs, v =>
    match v with
    | .inl x => fs.Short x.data
    | .inr x => vs.Short x
end

/-- Lists found this way are short. -/
def AllShort (heldIn : U32 → List U32 → Option Held) : Prop :=
  ∀ k path t x, heldIn k path = some (.value t x) → t.count x < 2 ^ 32

theorem count_short : (t : Ty) → (o : t.CsObj) → t.Short o → t.count o < 2 ^ 32
  | .uint _, _, _ => (by decide : 0 < 2 ^ 32)
  | .sint _, _, _ => (by decide : 0 < 2 ^ 32)
  | .bool, _, _ => (by decide : 0 < 2 ^ 32)
  | .string, _, _ => (by decide : 0 < 2 ^ 32)
  | .bytes, _, _ => (by decide : 0 < 2 ^ 32)
  | .vec _, _, _ => (by decide : 0 < 2 ^ 32)
  | .array _ _, _, _ => (by decide : 0 < 2 ^ 32)
  | .tuple _, _, _ => (by decide : 0 < 2 ^ 32)
  | .option _, _, _ => (by decide : 0 < 2 ^ 32)
  | .box t, o, h => count_short t o h
  | .hashMap _ _, _, _ => (by decide : 0 < 2 ^ 32)
  | .list _, _, h => h.1
  | .map _ _, _, _ => (by decide : 0 < 2 ^ 32)
  | .struct _ _ _, _, _ => (by decide : 0 < 2 ^ 32)
  | .enum _ _ _ _, _, _ => (by decide : 0 < 2 ^ 32)

theorem from_short {t : Ty} {x : t.CsObj} {heldIn : U32 → List U32 → Option Held} (hx : t.Short x) (h : AllShort heldIn)
    {path : List U32} {s : Ty} {y : s.CsObj} (hh : heldFrom (.value t x) heldIn path = some (.value s y)) : s.count y < 2 ^ 32 := by
  cases path with
  | nil => cases hh; exact count_short t x hx
  | cons k path => exact h k path s y hh

theorem fromVariant_short {fs : Fields} {x : Obj fs.CsObj} {heldIn : U32 → List U32 → Option Held} (h : AllShort heldIn)
    {path : List U32} {s : Ty} {y : s.CsObj} (hh : heldFrom (.variant fs x) heldIn path = some (.value s y)) : s.count y < 2 ^ 32 := by
  cases path with
  | nil => cases hh
  | cons k path => exact h k path s y hh

theorem items_short {t : Ty} {xs : List t.CsObj} (h : ∀ x ∈ xs, t.Short x)
    (ih : ∀ x, t.Short x → AllShort (fun k path => t.heldIn k path x)) :
    AllShort (fun k path => (xs[k.toNat]?).bind fun x => heldFrom (.value t x) (fun k path => t.heldIn k path x) path) := by
  intro k path s y hh
  cases hx : xs[k.toNat]? with
  | none => simp only [hx] at hh; cases hh
  | some x =>
    simp only [hx, Option.bind_some] at hh
    have := h x (List.mem_of_getElem? hx)
    exact from_short this (ih x this) hh

theorem mem_of_lookup {α : Type} {k : U32} {x : α} : ∀ {d : List (U32 × α)}, d.lookup k = some x → (k, x) ∈ d
  | [], h => nomatch h
  | (j, y) :: d, h => by
    simp only [List.lookup] at h
    split at h
    · rename_i hk
      cases h
      have : k = j := by simpa using hk
      subst this
      exact List.mem_cons_self
    · exact List.mem_cons_of_mem _ (mem_of_lookup h)

mutual
theorem short_held : (t : Ty) → (o : t.CsObj) → t.Short o → AllShort (fun k path => t.heldIn k path o)
  | .uint _, _, _ => fun _ _ _ _ h => nomatch h
  | .sint _, _, _ => fun _ _ _ _ h => nomatch h
  | .bool, _, _ => fun _ _ _ _ h => nomatch h
  | .string, _, _ => fun _ _ _ _ h => nomatch h
  | .bytes, _, _ => fun _ _ _ _ h => nomatch h
  | .tuple _, _, _ => fun _ _ _ _ h => nomatch h
  | .hashMap _ _, _, _ => fun _ _ _ _ h => nomatch h
  | .vec t, o, h => items_short h (fun x hx => short_held t x hx)
  | .array _ t, o, h => items_short h (fun x hx => short_held t x hx)
  | .list t, o, h => items_short h.2 (fun x hx => short_held t x hx)
  | .option t, o, h => by
    intro k path s y hh
    simp only [Ty.heldIn] at hh
    split at hh
    · cases hx : o.data with
      | none => rw [hx] at hh; cases hh
      | some x =>
        rw [hx] at hh
        have := h x (by rw [hx]; rfl)
        exact from_short this (short_held t x this) hh
    · cases hh
  | .box t, o, h => short_held t o h
  | .map _ t, o, h => by
    intro k path s y hh
    simp only [Ty.heldIn] at hh
    cases hx : o.data.lookup k with
    | none => rw [hx] at hh; cases hh
    | some x =>
      rw [hx] at hh
      have := h (k, x) (mem_of_lookup hx)
      exact from_short this (short_held t x this) hh
  | .struct _ _ fs, o, h => shortFields_held fs o.data h
  | .enum _ _ fs vs, ⟨p, x⟩, h => by
    intro k path s y hh
    rcases x with x | x
    · simp only [Ty.heldIn] at hh
      split at hh
      · exact fromVariant_short (shortFields_held fs x.data h) hh
      · cases hh
    · exact shortVariants_held vs x h k path s y hh

theorem shortFields_held : (fs : Fields) → (v : fs.CsObj) → fs.Short v → AllShort (fun k path => fs.heldIn k path v)
  | .nil, _, _ => fun _ _ _ _ h => nomatch h
  | .cons tag _ t fs, v, h => by
    intro k path s y hh
    simp only [Fields.heldIn] at hh
    split at hh
    · exact from_short h.1 (short_held t v.1 h.1) hh
    · exact shortFields_held fs v.2 h.2 k path s y hh

theorem shortVariants_held : (vs : Variants) → (v : vs.CsObj) → vs.Short v → AllShort (fun k path => vs.heldIn k path v)
  | .nil, v, _ => nomatch v
  | .cons tag _ fs vs, v, h => by
    intro k path s y hh
    rcases v with x | x
    · simp only [Variants.heldIn] at hh
      split at hh
      · exact fromVariant_short (shortFields_held fs x.data h) hh
      · cases hh
    · exact shortVariants_held vs x h k path s y hh
end

theorem short_roomy {t : Ty} {o : t.CsObj} (h : t.Short o) : Roomy t.held o :=
  fun _ _ _ hh => from_short h (short_held t o h) hh

end Steit
