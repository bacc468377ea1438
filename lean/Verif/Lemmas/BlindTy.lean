import Verif.Lemmas.Blind
import Verif.Lemmas.DecTy
import Verif.Spec.Address

/-! # Reading and replaying do not look at runtimes: all types -/

namespace Steit
open Spec

mutual
/-- The same data, part by part, with any runtimes; enums that are states have a parent. -/
def Twin : (t : Ty) → t.El → t.El → Prop
  | .uint _ => Eq
  | .sint _ => Eq
  | .bool => Eq
  | .string => Eq
  | .bytes => Eq
  | .vec t => SameItems (Twin t)
  | .array _ t => fun x y => SameItems (Twin t) x.1 y.1
  | .tuple ts => TwinTuple ts
  | .option t => SameOption (Twin t)
  | .box t => Twin t
  | .hashMap k v => SameItems (SamePair (Twin k) (Twin v))
  | .list t => fun x y => SameItems (Twin t) x.items y.items
  | .map _ t => fun x y => SameItems (SamePair Eq (Twin t)) x.entries y.entries
  | .struct _ _ fs => fun x y => TwinFields fs x.fields y.fields
  | .enum ds _ fs vs => TwinEnum ds (SameSum (TwinFields fs) (TwinVariant vs))

def TwinTuple : (ts : Tys) → ts.El → ts.El → Prop
  | .nil => fun _ _ => True
  | .cons t ts => SamePair (Twin t) (TwinTuple ts)

def TwinFields : (fs : Fields) → fs.El → fs.El → Prop
  | .nil => fun _ _ => True
  | .cons _ _ t fs => SamePair (Twin t) (TwinFields fs)

def TwinVariant : (vs : Variants) → vs.El → vs.El → Prop
  | .nil => fun _ _ => False
  | .cons _ _ fs vs => SameSum (TwinFields fs) (TwinVariant vs)
end

theorem map_of_sameItems {α γ : Type} {R : α → α → Prop} {f : α → γ} (hf : ∀ x y, R x y → f x = f y) :
    ∀ {xs ys : List α}, SameItems R xs ys → xs.map f = ys.map f
  | [], [], _ => rfl
  | _ :: _, _ :: _, h => by rw [List.map_cons, List.map_cons, hf _ _ h.1, map_of_sameItems hf h.2]

theorem sameItems_of_map {α γ : Type} {R : α → α → Prop} {f : α → γ} :
    ∀ {xs ys : List α}, (∀ x ∈ xs, ∀ y ∈ ys, f x = f y → R x y) → xs.map f = ys.map f → SameItems R xs ys
  | [], [], _, _ => trivial
  | [], _ :: _, _, h => nomatch h
  | _ :: _, [], _, h => nomatch h
  | x :: xs, y :: ys, hf, h => by
    rw [List.map_cons, List.map_cons, List.cons.injEq] at h
    exact ⟨hf x (by simp) y (by simp) h.1, sameItems_of_map (fun a ha b hb => hf a (by simp [ha]) b (by simp [hb])) h.2⟩

mutual
theorem same_of_twin : (t : Ty) → ∀ v w, Twin t v w → Same t v w
  | .uint _, _, _, h => h
  | .sint _, _, _, h => h
  | .bool, _, _, h => h
  | .string, _, _, h => h
  | .bytes, _, _, h => h
  | .vec t, _, _, h => map_of_sameItems (same_of_twin t) h
  | .array _ t, _, _, h => Subtype.ext (map_of_sameItems (same_of_twin t) h)
  | .tuple ts, v, w, h => same_of_twinTuple ts v w h
  | .option t, none, none, _ => rfl
  | .option t, some x, some y, h => congrArg some (same_of_twin t x y h)
  | .option t, none, some _, h => h.elim
  | .option t, some _, none, h => h.elim
  | .box t, v, w, h => same_of_twin t v w h
  | .hashMap k v, _, _, h => map_of_sameItems (f := fun e : k.El × v.El => (strip k e.1, strip v e.2)) (fun _ _ hxy => Prod.ext (same_of_twin k _ _ hxy.1) (same_of_twin v _ _ hxy.2)) h
  | .list t, v, w, h => congrArg (ListV.mk Rt.dflt) (map_of_sameItems (same_of_twin t) h)
  | .map _ t, v, w, h => congrArg (MapV.mk Rt.dflt) (map_of_sameItems (f := fun e => (e.1, strip t e.2)) (fun _ _ hxy => Prod.ext hxy.1 (same_of_twin t _ _ hxy.2)) h)
  | .struct _ _ fs, v, w, h => congrArg (StructV.mk Rt.dflt) (same_of_twinFields fs _ _ h)
  | .enum ds _ fs vs, ⟨_, .inl x⟩, ⟨_, .inl y⟩, h => congrArg (fun z => EnumV.mk Rt.dflt (Sum.inl z)) (same_of_twinFields fs x y h.2)
  | .enum ds _ fs vs, ⟨_, .inr x⟩, ⟨_, .inr y⟩, h => congrArg (fun z => EnumV.mk Rt.dflt (Sum.inr z)) (same_of_twinVariant vs x y h.2)
  | .enum ds _ fs vs, ⟨_, .inl x⟩, ⟨_, .inr y⟩, h => h.2.elim
  | .enum ds _ fs vs, ⟨_, .inr x⟩, ⟨_, .inl y⟩, h => h.2.elim

theorem same_of_twinTuple : (ts : Tys) → ∀ v w, TwinTuple ts v w → stripTuple ts v = stripTuple ts w
  | .nil, _, _, _ => rfl
  | .cons t ts, _, _, h => Prod.ext (same_of_twin t _ _ h.1) (same_of_twinTuple ts _ _ h.2)

theorem same_of_twinFields : (fs : Fields) → ∀ v w, TwinFields fs v w → stripFields fs v = stripFields fs w
  | .nil, _, _, _ => rfl
  | .cons _ _ t fs, _, _, h => Prod.ext (same_of_twin t _ _ h.1) (same_of_twinFields fs _ _ h.2)

theorem same_of_twinVariant : (vs : Variants) → ∀ v w, TwinVariant vs v w → stripVariant vs v = stripVariant vs w
  | .nil, v, _, _ => nomatch v
  | .cons _ _ fs vs, .inl x, .inl y, h => congrArg Sum.inl (same_of_twinFields fs x y h)
  | .cons _ _ fs vs, .inr x, .inr y, h => congrArg Sum.inr (same_of_twinVariant vs x y h)
  | .cons _ _ fs vs, .inl x, .inr y, h => h.elim
  | .cons _ _ fs vs, .inr x, .inl y, h => h.elim
end

mutual
theorem twin_of_same : (t : Ty) → ∀ (rt rt' : Rt) v w, At t rt v → At t rt' w → Same t v w → Twin t v w
  | .uint _, _, _, _, _, _, _, h => h
  | .sint _, _, _, _, _, _, _, h => h
  | .bool, _, _, _, _, _, _, h => h
  | .string, _, _, _, _, _, _, h => h
  | .bytes, _, _, _, _, _, _, h => h
  | .vec t, rt, rt', v, w, hv, hw, h => sameItems_of_map (fun x hx y hy hxy => by
      obtain ⟨r, hr⟩ := hv x hx
      obtain ⟨r', hr'⟩ := hw y hy
      exact twin_of_same t r r' x y hr hr' hxy) h
  | .array _ t, rt, rt', v, w, hv, hw, h => sameItems_of_map (fun x hx y hy hxy => by
      obtain ⟨r, hr⟩ := hv x hx
      obtain ⟨r', hr'⟩ := hw y hy
      exact twin_of_same t r r' x y hr hr' hxy) (congrArg Subtype.val h)
  | .tuple ts, _, _, v, w, hv, hw, h => twinTuple_of_same ts v w hv hw h
  | .option t, _, _, none, none, _, _, _ => trivial
  | .option t, _, _, some x, some y, hv, hw, h => by
      obtain ⟨r, hr⟩ := hv x rfl
      obtain ⟨r', hr'⟩ := hw y rfl
      exact twin_of_same t r r' x y hr hr' (Option.some.inj h)
  | .option t, _, _, none, some _, _, _, h => nomatch h
  | .option t, _, _, some _, none, _, _, h => nomatch h
  | .box t, rt, rt', v, w, hv, hw, h => twin_of_same t rt rt' v w hv hw h
  | .hashMap k u, _, _, v, w, hv, hw, h => sameItems_of_map (fun x hx y hy hxy => by
      obtain ⟨⟨a, ha⟩, ⟨b, hb⟩⟩ := hv x hx
      obtain ⟨⟨a', ha'⟩, ⟨b', hb'⟩⟩ := hw y hy
      rw [Prod.mk.injEq] at hxy
      exact ⟨twin_of_same k a a' x.1 y.1 ha ha' hxy.1, twin_of_same u b b' x.2 y.2 hb hb' hxy.2⟩) h
  | .list t, rt, rt', v, w, hv, hw, h => sameItems_of_map (fun x hx y hy hxy => by
      obtain ⟨i, hi⟩ := List.getElem?_of_mem hx
      obtain ⟨j, hj⟩ := List.getElem?_of_mem hy
      exact twin_of_same t _ _ x y (hv.2 i x hi) (hw.2 j y hj) hxy) (congrArg ListV.items h)
  | .map _ t, rt, rt', v, w, hv, hw, h => sameItems_of_map (fun x hx y hy hxy => by
      rw [Prod.mk.injEq] at hxy
      exact ⟨hxy.1, twin_of_same t _ _ x.2 y.2 (hv.2.2 x hx) (hw.2.2 y hy) hxy.2⟩) (congrArg MapV.entries h)
  | .struct ds _ fs, rt, rt', v, w, hv, hw, h => twinFields_of_same fs ds rt rt' _ _ hv.2 hw.2 (congrArg StructV.fields h)
  | .enum ds _ fs vs, rt, rt', ⟨_, .inl x⟩, ⟨_, .inl y⟩, hv, hw, h => by
      refine ⟨fun hd => ?_, twinFields_of_same fs ds _ _ x y hv.2 hw.2 (Sum.inl.inj (congrArg EnumV.val h))⟩
      have h1 := hv.1 hd
      have h2 := hw.1 hd
      dsimp only at h1 h2
      subst h1; subst h2
      exact ⟨nested_path _ _, nested_path _ _⟩
  | .enum ds _ fs vs, rt, rt', ⟨o, .inr x⟩, ⟨o', .inr y⟩, hv, hw, h =>
      twinVariant_of_same vs ds rt rt' o o' x y hv hw (Sum.inr.inj (congrArg EnumV.val h))
  | .enum ds _ fs vs, rt, rt', ⟨_, .inl x⟩, ⟨_, .inr y⟩, hv, hw, h => nomatch congrArg EnumV.val h
  | .enum ds _ fs vs, rt, rt', ⟨_, .inr x⟩, ⟨_, .inl y⟩, hv, hw, h => nomatch congrArg EnumV.val h

theorem twinTuple_of_same : (ts : Tys) → ∀ v w, AtTuple ts v → AtTuple ts w → stripTuple ts v = stripTuple ts w → TwinTuple ts v w
  | .nil, _, _, _, _, _ => trivial
  | .cons t ts, v, w, hv, hw, h => by
      obtain ⟨r, hr⟩ := hv.1
      obtain ⟨r', hr'⟩ := hw.1
      have h' := Prod.mk.inj h
      exact ⟨twin_of_same t r r' v.1 w.1 hr hr' h'.1, twinTuple_of_same ts v.2 w.2 hv.2 hw.2 h'.2⟩

theorem twinFields_of_same : (fs : Fields) → ∀ (ds : Bool) (rt rt' : Rt) v w, AtFields fs ds rt v → AtFields fs ds rt' w →
    stripFields fs v = stripFields fs w → TwinFields fs v w
  | .nil, _, _, _, _, _, _, _, _ => trivial
  | .cons tag attrs t fs, ds, rt, rt', v, w, hv, hw, h => by
      have h' := Prod.mk.inj h
      refine ⟨?_, twinFields_of_same fs ds rt rt' v.2 w.2 hv.2 hw.2 h'.2⟩
      have h1 := hv.1
      have h2 := hw.1
      cases hb : ds && !attrs.noState with
      | true =>
        rw [if_pos hb] at h1 h2
        exact twin_of_same t _ _ v.1 w.1 h1 h2 h'.1
      | false =>
        rw [if_neg (by rw [hb]; decide)] at h1 h2
        obtain ⟨r, hr⟩ := h1
        obtain ⟨r', hr'⟩ := h2
        exact twin_of_same t r r' v.1 w.1 hr hr' h'.1

theorem twinVariant_of_same : (vs : Variants) → ∀ (ds : Bool) (rt rt' own own' : Rt) v w, AtVariant vs ds rt own v → AtVariant vs ds rt' own' w →
    stripVariant vs v = stripVariant vs w → (ds = true → own.path ≠ [] ∧ own'.path ≠ []) ∧ TwinVariant vs v w
  | .nil, _, _, _, _, _, v, _, _, _, _ => nomatch v
  | .cons tag _ fs vs, ds, rt, rt', own, own', .inl x, .inl y, hv, hw, h => by
      refine ⟨fun hd => ?_, twinFields_of_same fs ds _ _ x y hv.2 hw.2 (Sum.inl.inj h)⟩
      rw [hv.1 hd, hw.1 hd]
      exact ⟨nested_path _ _, nested_path _ _⟩
  | .cons tag _ fs vs, ds, rt, rt', own, own', .inr x, .inr y, hv, hw, h =>
      twinVariant_of_same vs ds rt rt' own own' x y hv hw (Sum.inr.inj h)
  | .cons tag _ fs vs, ds, rt, rt', own, own', .inl x, .inr y, hv, hw, h => nomatch h
  | .cons tag _ fs vs, ds, rt, rt', own, own', .inr x, .inl y, hv, hw, h => nomatch h
end

theorem eq_of_twin (t : Ty) (a b a' b' : t.El) (h : Twin t a a') (h' : Twin t b b') : t.eq a b = t.eq a' b' := by
  rw [← eq_strip t a b, ← eq_strip t a' b', show strip t a = strip t a' from same_of_twin t _ _ h,
    show strip t b = strip t b' from same_of_twin t _ _ h']

mutual
theorem blindTy : (t : Ty) → Blind (Twin t) t.dict
  | .uint _ => prim_blind fun hm bs => getVarint_mode hm _ bs
  | .sint _ => prim_blind fun hm bs => getSigned_mode hm _ bs
  | .bool => prim_blind fun _ _ => modeEx_refl _
  | .string => plain_eq_blind fun _ _ => rfl
  | .bytes => plain_eq_blind fun _ _ => rfl
  | .vec t => vec_blind (blindTy t)
  | .array n t => array_blind n (blindTy t)
  | .tuple ts => tuple_blind (blindTys ts)
  | .option t => option_blind (blindTy t)
  | .box t => box_blind (blindTy t)
  | .hashMap k v => hashMap_blind (eq_of_twin k) (blindTy k) (blindTy v)
  | .list t => list_blind (blindTy t)
  | .map kt t => map_blind kt (blindTy t)
  | .struct ds cached fs => struct_blind ds cached (blindFields fs ds)
  | .enum ds cached fs vs =>
    enum_blind ds (variantsCons_blind 0#32 cached (blindFields fs ds) (blindVariants vs ds)) fun o o' ho => (blindFields fs ds).init o o' ho

theorem blindTys : (ts : Tys) → BlindTuple (TwinTuple ts) ts.dict
  | .nil => tupleNil_blind
  | .cons t ts => tupleCons_blind (blindTy t) (blindTys ts)

theorem blindFields : (fs : Fields) → (ds : Bool) → BlindFields (TwinFields fs) (fs.dict ds)
  | .nil, _ => fieldsNil_blind
  | .cons tag attrs t fs, ds => fieldsCons_blind ds tag attrs (blindTy t) (blindFields fs ds)

theorem blindVariants : (vs : Variants) → (ds : Bool) → BlindVariants (TwinVariant vs) (vs.dict ds)
  | .nil, _ => variantsNil_blind
  | .cons tag cached fs vs, ds => variantsCons_blind tag cached (blindFields fs ds) (blindVariants vs ds)
end

end Steit
