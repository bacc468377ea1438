import Verif.Lemmas.Shuffle
import Verif.Lemmas.KeepDerive

/-! # Reading and replaying do not depend on the order of hash maps: all types -/

namespace Steit
open Spec

/-! ## Insertion -/

section
variable {κ ν : Type} {eq : κ → κ → Bool}

/-- Where at most one key is equal to the inserted one, insertion can be told without mentioning the order. -/
theorem hashInsert_eq (k : κ) (v : ν) : ∀ (es : List (κ × ν)), es.Pairwise (fun e e' => ¬ (eq e.1 k = true ∧ eq e'.1 k = true)) →
    hashInsert eq k v es =
      if es.any (fun e => eq e.1 k) then es.map (fun e => if eq e.1 k then (e.1, v) else e) else es ++ [(k, v)]
  | [], _ => rfl
  | (a, x) :: es, h => by
    rw [List.pairwise_cons] at h
    rw [hashInsert, List.any_cons, List.map_cons]
    cases ha : eq a k with
    | true =>
      simp only [Bool.true_or, if_true]
      congr 1
      have : ∀ e ∈ es, eq e.1 k = false := fun e he => by
        cases hb : eq e.1 k with
        | false => rfl
        | true => exact absurd ⟨ha, hb⟩ (h.1 e he)
      conv => lhs; rw [← List.map_id es]
      exact List.map_congr_left fun e he => by simp [this e he]
    | false =>
      rw [hashInsert_eq k v es h.2]
      simp only [Bool.false_or, Bool.false_eq_true, if_false]
      split <;> rfl

theorem hashInsert_perm (k : κ) (v : ν) {a b : List (κ × ν)} (hab : a.Perm b)
    (h : a.Pairwise (fun e e' => ¬ (eq e.1 k = true ∧ eq e'.1 k = true))) : (hashInsert eq k v a).Perm (hashInsert eq k v b) := by
  rw [hashInsert_eq k v a h, hashInsert_eq k v b (hab.pairwise h fun h h' => h ⟨h'.2, h'.1⟩)]
  have : a.any (fun e => eq e.1 k) = b.any (fun e => eq e.1 k) := by
    rw [Bool.eq_iff_iff, List.any_eq_true, List.any_eq_true]
    exact ⟨fun ⟨e, he, h⟩ => ⟨e, hab.mem_iff.1 he, h⟩, fun ⟨e, he, h⟩ => ⟨e, hab.mem_iff.2 he, h⟩⟩
  rw [this]
  split
  · exact hab.map _
  · exact hab.append_right _

variable {K : κ → κ → Prop} {V : ν → ν → Prop}

theorem hashInsert_same {k k' : κ} {v v' : ν} (hk : K k k') (hv : V v v') : ∀ {es es' : List (κ × ν)},
    (∀ e ∈ es, ∀ e' ∈ es', K e.1 e'.1 → eq e.1 k = eq e'.1 k') →
    SameItems (SamePair K V) es es' → SameItems (SamePair K V) (hashInsert eq k v es) (hashInsert eq k' v' es')
  | [], [], _, _ => ⟨⟨hk, hv⟩, trivial⟩
  | (a, _) :: es, (b, _) :: es', he, h => by
    rw [hashInsert, hashInsert, he _ List.mem_cons_self _ List.mem_cons_self h.1.1]
    split
    · exact ⟨⟨h.1.1, hv⟩, h.2⟩
    · exact ⟨h.1, hashInsert_same hk hv (fun e h e' h' => he e (List.mem_cons_of_mem _ h) e' (List.mem_cons_of_mem _ h')) h.2⟩

end

/-- Two hash maps with the same entries; in each of them the keys are distinct. -/
structure HashKin {κ ν : Type} (eq : κ → κ → Bool) (P : κ → Prop) (K : κ → κ → Prop) (V : ν → ν → Prop) (a b : List (κ × ν)) : Prop where
  left : ∀ e ∈ a, P e.1
  right : ∀ e ∈ b, P e.1
  distinct : a.Pairwise (fun e e' => eq e.1 e'.1 = false)
  distinct' : b.Pairwise (fun e e' => eq e.1 e'.1 = false)
  same : Reordered (SamePair K V) a b

section
variable {κ ν : Type} {eq : κ → κ → Bool} {P : κ → Prop} {K : κ → κ → Prop} {V : ν → ν → Prop} {E : κ → κ → Prop}
  (hE : ∀ x y, P x → P y → (eq x y = true ↔ E x y)) (hs : ∀ x y, E x y → E y x) (ht : ∀ x y z, E x y → E y z → E x z) (hK : ∀ x y, K x y → E x y)

include hE hs ht in
theorem one_match {k : κ} (hk : P k) {a : List (κ × ν)} (hp : ∀ e ∈ a, P e.1) (h : a.Pairwise (fun e e' => eq e.1 e'.1 = false)) :
    a.Pairwise (fun e e' => ¬ (eq e.1 k = true ∧ eq e'.1 k = true)) := by
  refine h.imp_of_mem fun {x y} hx hy hne hm => ?_
  have h1 := (hE _ _ (hp x hx) hk).1 hm.1
  have h2 := (hE _ _ (hp y hy) hk).1 hm.2
  rw [(hE _ _ (hp x hx) (hp y hy)).2 (ht _ _ _ h1 (hs _ _ h2))] at hne
  cases hne

include hE hs ht hK in
theorem hashInsert_kin {k k' : κ} {v v' : ν} (hk : K k k') (hv : V v v') (hp : P k) (hp' : P k') {a b : List (κ × ν)} (h : HashKin eq P K V a b) :
    HashKin eq P K V (hashInsert eq k v a) (hashInsert eq k' v' b) where
  left := fun e he => (hashInsert_keep (P := P) (Q := fun _ => True) hp trivial a (fun e he => ⟨h.left e he, trivial⟩) e he).1
  right := fun e he => (hashInsert_keep (P := P) (Q := fun _ => True) hp' trivial b (fun e he => ⟨h.right e he, trivial⟩) e he).1
  distinct := hashInsert_pairwise k v a h.distinct
  distinct' := hashInsert_pairwise k' v' b h.distinct'
  same := by
    obtain ⟨c, h1, h2⟩ := h.same
    have hc : ∀ e ∈ c, P e.1 := fun e he => h.right e (h2.mem_iff.1 he)
    refine ⟨hashInsert eq k' v' c, hashInsert_same hk hv (fun e he e' he' hee => ?_) h1, ?_⟩
    · rw [Bool.eq_iff_iff, hE _ _ (h.left e he) hp, hE _ _ (hc e' he') hp']
      exact ⟨fun h => ht _ _ _ (hs _ _ (hK _ _ hee)) (ht _ _ _ h (hK _ _ hk)), fun h => ht _ _ _ (hK _ _ hee) (ht _ _ _ h (hs _ _ (hK _ _ hk)))⟩
    · exact (hashInsert_perm k' v' h2.symm (one_match hE hs ht hp' h.right h.distinct')).symm

include hE hs ht hK in
theorem hashMap_kin {dk : Dict κ} {dv : Dict ν} (hP : ∀ m bs x rest, dk.deserializeNested m dk.wire bs = .ok (x, rest) → P x)
    (hk : Blind K dk) (hv : Blind V dv) : Blind (HashKin eq P K V) (hashMapDict eq dk dv) := by
  refine plain_blind ⟨by simp, by simp, .nil, .nil, [], trivial, .refl _⟩ fun {m m'} hm v w bs h => untilEof_blind ?_ _ _ h
  intro v w bs h
  unfold hashMapStep
  rcases hk.deserializeNested hm dk.wire bs with ⟨x, y, rest, h1, h2, h3⟩ | ⟨e, h1, h2⟩ | ⟨hm, h1⟩
  · rw [h1, h2]
    dsimp only
    rcases hv.deserializeNested hm dv.wire rest with ⟨x', y', rest', g1, g2, g3⟩ | ⟨e, g1, g2⟩ | ⟨hm, g1⟩
    · rw [g1, g2]; exact .ok (hashInsert_kin hE hs ht hK h3 g3 (hP _ _ _ _ h1) (hP _ _ _ _ h2) h)
    · rw [g1, g2]; exact .err h
    · rw [g1]; exact .panic hm
  · rw [h1, h2]; exact .err h
  · rw [h1]; exact .panic hm

end

/-! ## All types -/

mutual
/-- `Shuffle`, with distinct keys; enums that are states have a parent. -/
def Kin : (t : Ty) → t.El → t.El → Prop
  | .uint _ => Eq
  | .sint _ => Eq
  | .bool => Eq
  | .string => Eq
  | .bytes => Eq
  | .vec t => SameItems (Kin t)
  | .array _ t => fun x y => SameItems (Kin t) x.1 y.1
  | .tuple ts => KinTuple ts
  | .option t => SameOption (Kin t)
  | .box t => Kin t
  | .hashMap k v => HashKin k.eq (Keyed k) (Kin k) (Kin v)
  | .list t => fun x y => SameItems (Kin t) x.items y.items
  | .map _ t => fun x y => SameItems (SamePair Eq (Kin t)) x.entries y.entries
  | .struct _ _ fs => fun x y => KinFields fs x.fields y.fields
  | .enum ds _ fs vs => TwinEnum ds (SameSum (KinFields fs) (KinVariant vs))

def KinTuple : (ts : Tys) → ts.El → ts.El → Prop
  | .nil => fun _ _ => True
  | .cons t ts => SamePair (Kin t) (KinTuple ts)

def KinFields : (fs : Fields) → fs.El → fs.El → Prop
  | .nil => fun _ _ => True
  | .cons _ _ t fs => SamePair (Kin t) (KinFields fs)

def KinVariant : (vs : Variants) → vs.El → vs.El → Prop
  | .nil => fun _ _ => False
  | .cons _ _ fs vs => SameSum (KinFields fs) (KinVariant vs)
end

theorem sameItems_imp {α β : Type} {R Q : α → β → Prop} (h : ∀ x y, R x y → Q x y) : ∀ {xs : List α} {ys : List β},
    SameItems R xs ys → SameItems Q xs ys
  | [], [], _ => trivial
  | _ :: _, _ :: _, hx => ⟨h _ _ hx.1, sameItems_imp h hx.2⟩

theorem sameItems_imp_mem {α β : Type} {R Q : α → β → Prop} : ∀ {xs : List α} {ys : List β}, (∀ x ∈ xs, ∀ y ∈ ys, R x y → Q x y) →
    SameItems R xs ys → SameItems Q xs ys
  | [], [], _, _ => trivial
  | _ :: _, _ :: _, h, hx => ⟨h _ List.mem_cons_self _ List.mem_cons_self hx.1,
      sameItems_imp_mem (fun x hx y hy => h x (List.mem_cons_of_mem _ hx) y (List.mem_cons_of_mem _ hy)) hx.2⟩

mutual
theorem shuffle_of_kin : (t : Ty) → ∀ v w, Kin t v w → Shuffle t v w
  | .uint _, _, _, h => h
  | .sint _, _, _, h => h
  | .bool, _, _, h => h
  | .string, _, _, h => h
  | .bytes, _, _, h => h
  | .vec t, _, _, h => sameItems_imp (shuffle_of_kin t) h
  | .array _ t, _, _, h => sameItems_imp (shuffle_of_kin t) h
  | .tuple ts, v, w, h => shuffleTuple_of_kin ts v w h
  | .option t, none, none, _ => trivial
  | .option t, some x, some y, h => shuffle_of_kin t x y h
  | .option t, none, some _, h => h.elim
  | .option t, some _, none, h => h.elim
  | .box t, v, w, h => shuffle_of_kin t v w h
  | .hashMap k v, _, _, h => by
    obtain ⟨c, h1, h2⟩ := h.same
    exact ⟨c, sameItems_imp (fun x y hxy => ⟨shuffle_of_kin k _ _ hxy.1, shuffle_of_kin v _ _ hxy.2⟩) h1, h2⟩
  | .list t, _, _, h => sameItems_imp (shuffle_of_kin t) h
  | .map _ t, _, _, h => sameItems_imp (R := SamePair Eq (Kin t)) (Q := SamePair Eq (Shuffle t))
      (fun x y hxy => ⟨hxy.1, shuffle_of_kin t _ _ hxy.2⟩) h
  | .struct _ _ fs, v, w, h => shuffleFields_of_kin fs _ _ h
  | .enum _ _ fs vs, ⟨_, .inl x⟩, ⟨_, .inl y⟩, h => shuffleFields_of_kin fs x y h.2
  | .enum _ _ fs vs, ⟨_, .inr x⟩, ⟨_, .inr y⟩, h => shuffleVariant_of_kin vs x y h.2
  | .enum _ _ fs vs, ⟨_, .inl x⟩, ⟨_, .inr y⟩, h => h.2.elim
  | .enum _ _ fs vs, ⟨_, .inr x⟩, ⟨_, .inl y⟩, h => h.2.elim

theorem shuffleTuple_of_kin : (ts : Tys) → ∀ v w, KinTuple ts v w → ShuffleTuple ts v w
  | .nil, _, _, _ => trivial
  | .cons t ts, v, w, h => ⟨shuffle_of_kin t v.1 w.1 h.1, shuffleTuple_of_kin ts v.2 w.2 h.2⟩

theorem shuffleFields_of_kin : (fs : Fields) → ∀ v w, KinFields fs v w → ShuffleFields fs v w
  | .nil, _, _, _ => trivial
  | .cons _ _ t fs, v, w, h => ⟨shuffle_of_kin t v.1 w.1 h.1, shuffleFields_of_kin fs v.2 w.2 h.2⟩

theorem shuffleVariant_of_kin : (vs : Variants) → ∀ v w, KinVariant vs v w → ShuffleVariant vs v w
  | .nil, v, _, _ => nomatch v
  | .cons _ _ fs vs, .inl x, .inl y, h => shuffleFields_of_kin fs x y h
  | .cons _ _ fs vs, .inr x, .inr y, h => shuffleVariant_of_kin vs x y h
  | .cons _ _ fs vs, .inl x, .inr y, h => h.elim
  | .cons _ _ fs vs, .inr x, .inl y, h => h.elim
end

mutual
theorem kin_of_shuffle : (t : Ty) → ∀ (rt rt' : Rt) v w, At t rt v → At t rt' w → Keyed t v → Keyed t w → Shuffle t v w → Kin t v w
  | .uint _, _, _, _, _, _, _, _, _, h => h
  | .sint _, _, _, _, _, _, _, _, _, h => h
  | .bool, _, _, _, _, _, _, _, _, h => h
  | .string, _, _, _, _, _, _, _, _, h => h
  | .bytes, _, _, _, _, _, _, _, _, h => h
  | .vec t, rt, rt', v, w, hv, hw, kv, kw, h => sameItems_imp_mem (fun x hx y hy hxy => by
      obtain ⟨r, hr⟩ := hv x hx
      obtain ⟨r', hr'⟩ := hw y hy
      exact kin_of_shuffle t r r' x y hr hr' (kv x hx) (kw y hy) hxy) h
  | .array _ t, rt, rt', v, w, hv, hw, kv, kw, h => sameItems_imp_mem (fun x hx y hy hxy => by
      obtain ⟨r, hr⟩ := hv x hx
      obtain ⟨r', hr'⟩ := hw y hy
      exact kin_of_shuffle t r r' x y hr hr' (kv x hx) (kw y hy) hxy) h
  | .tuple ts, _, _, v, w, hv, hw, kv, kw, h => kinTuple_of_shuffle ts v w hv hw kv kw h
  | .option t, _, _, none, none, _, _, _, _, _ => trivial
  | .option t, _, _, some x, some y, hv, hw, kv, kw, h => by
      obtain ⟨r, hr⟩ := hv x rfl
      obtain ⟨r', hr'⟩ := hw y rfl
      exact kin_of_shuffle t r r' x y hr hr' (kv x rfl) (kw y rfl) h
  | .option t, _, _, none, some _, _, _, _, _, h => h.elim
  | .option t, _, _, some _, none, _, _, _, _, h => h.elim
  | .box t, rt, rt', v, w, hv, hw, kv, kw, h => kin_of_shuffle t rt rt' v w hv hw kv kw h
  | .hashMap k u, _, _, v, w, hv, hw, kv, kw, h => by
      have hd : ∀ a : List (k.El × u.El), Keyed (.hashMap k u) a → a.Pairwise (fun e e' => k.eq e.1 e'.1 = false) := fun a ha =>
        ha.2.imp_of_mem fun {x y} hx hy hne => by
          rw [← Bool.not_eq_true, eq_iff k _ _ (ha.1 x hx).1 (ha.1 y hy).1]
          exact hne
      refine ⟨fun e he => (kv.1 e he).1, fun e he => (kw.1 e he).1, hd v kv, hd w kw, ?_⟩
      obtain ⟨c, h1, h2⟩ := h
      refine ⟨c, sameItems_imp_mem (fun x hx y hy hxy => ?_) h1, h2⟩
      have hy' := h2.mem_iff.1 hy
      obtain ⟨⟨a, ha⟩, ⟨b, hb⟩⟩ := hv x hx
      obtain ⟨⟨a', ha'⟩, ⟨b', hb'⟩⟩ := hw y hy'
      exact ⟨kin_of_shuffle k a a' x.1 y.1 ha ha' (kv.1 x hx).1 (kw.1 y hy').1 hxy.1,
        kin_of_shuffle u b b' x.2 y.2 hb hb' (kv.1 x hx).2 (kw.1 y hy').2 hxy.2⟩
  | .list t, rt, rt', v, w, hv, hw, kv, kw, h => sameItems_imp_mem (fun x hx y hy hxy => by
      obtain ⟨i, hi⟩ := List.getElem?_of_mem hx
      obtain ⟨j, hj⟩ := List.getElem?_of_mem hy
      exact kin_of_shuffle t _ _ x y (hv.2 i x hi) (hw.2 j y hj) (kv x hx) (kw y hy) hxy) h
  | .map _ t, rt, rt', v, w, hv, hw, kv, kw, h => sameItems_imp_mem (R := SamePair Eq (Shuffle t)) (Q := SamePair Eq (Kin t)) (fun x hx y hy hxy =>
      ⟨hxy.1, kin_of_shuffle t _ _ x.2 y.2 (hv.2.2 x hx) (hw.2.2 y hy) (kv.1 x hx) (kw.1 y hy) hxy.2⟩) h
  | .struct ds _ fs, rt, rt', v, w, hv, hw, kv, kw, h => kinFields_of_shuffle fs ds rt rt' _ _ hv.2 hw.2 kv kw h
  | .enum ds _ fs vs, rt, rt', ⟨_, .inl x⟩, ⟨_, .inl y⟩, hv, hw, kv, kw, h => by
      refine ⟨fun hd => ?_, kinFields_of_shuffle fs ds _ _ x y hv.2 hw.2 kv kw h⟩
      have h1 := hv.1 hd
      have h2 := hw.1 hd
      dsimp only at h1 h2
      subst h1; subst h2
      exact ⟨nested_path _ _, nested_path _ _⟩
  | .enum ds _ fs vs, rt, rt', ⟨o, .inr x⟩, ⟨o', .inr y⟩, hv, hw, kv, kw, h => kinVariant_of_shuffle vs ds rt rt' o o' x y hv hw kv kw h
  | .enum ds _ fs vs, rt, rt', ⟨_, .inl x⟩, ⟨_, .inr y⟩, _, _, _, _, h => h.elim
  | .enum ds _ fs vs, rt, rt', ⟨_, .inr x⟩, ⟨_, .inl y⟩, _, _, _, _, h => h.elim

theorem kinTuple_of_shuffle : (ts : Tys) → ∀ v w, AtTuple ts v → AtTuple ts w → KeyedTuple ts v → KeyedTuple ts w → ShuffleTuple ts v w → KinTuple ts v w
  | .nil, _, _, _, _, _, _, _ => trivial
  | .cons t ts, v, w, hv, hw, kv, kw, h => by
      obtain ⟨r, hr⟩ := hv.1
      obtain ⟨r', hr'⟩ := hw.1
      exact ⟨kin_of_shuffle t r r' v.1 w.1 hr hr' kv.1 kw.1 h.1, kinTuple_of_shuffle ts v.2 w.2 hv.2 hw.2 kv.2 kw.2 h.2⟩

theorem kinFields_of_shuffle : (fs : Fields) → ∀ (ds : Bool) (rt rt' : Rt) v w, AtFields fs ds rt v → AtFields fs ds rt' w →
    KeyedFields fs v → KeyedFields fs w → ShuffleFields fs v w → KinFields fs v w
  | .nil, _, _, _, _, _, _, _, _, _, _ => trivial
  | .cons tag attrs t fs, ds, rt, rt', v, w, hv, hw, kv, kw, h => by
      refine ⟨?_, kinFields_of_shuffle fs ds rt rt' v.2 w.2 hv.2 hw.2 kv.2 kw.2 h.2⟩
      have h1 := hv.1
      have h2 := hw.1
      cases hb : ds && !attrs.noState with
      | true =>
        rw [if_pos hb] at h1 h2
        exact kin_of_shuffle t _ _ v.1 w.1 h1 h2 kv.1 kw.1 h.1
      | false =>
        rw [if_neg (by rw [hb]; decide)] at h1 h2
        obtain ⟨r, hr⟩ := h1
        obtain ⟨r', hr'⟩ := h2
        exact kin_of_shuffle t r r' v.1 w.1 hr hr' kv.1 kw.1 h.1

theorem kinVariant_of_shuffle : (vs : Variants) → ∀ (ds : Bool) (rt rt' own own' : Rt) v w, AtVariant vs ds rt own v → AtVariant vs ds rt' own' w →
    KeyedVariant vs v → KeyedVariant vs w → ShuffleVariant vs v w → (ds = true → own.path ≠ [] ∧ own'.path ≠ []) ∧ KinVariant vs v w
  | .nil, _, _, _, _, _, v, _, _, _, _, _, _ => nomatch v
  | .cons tag _ fs vs, ds, rt, rt', own, own', .inl x, .inl y, hv, hw, kv, kw, h => by
      refine ⟨fun hd => ?_, kinFields_of_shuffle fs ds _ _ x y hv.2 hw.2 kv kw h⟩
      rw [hv.1 hd, hw.1 hd]
      exact ⟨nested_path _ _, nested_path _ _⟩
  | .cons tag _ fs vs, ds, rt, rt', own, own', .inr x, .inr y, hv, hw, kv, kw, h =>
      kinVariant_of_shuffle vs ds rt rt' own own' x y hv hw kv kw h
  | .cons tag _ fs vs, ds, rt, rt', own, own', .inl x, .inr y, _, _, _, _, h => h.elim
  | .cons tag _ fs vs, ds, rt, rt', own, own', .inr x, .inl y, _, _, _, _, h => h.elim
end

mutual
theorem kinTy : (t : Ty) → Blind (Kin t) t.dict
  | .uint _ => prim_blind fun hm bs => getVarint_mode hm _ bs
  | .sint _ => prim_blind fun hm bs => getSigned_mode hm _ bs
  | .bool => prim_blind fun _ _ => modeEx_refl _
  | .string => plain_eq_blind fun _ _ => rfl
  | .bytes => plain_eq_blind fun _ _ => rfl
  | .vec t => vec_blind (kinTy t)
  | .array n t => array_blind n (kinTy t)
  | .tuple ts => tuple_blind (kinTys ts)
  | .option t => option_blind (kinTy t)
  | .box t => box_blind (kinTy t)
  | .hashMap k v => hashMap_kin (eq_iff k) (equal_symm k) (equal_trans k) (fun x y h => equal_of_shuffle k x y (shuffle_of_kin k x y h))
      (fun _ _ x _ h => keyed_of_carried k x ((keepLaw k).deserializeNested h)) (kinTy k) (kinTy v)
  | .list t => list_blind (kinTy t)
  | .map kt t => map_blind kt (kinTy t)
  | .struct ds cached fs => struct_blind ds cached (kinFields fs ds)
  | .enum ds cached fs vs =>
    enum_blind ds (variantsCons_blind 0#32 cached (kinFields fs ds) (kinVariants vs ds)) fun o o' ho => (kinFields fs ds).init o o' ho

theorem kinTys : (ts : Tys) → BlindTuple (KinTuple ts) ts.dict
  | .nil => tupleNil_blind
  | .cons t ts => tupleCons_blind (kinTy t) (kinTys ts)

theorem kinFields : (fs : Fields) → (ds : Bool) → BlindFields (KinFields fs) (fs.dict ds)
  | .nil, _ => fieldsNil_blind
  | .cons tag attrs t fs, ds => fieldsCons_blind ds tag attrs (kinTy t) (kinFields fs ds)

theorem kinVariants : (vs : Variants) → (ds : Bool) → BlindVariants (KinVariant vs) (vs.dict ds)
  | .nil, _ => variantsNil_blind
  | .cons tag cached fs vs, ds => variantsCons_blind tag cached (kinFields fs ds) (kinVariants vs ds)
end

end Steit
