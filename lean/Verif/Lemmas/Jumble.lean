import Verif.Lemmas.BlindTy
import Verif.Lemmas.Shuffle
import Verif.Lemmas.CSharpFollow
import Verif.Lemmas.CSharpDecode
import Verif.Lemmas.PartPair

/-!
# The same data, with the entries of maps in any order

A `Map` is an `IndexMap` and remembers in which order its keys came. `Jumble` says that two values are the same but for that order: reading
and replaying carry it from the values to the results (`jumbleTy`), `==` does not see the difference (`equal_of_jumble`), nor does a C# client
(`shows_jumble`).
-/

namespace Steit
open Spec

/-! ## Entries -/

section
variable {α : Type} {R : α → α → Prop}

/-- The same keys with related values, in any order. -/
def SameKeys (R : α → α → Prop) (xs ys : List (U32 × α)) : Prop :=
  (xs.map (·.1)).Nodup ∧ (ys.map (·.1)).Nodup ∧ ∀ k, SameOption R (entriesGet k xs) (entriesGet k ys)

theorem sameKeys_nil : SameKeys R [] [] := ⟨List.nodup_nil, List.nodup_nil, fun _ => trivial⟩

theorem entriesGet_removed (k j : U32) (es : List (U32 × α)) (h : (es.map (·.1)).Nodup) :
    entriesGet j (entriesRemove k es) = if j = k then none else entriesGet j es := by
  rw [← lookup_entriesGet, ← lookup_entriesGet]
  exact lookup_remove k j es h

theorem sameKeys_insert {xs ys : List (U32 × α)} (k : U32) {x y : α} (hxy : R x y) (h : SameKeys R xs ys) :
    SameKeys R (entriesInsert k x xs) (entriesInsert k y ys) := by
  refine ⟨entriesInsert_nodup k x xs h.1, entriesInsert_nodup k y ys h.2.1, fun j => ?_⟩
  by_cases hj : j = k
  · subst hj
    rw [entriesGet_insert, entriesGet_insert]
    exact hxy
  · rw [entriesGet_other hj, entriesGet_other hj]
    exact h.2.2 j

theorem sameKeys_remove {xs ys : List (U32 × α)} (k : U32) (h : SameKeys R xs ys) : SameKeys R (entriesRemove k xs) (entriesRemove k ys) := by
  refine ⟨entriesRemove_nodup k xs h.1, entriesRemove_nodup k ys h.2.1, fun j => ?_⟩
  rw [entriesGet_removed k j xs h.1, entriesGet_removed k j ys h.2.1]
  split
  · trivial
  · exact h.2.2 j

theorem sameKeys_symm {Q : α → α → Prop} (hR : ∀ x y, R x y → Q y x) {xs ys : List (U32 × α)} (h : SameKeys R xs ys) : SameKeys Q ys xs := by
  refine ⟨h.2.1, h.1, fun k => ?_⟩
  have := h.2.2 k
  cases hx : entriesGet k xs <;> cases hy : entriesGet k ys <;> rw [hx, hy] at this
  · trivial
  · exact this.elim
  · exact this.elim
  · exact hR _ _ this

theorem sameKeys_trans {Q S : α → α → Prop} (hR : ∀ x y z, R x y → Q y z → S x z) {xs ys zs : List (U32 × α)} (h : SameKeys R xs ys)
    (h' : SameKeys Q ys zs) : SameKeys S xs zs := by
  refine ⟨h.1, h'.2.1, fun k => ?_⟩
  have h1 := h.2.2 k
  have h2 := h'.2.2 k
  cases hx : entriesGet k xs <;> cases hy : entriesGet k ys <;> cases hz : entriesGet k zs <;> rw [hx, hy] at h1 <;> rw [hy, hz] at h2
  · trivial
  · exact h2.elim
  · exact h1.elim
  · exact h1.elim
  · exact h1.elim
  · exact h1.elim
  · exact h2.elim
  · exact hR _ _ _ h1 h2

theorem entriesGet_filter (k : U32) : ∀ es : List (U32 × α), ∀ j, entriesGet j (es.filter (fun e => !decide (e.1 = k))) =
    if j = k then none else entriesGet j es
  | [], j => by simp [entriesGet]
  | (a, x) :: es, j => by
    rw [List.filter_cons]
    by_cases ha : a = k
    · subst ha
      simp only [decide_true, Bool.not_true, Bool.false_eq_true, if_false, entriesGet_filter a es j, entriesGet]
      by_cases hj : j = a
      · simp [hj]
      · simp [hj, Ne.symm hj]
    · simp only [ha, decide_false, Bool.not_false, if_true, entriesGet, entriesGet_filter k es j]
      by_cases haj : a = j
      · subst haj; simp [ha]
      · simp [haj]

theorem perm_filter_key {k : U32} {x : α} : ∀ {es : List (U32 × α)}, (es.map (·.1)).Nodup → entriesGet k es = some x →
    ((k, x) :: es.filter (fun e => !decide (e.1 = k))).Perm es
  | [], _, h => nomatch h
  | (a, y) :: es, hn, h => by
    rw [List.map_cons, List.nodup_cons] at hn
    by_cases ha : a = k
    · subst ha
      simp only [entriesGet, if_true, Option.some.injEq] at h
      subst h
      have : es.filter (fun e => !decide (e.1 = a)) = es := List.filter_eq_self.2 fun e he => by
        have : e.1 ≠ a := fun h => hn.1 (List.mem_map.2 ⟨e, he, h⟩)
        simp [this]
      rw [List.filter_cons]
      simp only [decide_true, Bool.not_true, Bool.false_eq_true, if_false, this]
      exact .refl _
    · simp only [entriesGet, if_neg ha] at h
      rw [List.filter_cons]
      simp only [ha, decide_false, Bool.not_false, if_true]
      exact (List.Perm.swap ..).trans ((perm_filter_key hn.2 h).cons _)

/-- The same keys and values: the one is the other in another order. -/
theorem sameKeys_perm : ∀ {xs ys : List (U32 × α)}, SameKeys R xs ys →
    ∃ c, List.Forall₂ (fun e e' => e.1 = e'.1 ∧ R e.2 e'.2) xs c ∧ c.Perm ys
  | [], ys, h => by
    refine ⟨[], .nil, ?_⟩
    cases ys with
    | nil => exact .refl _
    | cons e ys =>
      have := h.2.2 e.1
      simp [entriesGet, SameOption] at this
  | (k, x) :: xs, ys, h => by
    have hn := h.1
    rw [List.map_cons, List.nodup_cons] at hn
    have hk := h.2.2 k
    cases hy : entriesGet k ys with
    | none => rw [hy] at hk; simp [entriesGet, SameOption] at hk
    | some y =>
      rw [hy] at hk
      have hxy : R x y := by simpa [entriesGet, SameOption] using hk
      obtain ⟨c, h1, h2⟩ := sameKeys_perm (xs := xs) (ys := ys.filter (fun e => !decide (e.1 = k)))
        ⟨hn.2, List.Nodup.sublist (List.Sublist.map _ (List.filter_sublist ..)) h.2.1, fun j => by
          rw [entriesGet_filter]
          have hj := h.2.2 j
          by_cases hjk : j = k
          · subst hjk
            rw [if_pos rfl, entriesGet_none.2 hn.1]
            trivial
          · rw [if_neg hjk]
            simpa [entriesGet, Ne.symm hjk] using hj⟩
      exact ⟨(k, y) :: c, .cons ⟨rfl, hxy⟩ h1, (h2.cons _).trans (perm_filter_key h.2.1 hy)⟩

end

/-! ## `Map` -/

section
variable {α : Type} {R : α → α → Prop} {d : Dict α}

theorem mapMerge_jumble (kt : KeyTy) (h : Blind R d) {m m' : Mode} (hm : Below m m') {v w : MapV α} (bs : Bytes) (hv : SameKeys R v.entries w.entries) :
    ModeRes m m' (fun x y => SameKeys R x.entries y.entries) (mapMerge kt d m v bs) (mapMerge kt d m' w bs) := by
  refine untilEof_blind (R := fun x y : MapV α => SameKeys R x.entries y.entries) ?_ _ _ hv
  intro v w bs hv
  unfold mapStep
  rcases readMapKey_mode hm kt bs with ⟨⟨k, rest⟩, h1, h2⟩ | ⟨e, h1, h2⟩ | ⟨hm, h1⟩
  · rw [h1, h2]
    dsimp only
    have hg := hv.2.2 k
    cases hx : entriesGet k v.entries <;> cases hy : entriesGet k w.entries <;> rw [hx, hy] at hg
    · dsimp only
      rcases blind_cases (h.mergeNested hm d.wire rest (h.fresh (v.rt.nested k) (w.rt.nested k))) with
        ⟨x, y, rest, h1, h2, h3⟩ | ⟨x, y, e, h1, h2, h3⟩ | ⟨hm, a, h1⟩
      · rw [h1, h2]; exact .ok (sameKeys_insert k h3 hv)
      · rw [h1, h2]; exact .err hv
      · rw [h1]; exact .panic hm
    · exact absurd hg (by simp [SameOption])
    · exact absurd hg (by simp [SameOption])
    · exact blind_map (h.mergeNested hm d.wire rest hg) fun _ _ hxy => sameKeys_insert k hxy hv
  · rw [h1, h2]; exact .err hv
  · rw [h1]; exact .panic hm

theorem map_jumble (kt : KeyTy) (h : Blind R d) :
    Blind (fun x y : MapV α => SameKeys R x.entries y.entries) (mapDict kt d) := by
  refine ⟨sameKeys_nil, fun _ _ => sameKeys_nil, fun {m m'} hm v w bs hv => mapMerge_jumble kt h hm bs hv, ?_⟩
  intro m m' hm v w path kind key bs hv
  simp only [mapDict]
  unfold mapHandle
  cases path with
  | cons n path =>
    dsimp only
    have hg := hv.2.2 n
    cases hx : entriesGet n v.entries <;> cases hy : entriesGet n w.entries <;> rw [hx, hy] at hg
    · dsimp only
      split
      · rcases blind_cases (h.merge hm bs (h.fresh (v.rt.nested n) (w.rt.nested n))) with
          ⟨x, y, rest, h1, h2, h3⟩ | ⟨x, y, e, h1, h2, h3⟩ | ⟨hm, a, h1⟩
        · rw [h1, h2]; exact .inl ⟨sameKeys_insert n h3 hv, rfl⟩
        · rw [h1, h2]; exact .inl ⟨hv, rfl⟩
        · rw [h1]; exact .panic hm
      · exact .inl ⟨hv, rfl⟩
    · exact absurd hg (by simp [SameOption])
    · exact absurd hg (by simp [SameOption])
    · exact blind_map (h.handle hm path kind key bs hg) fun x y hxy => sameKeys_insert n hxy hv
  | nil =>
    cases kind with
    | update => exact mapMerge_jumble kt h hm bs sameKeys_nil
    | listPush => exact .inl ⟨hv, rfl⟩
    | listPop => exact .inl ⟨hv, rfl⟩
    | mapRemove =>
      cases key with
      | none => exact .inl ⟨hv, rfl⟩
      | some key =>
        dsimp only
        have hg := hv.2.2 key
        cases hx : entriesGet key v.entries <;> cases hy : entriesGet key w.entries <;> rw [hx, hy] at hg
        · exact .inl ⟨hv, rfl⟩
        · exact absurd hg (by simp [SameOption])
        · exact absurd hg (by simp [SameOption])
        · exact .inl ⟨sameKeys_remove key hv, rfl⟩

end

/-! ## All types -/

mutual
/-- See the head of the file. The maps are those of the library; in a `HashMap` of the standard library nothing may differ. -/
def Jumble : (t : Ty) → t.El → t.El → Prop
  | .uint _ => Eq
  | .sint _ => Eq
  | .bool => Eq
  | .string => Eq
  | .bytes => Eq
  | .vec t => SameItems (Jumble t)
  | .array _ t => fun x y => SameItems (Jumble t) x.1 y.1
  | .tuple ts => JumbleTuple ts
  | .option t => SameOption (Jumble t)
  | .box t => Jumble t
  | .hashMap k v => SameItems (SamePair (Twin k) (Twin v))
  | .list t => fun x y => SameItems (Jumble t) x.items y.items
  | .map _ t => fun x y => SameKeys (Jumble t) x.entries y.entries
  | .struct _ _ fs => fun x y => JumbleFields fs x.fields y.fields
  | .enum ds _ fs vs => TwinEnum ds (SameSum (JumbleFields fs) (JumbleVariant vs))

def JumbleTuple : (ts : Tys) → ts.El → ts.El → Prop
  | .nil => fun _ _ => True
  | .cons t ts => SamePair (Jumble t) (JumbleTuple ts)

def JumbleFields : (fs : Fields) → fs.El → fs.El → Prop
  | .nil => fun _ _ => True
  | .cons _ _ t fs => SamePair (Jumble t) (JumbleFields fs)

def JumbleVariant : (vs : Variants) → vs.El → vs.El → Prop
  | .nil => fun _ _ => False
  | .cons _ _ fs vs => SameSum (JumbleFields fs) (JumbleVariant vs)
end

mutual
theorem jumbleTy : (t : Ty) → Blind (Jumble t) t.dict
  | .uint _ => prim_blind fun hm bs => getVarint_mode hm _ bs
  | .sint _ => prim_blind fun hm bs => getSigned_mode hm _ bs
  | .bool => prim_blind fun _ _ => modeEx_refl _
  | .string => plain_eq_blind fun _ _ => rfl
  | .bytes => plain_eq_blind fun _ _ => rfl
  | .vec t => vec_blind (jumbleTy t)
  | .array n t => array_blind n (jumbleTy t)
  | .tuple ts => tuple_blind (jumbleTys ts)
  | .option t => option_blind (jumbleTy t)
  | .box t => box_blind (jumbleTy t)
  | .hashMap k v => hashMap_blind (eq_of_twin k) (blindTy k) (blindTy v)
  | .list t => list_blind (jumbleTy t)
  | .map kt t => map_jumble kt (jumbleTy t)
  | .struct ds cached fs => struct_blind ds cached (jumbleFieldsTy fs ds)
  | .enum ds cached fs vs =>
    enum_blind ds (variantsCons_blind 0#32 cached (jumbleFieldsTy fs ds) (jumbleVariantsTy vs ds)) fun o o' ho => (jumbleFieldsTy fs ds).init o o' ho

theorem jumbleTys : (ts : Tys) → BlindTuple (JumbleTuple ts) ts.dict
  | .nil => tupleNil_blind
  | .cons t ts => tupleCons_blind (jumbleTy t) (jumbleTys ts)

theorem jumbleFieldsTy : (fs : Fields) → (ds : Bool) → BlindFields (JumbleFields fs) (fs.dict ds)
  | .nil, _ => fieldsNil_blind
  | .cons tag attrs t fs, ds => fieldsCons_blind ds tag attrs (jumbleTy t) (jumbleFieldsTy fs ds)

theorem jumbleVariantsTy : (vs : Variants) → (ds : Bool) → BlindVariants (JumbleVariant vs) (vs.dict ds)
  | .nil, _ => variantsNil_blind
  | .cons tag cached fs vs, ds => variantsCons_blind tag cached (jumbleFieldsTy fs ds) (jumbleVariantsTy vs ds)
end

/-! ## An equivalence relation -/

mutual
theorem twin_symm : (t : Ty) → ∀ v w, Twin t v w → Twin t w v
  | .uint _, _, _, h => Eq.symm h
  | .sint _, _, _, h => Eq.symm h
  | .bool, _, _, h => Eq.symm h
  | .string, _, _, h => Eq.symm h
  | .bytes, _, _, h => Eq.symm h
  | .vec t, _, _, h => sameItems_symm (twin_symm t) h
  | .array _ t, _, _, h => sameItems_symm (twin_symm t) h
  | .tuple ts, v, w, h => twinTuple_symm ts v w h
  | .option t, none, none, _ => trivial
  | .option t, some x, some y, h => twin_symm t x y h
  | .option t, none, some _, h => h.elim
  | .option t, some _, none, h => h.elim
  | .box t, v, w, h => twin_symm t v w h
  | .hashMap k u, _, _, h => sameItems_symm (R := SamePair (Twin k) (Twin u)) (Q := SamePair (Twin k) (Twin u)) (fun _ _ hxy => ⟨twin_symm k _ _ hxy.1, twin_symm u _ _ hxy.2⟩) h
  | .list t, _, _, h => sameItems_symm (twin_symm t) h
  | .map _ t, _, _, h => sameItems_symm (R := SamePair Eq (Twin t)) (Q := SamePair Eq (Twin t)) (fun _ _ hxy => ⟨Eq.symm hxy.1, twin_symm t _ _ hxy.2⟩) h
  | .struct _ _ fs, v, w, h => twinFields_symm fs _ _ h
  | .enum _ _ fs vs, ⟨_, .inl x⟩, ⟨_, .inl y⟩, h => ⟨fun hd => ⟨(h.1 hd).2, (h.1 hd).1⟩, twinFields_symm fs x y h.2⟩
  | .enum _ _ fs vs, ⟨_, .inr x⟩, ⟨_, .inr y⟩, h => ⟨fun hd => ⟨(h.1 hd).2, (h.1 hd).1⟩, twinVariant_symm vs x y h.2⟩
  | .enum _ _ fs vs, ⟨_, .inl x⟩, ⟨_, .inr y⟩, h => h.2.elim
  | .enum _ _ fs vs, ⟨_, .inr x⟩, ⟨_, .inl y⟩, h => h.2.elim

theorem twinTuple_symm : (ts : Tys) → ∀ v w, TwinTuple ts v w → TwinTuple ts w v
  | .nil, _, _, _ => trivial
  | .cons t ts, v, w, h => ⟨twin_symm t v.1 w.1 h.1, twinTuple_symm ts v.2 w.2 h.2⟩

theorem twinFields_symm : (fs : Fields) → ∀ v w, TwinFields fs v w → TwinFields fs w v
  | .nil, _, _, _ => trivial
  | .cons _ _ t fs, v, w, h => ⟨twin_symm t v.1 w.1 h.1, twinFields_symm fs v.2 w.2 h.2⟩

theorem twinVariant_symm : (vs : Variants) → ∀ v w, TwinVariant vs v w → TwinVariant vs w v
  | .nil, v, _, _ => nomatch v
  | .cons _ _ fs vs, .inl x, .inl y, h => twinFields_symm fs x y h
  | .cons _ _ fs vs, .inr x, .inr y, h => twinVariant_symm vs x y h
  | .cons _ _ fs vs, .inl x, .inr y, h => h.elim
  | .cons _ _ fs vs, .inr x, .inl y, h => h.elim
end

mutual
theorem twin_trans : (t : Ty) → ∀ u v w, Twin t u v → Twin t v w → Twin t u w
  | .uint _, _, _, _, h, h' => Eq.trans h h'
  | .sint _, _, _, _, h, h' => Eq.trans h h'
  | .bool, _, _, _, h, h' => Eq.trans h h'
  | .string, _, _, _, h, h' => Eq.trans h h'
  | .bytes, _, _, _, h, h' => Eq.trans h h'
  | .vec t, _, _, _, h, h' => sameItems_trans (twin_trans t) h h'
  | .array _ t, _, _, _, h, h' => sameItems_trans (twin_trans t) h h'
  | .tuple ts, _, _, _, h, h' => twinTuple_trans ts _ _ _ h h'
  | .option t, none, none, none, _, _ => trivial
  | .option t, some x, some y, some z, h, h' => twin_trans t x y z h h'
  | .option t, none, some _, _, h, _ => h.elim
  | .option t, some _, none, _, h, _ => h.elim
  | .option t, none, none, some _, _, h => h.elim
  | .option t, some _, some _, none, _, h => h.elim
  | .box t, _, _, _, h, h' => twin_trans t _ _ _ h h'
  | .hashMap k u, _, _, _, h, h' => sameItems_trans (R := SamePair (Twin k) (Twin u)) (Q := SamePair (Twin k) (Twin u)) (T := SamePair (Twin k) (Twin u))
      (fun _ _ _ hx hy => ⟨twin_trans k _ _ _ hx.1 hy.1, twin_trans u _ _ _ hx.2 hy.2⟩) h h'
  | .list t, _, _, _, h, h' => sameItems_trans (twin_trans t) h h'
  | .map _ t, _, _, _, h, h' => sameItems_trans (R := SamePair Eq (Twin t)) (Q := SamePair Eq (Twin t)) (T := SamePair Eq (Twin t))
      (fun _ _ _ hx hy => ⟨Eq.trans hx.1 hy.1, twin_trans t _ _ _ hx.2 hy.2⟩) h h'
  | .struct _ _ fs, _, _, _, h, h' => twinFields_trans fs _ _ _ h h'
  | .enum _ _ fs vs, ⟨_, .inl x⟩, ⟨_, .inl y⟩, ⟨_, .inl z⟩, h, h' => ⟨fun hd => ⟨(h.1 hd).1, (h'.1 hd).2⟩, twinFields_trans fs x y z h.2 h'.2⟩
  | .enum _ _ fs vs, ⟨_, .inr x⟩, ⟨_, .inr y⟩, ⟨_, .inr z⟩, h, h' => ⟨fun hd => ⟨(h.1 hd).1, (h'.1 hd).2⟩, twinVariant_trans vs x y z h.2 h'.2⟩
  | .enum _ _ fs vs, ⟨_, .inl x⟩, ⟨_, .inr y⟩, _, h, _ => h.2.elim
  | .enum _ _ fs vs, ⟨_, .inr x⟩, ⟨_, .inl y⟩, _, h, _ => h.2.elim
  | .enum _ _ fs vs, ⟨_, .inl x⟩, ⟨_, .inl y⟩, ⟨_, .inr z⟩, _, h => h.2.elim
  | .enum _ _ fs vs, ⟨_, .inr x⟩, ⟨_, .inr y⟩, ⟨_, .inl z⟩, _, h => h.2.elim

theorem twinTuple_trans : (ts : Tys) → ∀ u v w, TwinTuple ts u v → TwinTuple ts v w → TwinTuple ts u w
  | .nil, _, _, _, _, _ => trivial
  | .cons t ts, _, _, _, h, h' => ⟨twin_trans t _ _ _ h.1 h'.1, twinTuple_trans ts _ _ _ h.2 h'.2⟩

theorem twinFields_trans : (fs : Fields) → ∀ u v w, TwinFields fs u v → TwinFields fs v w → TwinFields fs u w
  | .nil, _, _, _, _, _ => trivial
  | .cons _ _ t fs, _, _, _, h, h' => ⟨twin_trans t _ _ _ h.1 h'.1, twinFields_trans fs _ _ _ h.2 h'.2⟩

theorem twinVariant_trans : (vs : Variants) → ∀ u v w, TwinVariant vs u v → TwinVariant vs v w → TwinVariant vs u w
  | .nil, v, _, _, _, _ => nomatch v
  | .cons _ _ fs vs, .inl x, .inl y, .inl z, h, h' => twinFields_trans fs x y z h h'
  | .cons _ _ fs vs, .inr x, .inr y, .inr z, h, h' => twinVariant_trans vs x y z h h'
  | .cons _ _ fs vs, .inl x, .inr y, _, h, _ => h.elim
  | .cons _ _ fs vs, .inr x, .inl y, _, h, _ => h.elim
  | .cons _ _ fs vs, .inl x, .inl y, .inr z, _, h => h.elim
  | .cons _ _ fs vs, .inr x, .inr y, .inl z, _, h => h.elim
end

mutual
theorem jumble_symm : (t : Ty) → ∀ v w, Jumble t v w → Jumble t w v
  | .uint _, _, _, h => Eq.symm h
  | .sint _, _, _, h => Eq.symm h
  | .bool, _, _, h => Eq.symm h
  | .string, _, _, h => Eq.symm h
  | .bytes, _, _, h => Eq.symm h
  | .vec t, _, _, h => sameItems_symm (jumble_symm t) h
  | .array _ t, _, _, h => sameItems_symm (jumble_symm t) h
  | .tuple ts, v, w, h => jumbleTuple_symm ts v w h
  | .option t, none, none, _ => trivial
  | .option t, some x, some y, h => jumble_symm t x y h
  | .option t, none, some _, h => h.elim
  | .option t, some _, none, h => h.elim
  | .box t, v, w, h => jumble_symm t v w h
  | .hashMap k u, _, _, h => sameItems_symm (R := SamePair (Twin k) (Twin u)) (Q := SamePair (Twin k) (Twin u)) (fun _ _ hxy => ⟨twin_symm k _ _ hxy.1, twin_symm u _ _ hxy.2⟩) h
  | .list t, _, _, h => sameItems_symm (jumble_symm t) h
  | .map _ t, _, _, h => sameKeys_symm (jumble_symm t) h
  | .struct _ _ fs, v, w, h => jumbleFields_symm fs _ _ h
  | .enum _ _ fs vs, ⟨_, .inl x⟩, ⟨_, .inl y⟩, h => ⟨fun hd => ⟨(h.1 hd).2, (h.1 hd).1⟩, jumbleFields_symm fs x y h.2⟩
  | .enum _ _ fs vs, ⟨_, .inr x⟩, ⟨_, .inr y⟩, h => ⟨fun hd => ⟨(h.1 hd).2, (h.1 hd).1⟩, jumbleVariant_symm vs x y h.2⟩
  | .enum _ _ fs vs, ⟨_, .inl x⟩, ⟨_, .inr y⟩, h => h.2.elim
  | .enum _ _ fs vs, ⟨_, .inr x⟩, ⟨_, .inl y⟩, h => h.2.elim

theorem jumbleTuple_symm : (ts : Tys) → ∀ v w, JumbleTuple ts v w → JumbleTuple ts w v
  | .nil, _, _, _ => trivial
  | .cons t ts, v, w, h => ⟨jumble_symm t v.1 w.1 h.1, jumbleTuple_symm ts v.2 w.2 h.2⟩

theorem jumbleFields_symm : (fs : Fields) → ∀ v w, JumbleFields fs v w → JumbleFields fs w v
  | .nil, _, _, _ => trivial
  | .cons _ _ t fs, v, w, h => ⟨jumble_symm t v.1 w.1 h.1, jumbleFields_symm fs v.2 w.2 h.2⟩

theorem jumbleVariant_symm : (vs : Variants) → ∀ v w, JumbleVariant vs v w → JumbleVariant vs w v
  | .nil, v, _, _ => nomatch v
  | .cons _ _ fs vs, .inl x, .inl y, h => jumbleFields_symm fs x y h
  | .cons _ _ fs vs, .inr x, .inr y, h => jumbleVariant_symm vs x y h
  | .cons _ _ fs vs, .inl x, .inr y, h => h.elim
  | .cons _ _ fs vs, .inr x, .inl y, h => h.elim
end

mutual
theorem jumble_trans : (t : Ty) → ∀ u v w, Jumble t u v → Jumble t v w → Jumble t u w
  | .uint _, _, _, _, h, h' => Eq.trans h h'
  | .sint _, _, _, _, h, h' => Eq.trans h h'
  | .bool, _, _, _, h, h' => Eq.trans h h'
  | .string, _, _, _, h, h' => Eq.trans h h'
  | .bytes, _, _, _, h, h' => Eq.trans h h'
  | .vec t, _, _, _, h, h' => sameItems_trans (jumble_trans t) h h'
  | .array _ t, _, _, _, h, h' => sameItems_trans (jumble_trans t) h h'
  | .tuple ts, _, _, _, h, h' => jumbleTuple_trans ts _ _ _ h h'
  | .option t, none, none, none, _, _ => trivial
  | .option t, some x, some y, some z, h, h' => jumble_trans t x y z h h'
  | .option t, none, some _, _, h, _ => h.elim
  | .option t, some _, none, _, h, _ => h.elim
  | .option t, none, none, some _, _, h => h.elim
  | .option t, some _, some _, none, _, h => h.elim
  | .box t, _, _, _, h, h' => jumble_trans t _ _ _ h h'
  | .hashMap k u, _, _, _, h, h' => sameItems_trans (R := SamePair (Twin k) (Twin u)) (Q := SamePair (Twin k) (Twin u)) (T := SamePair (Twin k) (Twin u))
      (fun _ _ _ hx hy => ⟨twin_trans k _ _ _ hx.1 hy.1, twin_trans u _ _ _ hx.2 hy.2⟩) h h'
  | .list t, _, _, _, h, h' => sameItems_trans (jumble_trans t) h h'
  | .map _ t, _, _, _, h, h' => sameKeys_trans (jumble_trans t) h h'
  | .struct _ _ fs, _, _, _, h, h' => jumbleFields_trans fs _ _ _ h h'
  | .enum _ _ fs vs, ⟨_, .inl x⟩, ⟨_, .inl y⟩, ⟨_, .inl z⟩, h, h' => ⟨fun hd => ⟨(h.1 hd).1, (h'.1 hd).2⟩, jumbleFields_trans fs x y z h.2 h'.2⟩
  | .enum _ _ fs vs, ⟨_, .inr x⟩, ⟨_, .inr y⟩, ⟨_, .inr z⟩, h, h' => ⟨fun hd => ⟨(h.1 hd).1, (h'.1 hd).2⟩, jumbleVariant_trans vs x y z h.2 h'.2⟩
  | .enum _ _ fs vs, ⟨_, .inl x⟩, ⟨_, .inr y⟩, _, h, _ => h.2.elim
  | .enum _ _ fs vs, ⟨_, .inr x⟩, ⟨_, .inl y⟩, _, h, _ => h.2.elim
  | .enum _ _ fs vs, ⟨_, .inl x⟩, ⟨_, .inl y⟩, ⟨_, .inr z⟩, _, h => h.2.elim
  | .enum _ _ fs vs, ⟨_, .inr x⟩, ⟨_, .inr y⟩, ⟨_, .inl z⟩, _, h => h.2.elim

theorem jumbleTuple_trans : (ts : Tys) → ∀ u v w, JumbleTuple ts u v → JumbleTuple ts v w → JumbleTuple ts u w
  | .nil, _, _, _, _, _ => trivial
  | .cons t ts, _, _, _, h, h' => ⟨jumble_trans t _ _ _ h.1 h'.1, jumbleTuple_trans ts _ _ _ h.2 h'.2⟩

theorem jumbleFields_trans : (fs : Fields) → ∀ u v w, JumbleFields fs u v → JumbleFields fs v w → JumbleFields fs u w
  | .nil, _, _, _, _, _ => trivial
  | .cons _ _ t fs, _, _, _, h, h' => ⟨jumble_trans t _ _ _ h.1 h'.1, jumbleFields_trans fs _ _ _ h.2 h'.2⟩

theorem jumbleVariant_trans : (vs : Variants) → ∀ u v w, JumbleVariant vs u v → JumbleVariant vs v w → JumbleVariant vs u w
  | .nil, v, _, _, _, _ => nomatch v
  | .cons _ _ fs vs, .inl x, .inl y, .inl z, h, h' => jumbleFields_trans fs x y z h h'
  | .cons _ _ fs vs, .inr x, .inr y, .inr z, h, h' => jumbleVariant_trans vs x y z h h'
  | .cons _ _ fs vs, .inl x, .inr y, _, h, _ => h.elim
  | .cons _ _ fs vs, .inr x, .inl y, _, h, _ => h.elim
  | .cons _ _ fs vs, .inl x, .inl y, .inr z, _, h => h.elim
  | .cons _ _ fs vs, .inr x, .inr y, .inl z, _, h => h.elim
end

mutual
theorem jumble_of_same : (t : Ty) → ∀ (rt rt' : Rt) v w, At t rt v → At t rt' w → Same t v w → Jumble t v w
  | .uint _, _, _, _, _, _, _, h => h
  | .sint _, _, _, _, _, _, _, h => h
  | .bool, _, _, _, _, _, _, h => h
  | .string, _, _, _, _, _, _, h => h
  | .bytes, _, _, _, _, _, _, h => h
  | .vec t, rt, rt', v, w, hv, hw, h => sameItems_of_map (fun x hx y hy hxy => by
      obtain ⟨r, hr⟩ := hv x hx
      obtain ⟨r', hr'⟩ := hw y hy
      exact jumble_of_same t r r' x y hr hr' hxy) h
  | .array _ t, rt, rt', v, w, hv, hw, h => sameItems_of_map (fun x hx y hy hxy => by
      obtain ⟨r, hr⟩ := hv x hx
      obtain ⟨r', hr'⟩ := hw y hy
      exact jumble_of_same t r r' x y hr hr' hxy) (congrArg Subtype.val h)
  | .tuple ts, _, _, v, w, hv, hw, h => jumbleTuple_of_same ts v w hv hw h
  | .option t, _, _, none, none, _, _, _ => trivial
  | .option t, _, _, some x, some y, hv, hw, h => by
      obtain ⟨r, hr⟩ := hv x rfl
      obtain ⟨r', hr'⟩ := hw y rfl
      exact jumble_of_same t r r' x y hr hr' (Option.some.inj h)
  | .option t, _, _, none, some _, _, _, h => nomatch h
  | .option t, _, _, some _, none, _, _, h => nomatch h
  | .box t, rt, rt', v, w, hv, hw, h => jumble_of_same t rt rt' v w hv hw h
  | .hashMap k u, _, _, v, w, hv, hw, h => sameItems_of_map (fun x hx y hy hxy => by
      obtain ⟨⟨a, ha⟩, ⟨b, hb⟩⟩ := hv x hx
      obtain ⟨⟨a', ha'⟩, ⟨b', hb'⟩⟩ := hw y hy
      rw [Prod.mk.injEq] at hxy
      exact ⟨twin_of_same k a a' x.1 y.1 ha ha' hxy.1, twin_of_same u b b' x.2 y.2 hb hb' hxy.2⟩) h
  | .list t, rt, rt', v, w, hv, hw, h => sameItems_of_map (fun x hx y hy hxy => by
      obtain ⟨i, hi⟩ := List.getElem?_of_mem hx
      obtain ⟨j, hj⟩ := List.getElem?_of_mem hy
      exact jumble_of_same t _ _ x y (hv.2 i x hi) (hw.2 j y hj) hxy) (congrArg ListV.items h)
  | .map _ t, rt, rt', v, w, hv, hw, h => by
      refine ⟨hv.2.1, hw.2.1, fun k => ?_⟩
      have h1 := congrArg (entriesGet k) (congrArg MapV.entries h)
      simp only [strip] at h1
      rw [entriesGet_map, entriesGet_map] at h1
      cases hx : entriesGet k v.entries <;> cases hy : entriesGet k w.entries <;> rw [hx, hy] at h1
      · trivial
      · cases h1
      · cases h1
      · exact jumble_of_same t _ _ _ _ (hv.2.2 _ (entriesGet_mem hx)) (hw.2.2 _ (entriesGet_mem hy)) (Option.some.inj h1)
  | .struct ds _ fs, rt, rt', v, w, hv, hw, h => jumbleFields_of_same fs ds rt rt' _ _ hv.2 hw.2 (congrArg StructV.fields h)
  | .enum ds _ fs vs, rt, rt', ⟨_, .inl x⟩, ⟨_, .inl y⟩, hv, hw, h => by
      refine ⟨fun hd => ?_, jumbleFields_of_same fs ds _ _ x y hv.2 hw.2 (Sum.inl.inj (congrArg EnumV.val h))⟩
      have h1 := hv.1 hd
      have h2 := hw.1 hd
      dsimp only at h1 h2
      subst h1; subst h2
      exact ⟨nested_path _ _, nested_path _ _⟩
  | .enum ds _ fs vs, rt, rt', ⟨o, .inr x⟩, ⟨o', .inr y⟩, hv, hw, h =>
      jumbleVariant_of_same vs ds rt rt' o o' x y hv hw (Sum.inr.inj (congrArg EnumV.val h))
  | .enum ds _ fs vs, rt, rt', ⟨_, .inl x⟩, ⟨_, .inr y⟩, hv, hw, h => nomatch congrArg EnumV.val h
  | .enum ds _ fs vs, rt, rt', ⟨_, .inr x⟩, ⟨_, .inl y⟩, hv, hw, h => nomatch congrArg EnumV.val h

theorem jumbleTuple_of_same : (ts : Tys) → ∀ v w, AtTuple ts v → AtTuple ts w → stripTuple ts v = stripTuple ts w → JumbleTuple ts v w
  | .nil, _, _, _, _, _ => trivial
  | .cons t ts, v, w, hv, hw, h => by
      obtain ⟨r, hr⟩ := hv.1
      obtain ⟨r', hr'⟩ := hw.1
      have h' := Prod.mk.inj h
      exact ⟨jumble_of_same t r r' v.1 w.1 hr hr' h'.1, jumbleTuple_of_same ts v.2 w.2 hv.2 hw.2 h'.2⟩

theorem jumbleFields_of_same : (fs : Fields) → ∀ (ds : Bool) (rt rt' : Rt) v w, AtFields fs ds rt v → AtFields fs ds rt' w →
    stripFields fs v = stripFields fs w → JumbleFields fs v w
  | .nil, _, _, _, _, _, _, _, _ => trivial
  | .cons tag attrs t fs, ds, rt, rt', v, w, hv, hw, h => by
      have h' := Prod.mk.inj h
      refine ⟨?_, jumbleFields_of_same fs ds rt rt' v.2 w.2 hv.2 hw.2 h'.2⟩
      have h1 := hv.1
      have h2 := hw.1
      cases hb : ds && !attrs.noState with
      | true =>
        rw [if_pos hb] at h1 h2
        exact jumble_of_same t _ _ v.1 w.1 h1 h2 h'.1
      | false =>
        rw [if_neg (by rw [hb]; decide)] at h1 h2
        obtain ⟨r, hr⟩ := h1
        obtain ⟨r', hr'⟩ := h2
        exact jumble_of_same t r r' v.1 w.1 hr hr' h'.1

theorem jumbleVariant_of_same : (vs : Variants) → ∀ (ds : Bool) (rt rt' own own' : Rt) v w, AtVariant vs ds rt own v → AtVariant vs ds rt' own' w →
    stripVariant vs v = stripVariant vs w → (ds = true → own.path ≠ [] ∧ own'.path ≠ []) ∧ JumbleVariant vs v w
  | .nil, _, _, _, _, _, v, _, _, _, _ => nomatch v
  | .cons tag _ fs vs, ds, rt, rt', own, own', .inl x, .inl y, hv, hw, h => by
      refine ⟨fun hd => ?_, jumbleFields_of_same fs ds _ _ x y hv.2 hw.2 (Sum.inl.inj h)⟩
      rw [hv.1 hd, hw.1 hd]
      exact ⟨nested_path _ _, nested_path _ _⟩
  | .cons tag _ fs vs, ds, rt, rt', own, own', .inr x, .inr y, hv, hw, h =>
      jumbleVariant_of_same vs ds rt rt' own own' x y hv hw (Sum.inr.inj h)
  | .cons tag _ fs vs, ds, rt, rt', own, own', .inl x, .inr y, hv, hw, h => nomatch h
  | .cons tag _ fs vs, ds, rt, rt', own, own', .inr x, .inl y, hv, hw, h => nomatch h
end

theorem jumble_refl {t : Ty} {rt : Rt} {v : t.El} (h : At t rt v) : Jumble t v v := jumble_of_same t rt rt v v h h rfl

/-! ## Equality -/

mutual
theorem equal_of_twin : (t : Ty) → ∀ v w, Twin t v w → Equal t v w
  | .uint _, _, _, h => h
  | .sint _, _, _, h => h
  | .bool, _, _, h => h
  | .string, _, _, h => congrArg Str.bytes h
  | .bytes, _, _, h => h
  | .vec t, _, _, h => (sameItems_iff.1 h).imp (equal_of_twin t)
  | .array _ t, _, _, h => (sameItems_iff.1 h).imp (equal_of_twin t)
  | .tuple ts, v, w, h => equalTuple_of_twin ts v w h
  | .option t, none, none, _ => .inl ⟨rfl, rfl⟩
  | .option t, some x, some y, h => .inr ⟨x, y, rfl, rfl, equal_of_twin t x y h⟩
  | .option t, none, some _, h => h.elim
  | .option t, some _, none, h => h.elim
  | .box t, v, w, h => equal_of_twin t v w h
  | .hashMap k u, _, w, h => ⟨_, (sameItems_iff.1 h).imp fun x y hxy => ⟨equal_of_twin k _ _ hxy.1, equal_of_twin u _ _ hxy.2⟩, .refl _⟩
  | .list t, _, _, h => (sameItems_iff.1 h).imp (equal_of_twin t)
  | .map _ t, _, w, h => ⟨_, (sameItems_iff.1 h).imp fun x y hxy => ⟨hxy.1, equal_of_twin t _ _ hxy.2⟩, .refl _⟩
  | .struct _ _ fs, v, w, h => equalFields_of_twin fs _ _ h
  | .enum _ _ fs vs, ⟨_, .inl x⟩, ⟨_, .inl y⟩, h => .inl ⟨x, y, rfl, rfl, equalFields_of_twin fs x y h.2⟩
  | .enum _ _ fs vs, ⟨_, .inr x⟩, ⟨_, .inr y⟩, h => .inr ⟨x, y, rfl, rfl, equalVariant_of_twin vs x y h.2⟩
  | .enum _ _ fs vs, ⟨_, .inl x⟩, ⟨_, .inr y⟩, h => h.2.elim
  | .enum _ _ fs vs, ⟨_, .inr x⟩, ⟨_, .inl y⟩, h => h.2.elim

theorem equalTuple_of_twin : (ts : Tys) → ∀ v w, TwinTuple ts v w → EqualTuple ts v w
  | .nil, _, _, _ => trivial
  | .cons t ts, v, w, h => ⟨equal_of_twin t v.1 w.1 h.1, equalTuple_of_twin ts v.2 w.2 h.2⟩

theorem equalFields_of_twin : (fs : Fields) → ∀ v w, TwinFields fs v w → EqualFields fs v w
  | .nil, _, _, _ => trivial
  | .cons _ _ t fs, v, w, h => ⟨fun _ => equal_of_twin t v.1 w.1 h.1, equalFields_of_twin fs v.2 w.2 h.2⟩

theorem equalVariant_of_twin : (vs : Variants) → ∀ v w, TwinVariant vs v w → EqualVariant vs v w
  | .nil, v, _, _ => nomatch v
  | .cons _ _ fs vs, .inl x, .inl y, h => .inl ⟨x, y, rfl, rfl, equalFields_of_twin fs x y h⟩
  | .cons _ _ fs vs, .inr x, .inr y, h => .inr ⟨x, y, rfl, rfl, equalVariant_of_twin vs x y h⟩
  | .cons _ _ fs vs, .inl x, .inr y, h => h.elim
  | .cons _ _ fs vs, .inr x, .inl y, h => h.elim
end

mutual
theorem equal_of_jumble : (t : Ty) → ∀ v w, Jumble t v w → Equal t v w
  | .uint _, _, _, h => h
  | .sint _, _, _, h => h
  | .bool, _, _, h => h
  | .string, _, _, h => congrArg Str.bytes h
  | .bytes, _, _, h => h
  | .vec t, _, _, h => (sameItems_iff.1 h).imp (equal_of_jumble t)
  | .array _ t, _, _, h => (sameItems_iff.1 h).imp (equal_of_jumble t)
  | .tuple ts, v, w, h => equalTuple_of_jumble ts v w h
  | .option t, none, none, _ => .inl ⟨rfl, rfl⟩
  | .option t, some x, some y, h => .inr ⟨x, y, rfl, rfl, equal_of_jumble t x y h⟩
  | .option t, none, some _, h => h.elim
  | .option t, some _, none, h => h.elim
  | .box t, v, w, h => equal_of_jumble t v w h
  | .hashMap k u, _, w, h => ⟨_, (sameItems_iff.1 h).imp fun x y hxy => ⟨equal_of_twin k _ _ hxy.1, equal_of_twin u _ _ hxy.2⟩, .refl _⟩
  | .list t, _, _, h => (sameItems_iff.1 h).imp (equal_of_jumble t)
  | .map _ t, _, w, h => by
    obtain ⟨c, h1, h2⟩ := sameKeys_perm h
    exact ⟨c, h1.imp fun x y hxy => ⟨hxy.1, equal_of_jumble t _ _ hxy.2⟩, h2⟩
  | .struct _ _ fs, v, w, h => equalFields_of_jumble fs _ _ h
  | .enum _ _ fs vs, ⟨_, .inl x⟩, ⟨_, .inl y⟩, h => .inl ⟨x, y, rfl, rfl, equalFields_of_jumble fs x y h.2⟩
  | .enum _ _ fs vs, ⟨_, .inr x⟩, ⟨_, .inr y⟩, h => .inr ⟨x, y, rfl, rfl, equalVariant_of_jumble vs x y h.2⟩
  | .enum _ _ fs vs, ⟨_, .inl x⟩, ⟨_, .inr y⟩, h => h.2.elim
  | .enum _ _ fs vs, ⟨_, .inr x⟩, ⟨_, .inl y⟩, h => h.2.elim

theorem equalTuple_of_jumble : (ts : Tys) → ∀ v w, JumbleTuple ts v w → EqualTuple ts v w
  | .nil, _, _, _ => trivial
  | .cons t ts, v, w, h => ⟨equal_of_jumble t v.1 w.1 h.1, equalTuple_of_jumble ts v.2 w.2 h.2⟩

theorem equalFields_of_jumble : (fs : Fields) → ∀ v w, JumbleFields fs v w → EqualFields fs v w
  | .nil, _, _, _ => trivial
  | .cons _ _ t fs, v, w, h => ⟨fun _ => equal_of_jumble t v.1 w.1 h.1, equalFields_of_jumble fs v.2 w.2 h.2⟩

theorem equalVariant_of_jumble : (vs : Variants) → ∀ v w, JumbleVariant vs v w → EqualVariant vs v w
  | .nil, v, _, _ => nomatch v
  | .cons _ _ fs vs, .inl x, .inl y, h => .inl ⟨x, y, rfl, rfl, equalFields_of_jumble fs x y h⟩
  | .cons _ _ fs vs, .inr x, .inr y, h => .inr ⟨x, y, rfl, rfl, equalVariant_of_jumble vs x y h⟩
  | .cons _ _ fs vs, .inl x, .inr y, h => h.elim
  | .cons _ _ fs vs, .inr x, .inl y, h => h.elim
end

theorem eq_of_jumble {t : Ty} {v w : t.El} (h : Jumble t v w) (hv : Carried t v) (hw : Carried t w) : t.eq v w = true :=
  (eq_iff t v w (keyed_of_carried t v hv) (keyed_of_carried t w hw)).2 (equal_of_jumble t v w h)

/-! ## C# -/

theorem forall₂_jumble {α γ : Type} {R : α → α → Prop} {S : α → γ → Prop} (h : ∀ x y c, R x y → S x c → S y c) :
    ∀ {xs ys : List α} {cs : List γ}, SameItems R xs ys → List.Forall₂ S xs cs → List.Forall₂ S ys cs
  | [], [], _, _, h1 => h1
  | _ :: _, _ :: _, _ :: _, hr, .cons h1 h2 => .cons (h _ _ _ hr.1 h1) (forall₂_jumble h hr.2 h2)

theorem rel_jumble {α γ : Type} {R : α → α → Prop} {S : α → γ → Prop} (h : ∀ x y c, R x y → S x c → S y c) :
    ∀ {x y : Option α} {c : Option γ}, SameOption R x y → Option.Rel S x c → Option.Rel S y c
  | none, none, _, _, h1 => h1
  | some _, some _, _, hr, .some h1 => .some (h _ _ _ hr h1)
  | none, some _, _, hr, _ => hr.elim
  | some _, none, _, hr, _ => hr.elim

mutual
theorem shows_jumble : (t : Ty) → ∀ v w c, Jumble t v w → Shows t v c → Shows t w c
  | .uint _, _, _, _, h, h1 => by cases h; exact h1
  | .sint _, _, _, _, h, h1 => by cases h; exact h1
  | .bool, _, _, _, h, h1 => by cases h; exact h1
  | .string, _, _, _, h, h1 => by cases h; exact h1
  | .bytes, _, _, _, h, h1 => by cases h; exact h1
  | .vec t, _, _, _, h, h1 => forall₂_jumble (shows_jumble t) h h1
  | .array _ t, _, _, _, h, h1 => forall₂_jumble (shows_jumble t) h h1
  | .tuple _, _, _, _, _, h1 => h1.elim
  | .option t, _, _, _, h, h1 => rel_jumble (shows_jumble t) h h1
  | .box t, _, _, _, h, h1 => shows_jumble t _ _ _ h h1
  | .hashMap _ _, _, _, _, _, h1 => h1.elim
  | .list t, _, _, _, h, h1 => forall₂_jumble (shows_jumble t) h h1
  | .map _ t, _, _, _, h, h1 => fun k => by
    have h2 := h1 k
    have h3 := h.2.2 k
    rw [lookup_entriesGet] at h2 ⊢
    exact rel_jumble (shows_jumble t) h3 h2
  | .struct _ _ fs, _, _, _, h, h1 => showsFields_jumble fs _ _ _ h h1
  | .enum _ _ fs vs, ⟨_, .inl x⟩, ⟨_, .inl y⟩, .inl c, h, h1 => showsFields_jumble fs x y c h.2 h1
  | .enum _ _ fs vs, ⟨_, .inr x⟩, ⟨_, .inr y⟩, .inr c, h, h1 => showsVariant_jumble vs x y c h.2 h1
  | .enum _ _ fs vs, ⟨_, .inl x⟩, ⟨_, .inl y⟩, .inr c, h, h1 => h1.elim
  | .enum _ _ fs vs, ⟨_, .inr x⟩, ⟨_, .inr y⟩, .inl c, h, h1 => h1.elim
  | .enum _ _ fs vs, ⟨_, .inl x⟩, ⟨_, .inr y⟩, _, h, _ => h.2.elim
  | .enum _ _ fs vs, ⟨_, .inr x⟩, ⟨_, .inl y⟩, _, h, _ => h.2.elim

theorem showsFields_jumble : (fs : Fields) → ∀ v w c, JumbleFields fs v w → ShowsFields fs v c → ShowsFields fs w c
  | .nil, _, _, _, _, _ => trivial
  | .cons _ _ t fs, _, _, _, h, h1 => ⟨shows_jumble t _ _ _ h.1 h1.1, showsFields_jumble fs _ _ _ h.2 h1.2⟩

theorem showsVariant_jumble : (vs : Variants) → ∀ v w c, JumbleVariant vs v w → ShowsVariant vs v c → ShowsVariant vs w c
  | .nil, v, _, _, _, _ => nomatch v
  | .cons _ _ fs vs, .inl x, .inl y, .inl c, h, h1 => showsFields_jumble fs x y c h h1
  | .cons _ _ fs vs, .inr x, .inr y, .inr c, h, h1 => showsVariant_jumble vs x y c h h1
  | .cons _ _ fs vs, .inl x, .inl y, .inr c, _, h1 => h1.elim
  | .cons _ _ fs vs, .inr x, .inr y, .inl c, _, h1 => h1.elim
  | .cons _ _ fs vs, .inl x, .inr y, _, h, _ => h.elim
  | .cons _ _ fs vs, .inr x, .inl y, _, h, _ => h.elim
end

end Steit
