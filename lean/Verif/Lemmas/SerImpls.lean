import Verif.Lemmas.SerLaw

/-! # Serialization laws, one per implementation -/

namespace Steit
open Spec Prog

/-- No caches in or below the object. -/
def noCells : CellMap := fun _ => none

theorem SerLaw.ofBySize {α : Type} {d : Dict α} {wire : Nat} {enc : α → Bytes} {wr : α → Prop} {cells : α → CellMap}
    (hom : d.isOmissible = d.toSerD.isOmissibleBySize) (hwire : d.wire.num = wire)
    (own : ∀ v, cells v [] = if d.hasCache v then some (enc v).length else none)
    (size : ∀ m l v σ K, wr v → (enc v).length < 2 ^ 32 → Agrees σ l (cells v) →
      Sound σ K (d.computeSize m l v) (fun K' n => n = (enc v).length ∧ CoversBelow K' l (cells v)))
    (ser : ∀ m l v σ K, wr v → (enc v).length < 2 ^ 32 → Agrees σ l (cells v) → CoversBelow K l (cells v) →
      Sound σ K (d.serializeCached m l v) (fun _ bs => bs = enc v)) :
    SerLaw d wire enc (fun v => (enc v).isEmpty) wr cells where
  wire_eq := hwire
  own := own
  lo_small := by
    intro v h
    simp only [List.isEmpty_iff] at h
    rw [h]; decide
  size := size
  ser := ser
  omit_some := by
    intro m l v σ K _
    rw [hom]
    refine Sound.pure ?_
    cases h : enc v <;> simp
  omit_none := by
    intro m l v σ K hw hlen ha hc
    rw [hom]
    unfold SerD.isOmissibleBySize
    refine Sound.bind (Q := fun _ n => n = (enc v).length) ?_ ?_
    · unfold SerD.cachedSize
      have ho := own v
      split
      · next hh =>
        rw [if_pos hh] at ho
        exact ⟨by simpa using hc [] (by rw [ho]; rfl), _, ha.own.trans ho, rfl⟩
      · exact (size m l v σ K hw hlen ha).weaken (fun _ _ _ hq => hq.1)
    · rintro K' n _ rfl
      refine Sound.pure ?_
      cases h : enc v <;> simp

theorem serLaw_prim {α : Type} [DecidableEq α] (size : α → Nat) (put : α → Bytes)
    (get : Mode → Bytes → Except Err (α × Bytes)) (dflt : α) (enc : α → Bytes)
    (hput : ∀ v, put v = enc v) (hsize : ∀ v, size v = (enc v).length) (hsmall : ∀ v, (enc v).length < 2 ^ 32) :
    SerLaw (primDict size put get dflt) 0 enc (fun v => decide (v = dflt)) (fun _ => True) (fun _ => noCells) where
  wire_eq := rfl
  own := fun _ => rfl
  lo_small := fun v _ => hsmall v
  size := fun m l v σ K _ _ _ => Sound.pure ⟨hsize v, fun rel _ h => by cases h⟩
  ser := fun m l v σ K _ _ _ _ => Sound.pure (hput v)
  omit_some := fun m l v σ K _ => Sound.pure rfl
  omit_none := fun m l v σ K _ _ _ _ => Sound.pure rfl

theorem leb_length_small (n k : Nat) (h : n < 2 ^ k) (hk : k ≤ 64) : (leb n).length < 2 ^ 32 := by
  have : n < 128 ^ (9 + 1) :=
    Nat.lt_of_lt_of_le h (Nat.le_trans (Nat.pow_le_pow_right (by decide) hk) (by decide))
  have := leb_length_le 9 n this
  omega

theorem serLaw_uint (w : Width) :
    SerLaw (uintDict w) 0 (fun v => leb v.toNat) (fun v => decide (v = 0#w.bits)) (fun _ => True) (fun _ => noCells) :=
  serLaw_prim _ _ _ _ _ (fun v => putVarint_eq_leb w.le_bits v)
    (fun v => by rw [uintSize_eq, putVarint_eq_leb w.le_bits])
    (fun v => leb_length_small _ _ v.isLt w.bits_le)

theorem serLaw_sint (w : Width) :
    SerLaw (sintDict w) 0 (fun v => leb (zigzagNat v.toInt)) (fun v => decide (v = 0#w.bits)) (fun _ => True)
      (fun _ => noCells) := by
  have hw := w.le_bits
  have hp : ∀ v : BitVec w.bits, putSigned v = leb (zigzagNat v.toInt) := fun v => by
    unfold putSigned; rw [putVarint_eq_leb hw, zigzag_toNat (by omega)]
  refine serLaw_prim _ _ _ _ _ hp (fun v => ?_) (fun v => ?_)
  · unfold sintSize; rw [uintSize_eq, ← hp]; rfl
  · rw [← zigzag_toNat (by omega)]; exact leb_length_small _ _ (zigzag v).isLt w.bits_le

theorem serLaw_bool :
    SerLaw boolDict 0 (fun v => leb v.toNat) (fun v => decide (v = false)) (fun _ => True) (fun _ => noCells) := by
  have : ∀ v : Bool, putBool v = leb v.toNat := by
    intro v; cases v <;> (unfold leb; decide)
  refine serLaw_prim _ _ _ _ _ this (fun v => ?_) (fun v => ?_)
  · rw [← this]; rfl
  · rw [← this]; show 1 < 2 ^ 32; decide

theorem serLaw_string :
    SerLaw stringDict 2 (fun v => v.bytes) (fun v => v.bytes.isEmpty) (fun _ => True) (fun _ => noCells) where
  wire_eq := rfl
  own := fun _ => rfl
  lo_small := by
    intro v h
    simp only [List.isEmpty_iff] at h
    rw [h]; decide
  size := fun m l v σ K _ h _ => Sound.pure ⟨Nat.mod_eq_of_lt h, fun rel _ h => by cases h⟩
  ser := fun m l v σ K _ _ _ _ => Sound.pure rfl
  omit_some := fun m l v σ K _ => Sound.pure rfl
  omit_none := fun m l v σ K _ _ _ _ => Sound.pure rfl

theorem serLaw_bytes :
    SerLaw bytesDict 2 (fun v => v) (fun v => v.isEmpty) (fun _ => True) (fun _ => noCells) :=
  SerLaw.ofBySize rfl rfl (fun _ => rfl)
    (fun m l v σ K _ h _ => Sound.pure ⟨Nat.mod_eq_of_lt h, fun rel _ h => by cases h⟩)
    (fun m l v σ K _ _ _ _ => Sound.pure rfl)

/-! ### Sequences of items -/

section items
variable {α : Type} {d : Dict α} {wire : Nat} {enc : α → Bytes} {lo : α → Bool} {wr : α → Prop} {cells : α → CellMap}

theorem sound_sizeItems (h : SerLaw d wire enc lo wr cells) (m : Mode) (l : Loc) (σ : CellMap) :
    ∀ (xs : List α) (i acc : Nat) (K : Loc → Prop), (∀ x ∈ xs, wr x) →
      acc + (xs.flatMap (fun x => framed wire (enc x))).length < 2 ^ 32 → KidsAgree σ l i (xs.map cells) →
      Sound σ K (sizeItems d m l i acc xs)
        (fun K' n => n = acc + (xs.flatMap (fun x => framed wire (enc x))).length ∧ KidsCover K' l i (xs.map cells)) := by
  intro xs
  induction xs with
  | nil => intro i acc K _ _ _; exact Sound.pure ⟨by simp, trivial⟩
  | cons x xs ih =>
    intro i acc K hw hlen ha
    simp only [List.flatMap_cons, List.length_append] at hlen ⊢
    unfold sizeItems
    refine Sound.bind (h.sizeNested m (l ++ [i]) x σ K none false (hw x (by simp)) (by simp)
      (by simp only [nestedSpec]; omega) ha.1).unwrap ?_
    rintro K1 n _ ⟨rfl, hc⟩
    refine Sound.bind (Q := fun K' n => n = acc + (framed wire (enc x)).length ∧ Covers K' (l ++ [i]) (cells x))
      (Sound.addU32 (by simp only [nestedSpec]; omega) ⟨rfl, hc⟩) ?_
    rintro K2 n _ ⟨rfl, hc⟩
    refine (ih (i + 1) _ K2 (fun y hy => hw y (by simp [hy])) (by omega) ha.2).weaken ?_
    rintro K3 n hK ⟨rfl, hk⟩
    exact ⟨by omega, hc.mono hK, hk⟩

theorem sound_serializeItems (h : SerLaw d wire enc lo wr cells) (m : Mode) (l : Loc) (σ : CellMap) :
    ∀ (xs : List α) (i : Nat) (K : Loc → Prop), (∀ x ∈ xs, wr x) →
      (xs.flatMap (fun x => framed wire (enc x))).length < 2 ^ 32 → KidsAgree σ l i (xs.map cells) →
      KidsCover K l i (xs.map cells) →
      Sound σ K (serializeItems d m l i xs) (fun _ bs => bs = xs.flatMap (fun x => framed wire (enc x))) := by
  intro xs
  induction xs with
  | nil => intro i K _ _ _ _; exact Sound.pure rfl
  | cons x xs ih =>
    intro i K hw hlen ha hc
    simp only [List.flatMap_cons, List.length_append] at hlen ⊢
    unfold serializeItems
    refine Sound.bind (h.serNested m (l ++ [i]) x σ K none false (hw x (by simp)) (by simp)
      (by simp only [nestedSpec]; omega) ha.1 hc.1) ?_
    rintro K1 bs hK rfl
    refine Sound.bind (ih (i + 1) K1 (fun y hy => hw y (by simp [hy])) (by omega) ha.2 (KidsCover.mono hc.2 hK)) ?_
    rintro K2 bs' _ rfl
    exact Sound.pure rfl

theorem serLaw_vec (h : SerLaw d wire enc lo wr cells) :
    SerLaw (vecDict d) 2 (fun v => v.flatMap (fun x => framed wire (enc x)))
      (fun v => (v.flatMap (fun x => framed wire (enc x))).isEmpty) (fun v => ∀ x ∈ v, wr x)
      (fun v => cellNode none (v.map cells)) :=
  SerLaw.ofBySize rfl rfl (fun _ => rfl)
    (fun m l v σ K hw hlen ha =>
      (sound_sizeItems h m l σ v 0 0 K hw (by omega) ha.kids).weaken
        (fun K' n _ hq => ⟨by rw [hq.1]; omega, hq.2.below⟩))
    (fun m l v σ K hw hlen ha hc => sound_serializeItems h m l σ v 0 K hw hlen ha.kids hc.kids)

theorem serLaw_array (n : Nat) (h : SerLaw d wire enc lo wr cells) :
    SerLaw (arrayDict n d) 2 (fun v => v.1.flatMap (fun x => framed wire (enc x)))
      (fun v => (v.1.flatMap (fun x => framed wire (enc x))).isEmpty) (fun v => ∀ x ∈ v.1, wr x)
      (fun v => cellNode none (v.1.map cells)) :=
  SerLaw.ofBySize rfl rfl (fun _ => rfl)
    (fun m l v σ K hw hlen ha =>
      (sound_sizeItems h m l σ v.1 0 0 K hw (by omega) ha.kids).weaken
        (fun K' n _ hq => ⟨by rw [hq.1]; omega, hq.2.below⟩))
    (fun m l v σ K hw hlen ha hc => sound_serializeItems h m l σ v.1 0 K hw hlen ha.kids hc.kids)

theorem serLaw_list (h : SerLaw d wire enc lo wr cells) :
    SerLaw (listDict d) 2 (fun v => v.items.flatMap (fun x => framed wire (enc x)))
      (fun v => (v.items.flatMap (fun x => framed wire (enc x))).isEmpty) (fun v => ∀ x ∈ v.items, wr x)
      (fun v => cellNode (some (v.items.flatMap (fun x => framed wire (enc x))).length) (v.items.map cells)) :=
  SerLaw.ofBySize rfl rfl (fun _ => rfl)
    (fun m l v σ K hw hlen ha =>
      (sound_sizeItems h m l σ v.items 0 0 K hw (by omega) ha.kids).weaken
        (fun K' n _ hq => ⟨by rw [hq.1]; omega, hq.2.below⟩))
    (fun m l v σ K hw hlen ha hc => sound_serializeItems h m l σ v.items 0 K hw hlen ha.kids hc.kids)

theorem serLaw_option (h : SerLaw d wire enc lo wr cells) :
    SerLaw (optionDict d) 2 (fun v => v.toList.flatMap (fun x => framed wire (enc x)))
      (fun v => (v.toList.flatMap (fun x => framed wire (enc x))).isEmpty) (fun v => ∀ x ∈ v, wr x)
      (fun v => cellNode none (v.toList.map cells)) :=
  SerLaw.ofBySize rfl rfl (fun _ => rfl)
    (fun m l v σ K hw hlen ha => by
      cases v with
      | none => exact Sound.pure ⟨rfl, fun rel h0 hs => by cases rel <;> simp [cellNode] at h0 hs⟩
      | some x =>
        simp only [Option.toList_some, List.flatMap_cons, List.flatMap_nil, List.append_nil] at hlen ⊢
        refine (h.sizeNested m (l ++ [0]) x σ K none false (hw x rfl) (by simp) hlen ha.kids.1).unwrap.weaken ?_
        rintro K' n _ ⟨rfl, hc⟩
        exact ⟨rfl, KidsCover.below ⟨hc, trivial⟩⟩)
    (fun m l v σ K hw hlen ha hc => by
      cases v with
      | none => exact Sound.pure rfl
      | some x =>
        simp only [Option.toList_some, List.flatMap_cons, List.flatMap_nil, List.append_nil] at hlen ⊢
        exact h.serNested m (l ++ [0]) x σ K none false (hw x rfl) (by simp) hlen ha.kids.1 hc.kids.1)

theorem serLaw_box (h : SerLaw d wire enc lo wr cells) :
    SerLaw (boxDict d) wire enc (fun v => (enc v).isEmpty) wr cells :=
  SerLaw.ofBySize rfl h.wire_eq h.own h.size h.ser

/-! ### Maps -/

theorem sound_sizeMapEntries (h : SerLaw d wire enc lo wr cells) (m : Mode) (l : Loc) (σ : CellMap) :
    ∀ (es : List (U32 × α)) (i acc : Nat) (K : Loc → Prop), (∀ e ∈ es, e.1.toNat < 2 ^ 29 ∧ wr e.2) →
      acc + (es.flatMap (fun e => leb (e.1.toNat * 8 + wire) ++ framed wire (enc e.2))).length < 2 ^ 32 →
      KidsAgree σ l i (es.map (fun e => cells e.2)) →
      Sound σ K (sizeMapEntries d m l i acc es)
        (fun K' n => n = acc + (es.flatMap (fun e => leb (e.1.toNat * 8 + wire) ++ framed wire (enc e.2))).length ∧
          KidsCover K' l i (es.map (fun e => cells e.2))) := by
  intro es
  induction es with
  | nil => intro i acc K _ _ _; exact Sound.pure ⟨by simp, trivial⟩
  | cons e es ih =>
    intro i acc K hw hlen ha
    obtain ⟨k, x⟩ := e
    have hns : nestedSpec wire (some k) false (lo x) (enc x) = leb (k.toNat * 8 + wire) ++ framed wire (enc x) := by
      simp [nestedSpec]
    simp only [List.flatMap_cons, List.length_append] at hlen ⊢
    unfold sizeMapEntries
    refine Sound.bind (h.sizeNested m (l ++ [i]) x σ K (some k) false (hw (k, x) (by simp)).2
      (by intro n hn; cases hn; exact (hw (k, x) (by simp)).1)
      (by rw [hns, List.length_append]; omega) ha.1).unwrap ?_
    rintro K1 n _ ⟨rfl, hc⟩
    rw [hns, List.length_append]
    refine Sound.bind (Q := fun K' n => n = acc + ((leb (k.toNat * 8 + wire)).length + (framed wire (enc x)).length) ∧
      Covers K' (l ++ [i]) (cells x)) (Sound.addU32 (by omega) ⟨rfl, hc⟩) ?_
    rintro K2 n _ ⟨rfl, hc⟩
    refine (ih (i + 1) _ K2 (fun y hy => hw y (by simp [hy])) (by omega) ha.2).weaken ?_
    rintro K3 n hK ⟨rfl, hk⟩
    exact ⟨by omega, hc.mono hK, hk⟩

theorem sound_serializeMapEntries (h : SerLaw d wire enc lo wr cells) (m : Mode) (l : Loc) (σ : CellMap) :
    ∀ (es : List (U32 × α)) (i : Nat) (K : Loc → Prop), (∀ e ∈ es, e.1.toNat < 2 ^ 29 ∧ wr e.2) →
      (es.flatMap (fun e => leb (e.1.toNat * 8 + wire) ++ framed wire (enc e.2))).length < 2 ^ 32 →
      KidsAgree σ l i (es.map (fun e => cells e.2)) → KidsCover K l i (es.map (fun e => cells e.2)) →
      Sound σ K (serializeMapEntries d m l i es)
        (fun _ bs => bs = es.flatMap (fun e => leb (e.1.toNat * 8 + wire) ++ framed wire (enc e.2))) := by
  intro es
  induction es with
  | nil => intro i K _ _ _ _; exact Sound.pure rfl
  | cons e es ih =>
    intro i K hw hlen ha hc
    obtain ⟨k, x⟩ := e
    have hns : nestedSpec wire (some k) false (lo x) (enc x) = leb (k.toNat * 8 + wire) ++ framed wire (enc x) := by
      simp [nestedSpec]
    simp only [List.flatMap_cons, List.length_append] at hlen ⊢
    unfold serializeMapEntries
    refine Sound.bind (h.serNested m (l ++ [i]) x σ K (some k) false (hw (k, x) (by simp)).2
      (by intro n hn; cases hn; exact (hw (k, x) (by simp)).1)
      (by rw [hns, List.length_append]; omega) ha.1 hc.1) ?_
    rintro K1 bs hK rfl
    rw [hns]
    refine Sound.bind (ih (i + 1) K1 (fun y hy => hw y (by simp [hy])) (by omega) ha.2 (KidsCover.mono hc.2 hK)) ?_
    rintro K2 bs' _ rfl
    exact Sound.pure rfl

theorem serLaw_map (kt : KeyTy) (h : SerLaw d wire enc lo wr cells) :
    SerLaw (mapDict kt d) 2
      (fun v => v.entries.flatMap (fun e => leb (e.1.toNat * 8 + wire) ++ framed wire (enc e.2)))
      (fun v => (v.entries.flatMap (fun e => leb (e.1.toNat * 8 + wire) ++ framed wire (enc e.2))).isEmpty)
      (fun v => ∀ e ∈ v.entries, e.1.toNat < 2 ^ 29 ∧ wr e.2)
      (fun v => cellNode
        (some (v.entries.flatMap (fun e => leb (e.1.toNat * 8 + wire) ++ framed wire (enc e.2))).length)
        (v.entries.map (fun e => cells e.2))) :=
  SerLaw.ofBySize rfl rfl (fun _ => rfl)
    (fun m l v σ K hw hlen ha =>
      (sound_sizeMapEntries h m l σ v.entries 0 0 K hw (by omega) ha.kids).weaken
        (fun K' n _ hq => ⟨by rw [hq.1]; omega, hq.2.below⟩))
    (fun m l v σ K hw hlen ha hc => sound_serializeMapEntries h m l σ v.entries 0 K hw hlen ha.kids hc.kids)

end items

/-! ### Hash maps -/

section hashMap
variable {κ ν : Type} {dk : Dict κ} {dv : Dict ν} {wk wv : Nat} {ek : κ → Bytes} {ev : ν → Bytes} {lk : κ → Bool}
  {lv : ν → Bool} {pk : κ → Prop} {pv : ν → Prop} {ck : κ → CellMap} {cv : ν → CellMap}

/-- Cells of the keys and values in order. -/
def entryCells (ck : κ → CellMap) (cv : ν → CellMap) : List (κ × ν) → List CellMap
  | [] => []
  | e :: es => ck e.1 :: cv e.2 :: entryCells ck cv es

theorem sound_sizeEntries (hk : SerLaw dk wk ek lk pk ck) (hv : SerLaw dv wv ev lv pv cv) (m : Mode) (l : Loc)
    (σ : CellMap) :
    ∀ (es : List (κ × ν)) (i acc : Nat) (K : Loc → Prop), (∀ e ∈ es, pk e.1 ∧ pv e.2) →
      acc + (es.flatMap (fun e => framed wk (ek e.1) ++ framed wv (ev e.2))).length < 2 ^ 32 →
      KidsAgree σ l (2 * i) (entryCells ck cv es) →
      Sound σ K (sizeEntries dk dv m l i acc es)
        (fun K' n => n = acc + (es.flatMap (fun e => framed wk (ek e.1) ++ framed wv (ev e.2))).length ∧
          KidsCover K' l (2 * i) (entryCells ck cv es)) := by
  intro es
  induction es with
  | nil => intro i acc K _ _ _; exact Sound.pure ⟨by simp, trivial⟩
  | cons e es ih =>
    intro i acc K hw hlen ha
    obtain ⟨k, x⟩ := e
    simp only [List.flatMap_cons, List.length_append] at hlen ⊢
    unfold sizeEntries
    refine Sound.bind (hk.sizeNested m (l ++ [2 * i]) k σ K none false (hw (k, x) (by simp)).1 (by simp)
      (by simp only [nestedSpec]; omega) ha.1).unwrap ?_
    rintro K1 n _ ⟨rfl, hc⟩
    refine Sound.bind (Q := fun K' n => n = acc + (framed wk (ek k)).length ∧ Covers K' (l ++ [2 * i]) (ck k))
      (Sound.addU32 (by simp only [nestedSpec]; omega) ⟨rfl, hc⟩) ?_
    rintro K2 n _ ⟨rfl, hc⟩
    refine Sound.bind (hv.sizeNested m (l ++ [2 * i + 1]) x σ K2 none false (hw (k, x) (by simp)).2 (by simp)
      (by simp only [nestedSpec]; omega) ha.2.1).unwrap ?_
    rintro K3 n hK3 ⟨rfl, hc'⟩
    refine Sound.bind (Q := fun K' n => n = acc + (framed wk (ek k)).length + (framed wv (ev x)).length ∧
      Covers K' (l ++ [2 * i]) (ck k) ∧ Covers K' (l ++ [2 * i + 1]) (cv x))
      (Sound.addU32 (by simp only [nestedSpec]; omega) ⟨rfl, hc.mono hK3, hc'⟩) ?_
    rintro K4 n _ ⟨rfl, hc, hc'⟩
    refine (ih (i + 1) _ K4 (fun y hy => hw y (by simp [hy])) (by omega) ha.2.2).weaken ?_
    rintro K5 n hK ⟨rfl, hkc⟩
    exact ⟨by omega, hc.mono hK, hc'.mono hK, hkc⟩

theorem sound_serializeEntries (hk : SerLaw dk wk ek lk pk ck) (hv : SerLaw dv wv ev lv pv cv) (m : Mode) (l : Loc)
    (σ : CellMap) :
    ∀ (es : List (κ × ν)) (i : Nat) (K : Loc → Prop), (∀ e ∈ es, pk e.1 ∧ pv e.2) →
      (es.flatMap (fun e => framed wk (ek e.1) ++ framed wv (ev e.2))).length < 2 ^ 32 →
      KidsAgree σ l (2 * i) (entryCells ck cv es) → KidsCover K l (2 * i) (entryCells ck cv es) →
      Sound σ K (serializeEntries dk dv m l i es)
        (fun _ bs => bs = es.flatMap (fun e => framed wk (ek e.1) ++ framed wv (ev e.2))) := by
  intro es
  induction es with
  | nil => intro i K _ _ _ _; exact Sound.pure rfl
  | cons e es ih =>
    intro i K hw hlen ha hc
    obtain ⟨k, x⟩ := e
    simp only [List.flatMap_cons, List.length_append] at hlen ⊢
    unfold serializeEntries
    refine Sound.bind (hk.serNested m (l ++ [2 * i]) k σ K none false (hw (k, x) (by simp)).1 (by simp)
      (by simp only [nestedSpec]; omega) ha.1 hc.1) ?_
    rintro K1 bs hK rfl
    refine Sound.bind (hv.serNested m (l ++ [2 * i + 1]) x σ K1 none false (hw (k, x) (by simp)).2 (by simp)
      (by simp only [nestedSpec]; omega) ha.2.1 (hc.2.1.mono hK)) ?_
    rintro K2 bs hK' rfl
    refine Sound.bind (ih (i + 1) K2 (fun y hy => hw y (by simp [hy])) (by omega) ha.2.2
      (KidsCover.mono hc.2.2 (fun x hx => hK' x (hK x hx)))) ?_
    rintro K3 bs' _ rfl
    exact Sound.pure (by simp [nestedSpec])

theorem serLaw_hashMap (eq : κ → κ → Bool) (hk : SerLaw dk wk ek lk pk ck) (hv : SerLaw dv wv ev lv pv cv) :
    SerLaw (hashMapDict eq dk dv) 2 (fun v => v.flatMap (fun e => framed wk (ek e.1) ++ framed wv (ev e.2)))
      (fun v => (v.flatMap (fun e => framed wk (ek e.1) ++ framed wv (ev e.2))).isEmpty)
      (fun v => ∀ e ∈ v, pk e.1 ∧ pv e.2) (fun v => cellNode none (entryCells ck cv v)) :=
  SerLaw.ofBySize rfl rfl (fun _ => rfl)
    (fun m l v σ K hw hlen ha =>
      (sound_sizeEntries hk hv m l σ v 0 0 K hw (by omega) ha.kids).weaken
        (fun K' n _ hq => ⟨by rw [hq.1]; omega, KidsCover.below hq.2⟩))
    (fun m l v σ K hw hlen ha hc => sound_serializeEntries hk hv m l σ v 0 K hw hlen ha.kids hc.kids)

end hashMap

/-! ### Tuples -/

/-- Law of the components of a tuple. -/
structure TupleLaw {α : Type} (t : TupleD α) (enc : α → Bytes) (wr : α → Prop) (kids : α → List CellMap) : Prop where
  size : ∀ m l i acc v σ K, wr v → acc + (enc v).length < 2 ^ 32 → KidsAgree σ l i (kids v) →
    Sound σ K (t.sizes m l i acc v) (fun K' n => n = acc + (enc v).length ∧ KidsCover K' l i (kids v))
  ser : ∀ m l i v σ K, wr v → (enc v).length < 2 ^ 32 → KidsAgree σ l i (kids v) → KidsCover K l i (kids v) →
    Sound σ K (t.serialize m l i v) (fun _ bs => bs = enc v)

theorem tupleLaw_nil : TupleLaw tupleNil (fun _ => []) (fun _ => True) (fun _ => []) where
  size := fun _ _ _ _ _ _ _ _ _ _ => Sound.pure ⟨by simp, trivial⟩
  ser := fun _ _ _ _ _ _ _ _ _ _ => Sound.pure rfl

theorem tupleLaw_cons {α β : Type} {d : Dict α} {t : TupleD β} {wire : Nat} {enc : α → Bytes} {lo : α → Bool}
    {wr : α → Prop} {cells : α → CellMap} {enc' : β → Bytes} {wr' : β → Prop} {kids : β → List CellMap}
    (h : SerLaw d wire enc lo wr cells) (h' : TupleLaw t enc' wr' kids) :
    TupleLaw (tupleCons d t) (fun v => framed wire (enc v.1) ++ enc' v.2) (fun v => wr v.1 ∧ wr' v.2)
      (fun v => cells v.1 :: kids v.2) where
  size := by
    intro m l i acc v σ K hw hlen ha
    obtain ⟨x, y⟩ := v
    simp only [List.length_append] at hlen ⊢
    refine Sound.bind (h.sizeNested m (l ++ [i]) x σ K none false hw.1 (by simp)
      (by simp only [nestedSpec]; omega) ha.1).unwrap ?_
    rintro K1 n _ ⟨rfl, hc⟩
    refine Sound.bind (Q := fun K' n => n = acc + (framed wire (enc x)).length ∧ Covers K' (l ++ [i]) (cells x))
      (Sound.addU32 (by simp only [nestedSpec]; omega) ⟨rfl, hc⟩) ?_
    rintro K2 n _ ⟨rfl, hc⟩
    refine (h'.size m l (i + 1) _ y σ K2 hw.2 (by omega) ha.2).weaken ?_
    rintro K3 n hK ⟨rfl, hk⟩
    exact ⟨by omega, hc.mono hK, hk⟩
  ser := by
    intro m l i v σ K hw hlen ha hc
    obtain ⟨x, y⟩ := v
    simp only [List.length_append] at hlen ⊢
    refine Sound.bind (h.serNested m (l ++ [i]) x σ K none false hw.1 (by simp)
      (by simp only [nestedSpec]; omega) ha.1 hc.1) ?_
    rintro K1 bs hK rfl
    refine Sound.bind (h'.ser m l (i + 1) y σ K1 hw.2 (by omega) ha.2 (KidsCover.mono hc.2 hK)) ?_
    rintro K2 bs' _ rfl
    exact Sound.pure rfl

theorem serLaw_tuple {α : Type} {t : TupleD α} {enc : α → Bytes} {wr : α → Prop} {kids : α → List CellMap}
    (h : TupleLaw t enc wr kids) :
    SerLaw (tupleDict t) 2 enc (fun v => (enc v).isEmpty) wr (fun v => cellNode none (kids v)) :=
  SerLaw.ofBySize rfl rfl (fun _ => rfl)
    (fun m l v σ K hw hlen ha =>
      (h.size m l 0 0 v σ K hw (by omega) ha.kids).weaken (fun K' n _ hq => ⟨by rw [hq.1]; omega, hq.2.below⟩))
    (fun m l v σ K hw hlen ha hc => h.ser m l 0 v σ K hw hlen ha.kids hc.kids)

/-! ### Structs and enums -/

/-- Law of the fields of a struct or variant. -/
structure FieldsLaw {β : Type} (fs : FieldsD β) (enc : β → Bytes) (wr : β → Prop) (kids : β → List CellMap) : Prop where
  size : ∀ m l i acc v σ K, wr v → acc + (enc v).length < 2 ^ 32 → KidsAgree σ l i (kids v) →
    Sound σ K (fs.sizes m l i acc v) (fun K' n => n = acc + (enc v).length ∧ KidsCover K' l i (kids v))
  ser : ∀ m l i v σ K, wr v → (enc v).length < 2 ^ 32 → KidsAgree σ l i (kids v) → KidsCover K l i (kids v) →
    Sound σ K (fs.serialize m l i v) (fun _ bs => bs = enc v)

theorem fieldsLaw_nil : FieldsLaw fieldsNil (fun _ => []) (fun _ => True) (fun _ => []) where
  size := fun _ _ _ _ _ _ _ _ _ _ => Sound.pure ⟨by simp, trivial⟩
  ser := fun _ _ _ _ _ _ _ _ _ _ => Sound.pure rfl

theorem fieldsLaw_cons {α β : Type} {d : Dict α} {fs : FieldsD β} {wire : Nat} {enc : α → Bytes} {lo : α → Bool}
    {wr : α → Prop} {cells : α → CellMap} {enc' : β → Bytes} {wr' : β → Prop} {kids : β → List CellMap}
    (deriveState : Bool) (tag : U32) (attrs : FieldAttrs) (htag : tag.toNat < 2 ^ 29)
    (h : SerLaw d wire enc lo wr cells) (h' : FieldsLaw fs enc' wr' kids) :
    FieldsLaw (fieldsCons deriveState tag attrs d fs)
      (fun v => (if lo v.1 then [] else leb (tag.toNat * 8 + wire) ++ framed wire (enc v.1)) ++ enc' v.2)
      (fun v => wr v.1 ∧ wr' v.2) (fun v => cells v.1 :: kids v.2) where
  size := by
    intro m l i acc v σ K hw hlen ha
    obtain ⟨x, y⟩ := v
    have hns : nestedSpec wire (some tag) true (lo x) (enc x) =
        if lo x then [] else leb (tag.toNat * 8 + wire) ++ framed wire (enc x) := by simp [nestedSpec]
    simp only [List.length_append] at hlen ⊢
    rw [← hns] at hlen ⊢
    refine Sound.bind (h.sizeNested m (l ++ [i]) x σ K (some tag) true hw.1
      (by intro n hn; cases hn; exact htag) (by omega) ha.1).unwrap ?_
    rintro K1 n _ ⟨rfl, hc⟩
    refine Sound.bind (Q := fun K' n => n = acc + (nestedSpec wire (some tag) true (lo x) (enc x)).length ∧
      Covers K' (l ++ [i]) (cells x)) (Sound.addU32 (by omega) ⟨rfl, hc⟩) ?_
    rintro K2 n _ ⟨rfl, hc⟩
    refine (h'.size m l (i + 1) _ y σ K2 hw.2 (by omega) ha.2).weaken ?_
    rintro K3 n hK ⟨rfl, hk⟩
    exact ⟨by omega, hc.mono hK, hk⟩
  ser := by
    intro m l i v σ K hw hlen ha hc
    obtain ⟨x, y⟩ := v
    have hns : nestedSpec wire (some tag) true (lo x) (enc x) =
        if lo x then [] else leb (tag.toNat * 8 + wire) ++ framed wire (enc x) := by simp [nestedSpec]
    simp only [List.length_append] at hlen ⊢
    rw [← hns] at hlen ⊢
    refine Sound.bind (h.serNested m (l ++ [i]) x σ K (some tag) true hw.1
      (by intro n hn; cases hn; exact htag) (by omega) ha.1 hc.1) ?_
    rintro K1 bs hK rfl
    refine Sound.bind (h'.ser m l (i + 1) y σ K1 hw.2 (by omega) ha.2 (KidsCover.mono hc.2 hK)) ?_
    rintro K2 bs' _ rfl
    exact Sound.pure rfl

theorem serLaw_struct {β : Type} {fs : FieldsD β} {enc : β → Bytes} {wr : β → Prop} {kids : β → List CellMap}
    (deriveState cached : Bool) (h : FieldsLaw fs enc wr kids) :
    SerLaw (structDict deriveState cached fs) 2 (fun v => enc v.fields) (fun v => (enc v.fields).isEmpty)
      (fun v => wr v.fields)
      (fun v => cellNode (if cached then some (enc v.fields).length else none) (kids v.fields)) := by
  cases deriveState
  all_goals
  · refine SerLaw.ofBySize rfl rfl (fun _ => rfl) ?_ ?_
    · intro m l v σ K hw hlen ha
      exact (h.size m l 0 0 v.fields σ K hw (by omega) ha.kids).weaken
        (fun K' n _ hq => ⟨by rw [hq.1]; omega, hq.2.below⟩)
    · intro m l v σ K hw hlen ha hc
      exact h.ser m l 0 v.fields σ K hw hlen ha.kids hc.kids

/-- Law of the variants of an enum; `enc` includes the variant tag. -/
structure VariantsLaw {γ : Type} (vs : VariantsD γ) (enc : γ → Bytes) (wr : γ → Prop) (kids : γ → List CellMap) :
    Prop where
  size : ∀ m l v σ K, wr v → (enc v).length < 2 ^ 32 → KidsAgree σ l 0 (kids v) →
    Sound σ K (vs.sizes m l (u32Size (vs.tagOf v)) v)
      (fun K' n => n = (enc v).length ∧ KidsCover K' l 0 (kids v))
  ser : ∀ m l v σ K, wr v → (enc v).length < 2 ^ 32 → KidsAgree σ l 0 (kids v) → KidsCover K l 0 (kids v) →
    Sound σ K (vs.serialize m l v) (fun _ bs => putVarint (vs.tagOf v) ++ bs = enc v)

theorem variantsLaw_nil : VariantsLaw variantsNil (fun v => nomatch v) (fun _ => True) (fun _ => []) where
  size := fun _ _ v => nomatch v
  ser := fun _ _ v => nomatch v

theorem variantsLaw_cons {β γ : Type} {fs : FieldsD β} {vs : VariantsD γ} {encF : β → Bytes} {wrF : β → Prop}
    {kidsF : β → List CellMap} {encV : γ → Bytes} {wrV : γ → Prop} {kidsV : γ → List CellMap}
    (tag : U32) (cached : Bool) (hf : FieldsLaw fs encF wrF kidsF) (hv : VariantsLaw vs encV wrV kidsV) :
    VariantsLaw (variantsCons tag cached fs vs)
      (Sum.elim (fun x => leb tag.toNat ++ encF x) encV) (Sum.elim wrF wrV) (Sum.elim kidsF kidsV) where
  size := by
    intro m l v σ K hw hlen ha
    cases v with
    | inl x =>
      simp only [Sum.elim_inl, List.length_append] at hlen hw ha ⊢
      show Sound σ K (fs.sizes m l 0 (u32Size tag) x) _
      rw [u32Size_eq]
      exact hf.size m l 0 _ x σ K hw hlen ha
    | inr x => exact hv.size m l x σ K hw hlen ha
  ser := by
    intro m l v σ K hw hlen ha hc
    cases v with
    | inl x =>
      simp only [Sum.elim_inl, List.length_append] at hlen hw ha hc ⊢
      refine (hf.ser m l 0 x σ K hw (by omega) ha hc).weaken ?_
      rintro K' bs _ rfl
      show putVarint tag ++ _ = _
      rw [putVarint_eq_leb (by decide)]
    | inr x => exact hv.ser m l x σ K hw hlen ha hc

theorem serLaw_enum {γ : Type} {vs : VariantsD γ} {enc : γ → Bytes} {wr : γ → Prop} {kids : γ → List CellMap}
    (deriveState : Bool) (dfltVal : Option Rt → γ) (h : VariantsLaw vs enc wr kids) :
    SerLaw (enumDict deriveState vs dfltVal) 2 (fun v => enc v.val) (fun v => (enc v.val).isEmpty)
      (fun v => wr v.val)
      (fun v => cellNode (if vs.hasCache v.val then some (enc v.val).length else none) (kids v.val)) := by
  have hu : ∀ t : U32, 0 + u32Size t < 2 ^ 32 := by
    intro t; rw [u32Size_eq, Nat.zero_add]; exact leb_length_small _ 32 t.isLt (by decide)
  cases deriveState
  all_goals
  · refine SerLaw.ofBySize rfl rfl (fun _ => rfl) ?_ ?_
    · intro m l v σ K hw hlen ha
      refine Sound.bind (Q := fun _ n => n = u32Size (vs.tagOf v.val))
        (Sound.addU32 (hu _) (Nat.zero_add _)) ?_
      rintro K' n _ rfl
      exact (h.size m l v.val σ K' hw hlen ha.kids).weaken (fun K' n _ hq => ⟨hq.1, hq.2.below⟩)
    · intro m l v σ K hw hlen ha hc
      refine Sound.bind (h.ser m l v.val σ K hw hlen ha.kids hc.kids) ?_
      rintro K' bs _ hb
      exact Sound.pure hb

end Steit
