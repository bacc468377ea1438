import Verif.Lemmas.SerTy
import Verif.Spec.Limit

/-! # Serialization in release builds, of values of any size -/

namespace Steit
open Spec Prog

/-- What a `Serialize` implementation does in release builds: it computes the size of `enc v` modulo 2^32, and writes `enc v`. As
`SerLaw`, but for values of any size. -/
structure WrapLaw {α : Type} (d : Dict α) (wire : Nat) (enc : α → Bytes) (lo : α → Bool) (wr : α → Prop)
    (cells : α → CellMap) : Prop where
  wire_eq : d.wire.num = wire
  own : ∀ v, cells v [] = if d.hasCache v then some ((enc v).length % 2 ^ 32) else none
  size : ∀ l v σ K, wr v → Agrees σ l (cells v) →
    Sound σ K (d.computeSize .release l v) (fun K' n => n = (enc v).length % 2 ^ 32 ∧ CoversBelow K' l (cells v))
  ser : ∀ l v σ K, wr v → Agrees σ l (cells v) → CoversBelow K l (cells v) →
    Sound σ K (d.serializeCached .release l v) (fun _ bs => bs = enc v)
  omit_some : ∀ l v σ K, Sound σ K (d.isOmissible .release l v (some ((enc v).length % 2 ^ 32))) (fun _ b => b = lo v)
  omit_none : ∀ l v σ K, wr v → Agrees σ l (cells v) → Covers K l (cells v) →
    Sound σ K (d.isOmissible .release l v none) (fun _ b => b = lo v)

theorem _root_.Steit.Prog.Sound.addWrap {σ : CellMap} {K : Loc → Prop} {a b n : Nat} {Q : (Loc → Prop) → Nat → Prop}
    (hn : (a + b) % 2 ^ 32 = n) (h : Q K n) : Sound σ K (addU32 .release a b) Q := by
  unfold Prog.addU32
  split
  · next hlt => rw [Nat.mod_eq_of_lt hlt] at hn; rw [hn]; exact h
  · show Q K ((a + b) % 2 ^ 32)
    rw [hn]; exact h

theorem size_eq_leb32 (n : Nat) : u32Size (BitVec.ofNat 32 n) = (leb (n % 2 ^ 32)).length := by
  rw [u32Size_eq, BitVec.toNat_ofNat]

theorem put_eq_leb32 (n : Nat) : putVarint (BitVec.ofNat 32 n) = leb (n % 2 ^ 32) := by
  rw [putVarint_eq_leb (by decide), BitVec.toNat_ofNat]

section
variable {α : Type} {d : Dict α} {wire : Nat} {enc : α → Bytes} {lo : α → Bool} {wr : α → Prop} {cells : α → CellMap}

theorem WrapLaw.cacheSize (h : WrapLaw d wire enc lo wr cells) (l : Loc) (v : α) (σ : CellMap)
    (K : Loc → Prop) (hw : wr v) (ha : Agrees σ l (cells v)) :
    Sound σ K (d.cacheSize .release l v) (fun K' n => n = (enc v).length % 2 ^ 32 ∧ Covers K' l (cells v)) := by
  unfold SerD.cacheSize
  refine Sound.bind (h.size l v σ K hw ha) ?_
  rintro K' n _ ⟨rfl, hc⟩
  have ho := h.own v
  split
  · next hh =>
    rw [if_pos hh] at ho
    refine ⟨ha.own.trans ho, rfl, ?_⟩
    intro rel hs
    by_cases hr : rel = []
    · subst hr; right; simp
    · exact Or.inl (hc rel hr hs)
  · next hh =>
    rw [if_neg hh] at ho
    refine ⟨rfl, ?_⟩
    intro rel hs
    by_cases hr : rel = []
    · subst hr; rw [ho] at hs; cases hs
    · exact hc rel hr hs

theorem WrapLaw.cachedSize (h : WrapLaw d wire enc lo wr cells) (l : Loc) (v : α) (σ : CellMap)
    (K : Loc → Prop) (hw : wr v) (ha : Agrees σ l (cells v)) (hc : Covers K l (cells v)) :
    Sound σ K (d.cachedSize .release l v) (fun _ n => n = (enc v).length % 2 ^ 32) := by
  unfold SerD.cachedSize
  have ho := h.own v
  split
  · next hh =>
    rw [if_pos hh] at ho
    refine ⟨by simpa using hc [] (by rw [ho]; rfl), _, ha.own.trans ho, rfl⟩
  · exact (h.size l v σ K hw ha).weaken (fun _ _ _ hq => hq.1)

/-- Bytes of a nested value or field. -/
def nested32 (wire : Nat) (fieldNumber : Option U32) (omissible lo : Bool) (payload : Bytes) : Bytes :=
  match fieldNumber with
  | none => framed32 wire payload
  | some n => if omissible && lo then [] else leb (n.toNat * 8 + wire) ++ framed32 wire payload

theorem WrapLaw.sizeNested (h : WrapLaw d wire enc lo wr cells) (l : Loc) (v : α) (σ : CellMap)
    (K : Loc → Prop) (fn : Option U32) (om : Bool) (hw : wr v)
    (hfn : ∀ n ∈ fn, n.toNat < 2 ^ 29) (ha : Agrees σ l (cells v)) :
    Sound σ K (d.computeSizeNested .release l v fn om)
      (fun K' n => n = (nested32 wire fn om (lo v) (enc v)).length % 2 ^ 32 ∧ Covers K' l (cells v)) := by
  have hwire := h.wire_eq
  unfold Dict.computeSizeNested
  refine Sound.bind (h.cacheSize l v σ K hw ha) ?_
  rintro K1 n1 _ ⟨rfl, hcov⟩
  refine Sound.bind (Q := fun K' b => b = (fn.isSome && om && lo v) ∧ Covers K' l (cells v)) ?_ ?_
  · split
    · next hc =>
      simp only [Bool.and_eq_true] at hc
      refine (h.omit_some l v σ K1).weaken (fun K' b hK hb => ⟨?_, hcov.mono hK⟩)
      rw [hb, hc.1, hc.2]; simp
    · next hc =>
      simp only [Bool.not_eq_true] at hc
      exact Sound.pure ⟨by rw [hc]; rfl, hcov⟩
  rintro K2 b _ ⟨rfl, hcov⟩
  split
  · next hc =>
    refine Sound.pure ⟨?_, hcov⟩
    simp only [Bool.and_eq_true] at hc
    cases fn with
    | none => simp at hc
    | some n => simp [nested32, hc.1.2, hc.2]
  · next hc =>
    have hframe : nested32 wire fn om (lo v) (enc v) =
        keyBytes wire fn ++ framed32 wire (enc v) := by
      cases fn with
      | none => rfl
      | some n => simp only [nested32, keyBytes]; rw [if_neg]; simpa using hc
    rw [hframe]
    refine Sound.bind (Q := fun K' n => n = (framed32 wire (enc v)).length % 2 ^ 32 ∧ Covers K' l (cells v)) ?_ ?_
    · cases hwt : d.wire with
      | varint =>
        rw [hwt] at hwire
        refine Sound.pure ⟨?_, hcov⟩
        simp [framed32, ← hwire, WireType.num]
      | sized =>
        rw [hwt] at hwire
        have : framed32 wire (enc v) = leb ((enc v).length % 2 ^ 32) ++ enc v := by
          unfold framed32; rw [if_neg]; rw [← hwire]; decide
        rw [this, List.length_append]
        simp only
        rw [size_eq_leb32, Nat.mod_mod]
        exact Sound.addWrap rfl ⟨by omega, hcov⟩
    · rintro K3 n3 _ ⟨rfl, hcov⟩
      cases fn with
      | none => exact Sound.pure ⟨by simp [keyBytes], hcov⟩
      | some n =>
        obtain ⟨t, ht, htn⟩ := mkTag_ok n d.wire (hfn n rfl)
        simp only [ht, hwire] at htn ⊢
        show Sound σ K3 (Prog.addU32 .release ((framed32 wire (enc v)).length % 2 ^ 32) (u32Size t)) _
        rw [u32Size_eq, htn]
        refine Sound.addWrap rfl ⟨?_, hcov⟩
        simp only [List.length_append, keyBytes]; omega

theorem WrapLaw.serNested (h : WrapLaw d wire enc lo wr cells) (l : Loc) (v : α) (σ : CellMap)
    (K : Loc → Prop) (fn : Option U32) (om : Bool) (hw : wr v)
    (hfn : ∀ n ∈ fn, n.toNat < 2 ^ 29) (ha : Agrees σ l (cells v)) (hcov : Covers K l (cells v)) :
    Sound σ K (d.serializeNested .release l v fn om) (fun _ bs => bs = nested32 wire fn om (lo v) (enc v)) := by
  have hwire := h.wire_eq
  unfold Dict.serializeNested
  refine Sound.bind (Q := fun K' b => b = (fn.isSome && om && lo v) ∧ Covers K' l (cells v)) ?_ ?_
  · split
    · next hc =>
      simp only [Bool.and_eq_true] at hc
      refine (h.omit_none l v σ K hw ha hcov).weaken (fun K' b hK hb => ⟨?_, hcov.mono hK⟩)
      rw [hb, hc.1, hc.2]; simp
    · next hc =>
      simp only [Bool.not_eq_true] at hc
      exact Sound.pure ⟨by rw [hc]; rfl, hcov⟩
  rintro K2 b _ ⟨rfl, hcov⟩
  split
  · next hc =>
    refine Sound.pure ?_
    simp only [Bool.and_eq_true] at hc
    cases fn with
    | none => simp at hc
    | some n => simp [nested32, hc.1.2, hc.2]
  · next hc =>
    have hframe : nested32 wire fn om (lo v) (enc v) =
        keyBytes wire fn ++ framed32 wire (enc v) := by
      cases fn with
      | none => rfl
      | some n => simp only [nested32, keyBytes]; rw [if_neg]; simpa using hc
    rw [hframe]
    refine Sound.bind (Q := fun K' bs => bs = keyBytes wire fn ∧
      Covers K' l (cells v)) ?_ ?_
    · cases fn with
      | none => exact Sound.pure ⟨rfl, hcov⟩
      | some n =>
        obtain ⟨t, ht, htn⟩ := mkTag_ok n d.wire (hfn n rfl)
        simp only [ht, hwire] at htn ⊢
        show Sound σ K2 (Prog.pure (putVarint t)) _
        refine ⟨?_, hcov⟩
        rw [putVarint_eq_leb (by decide), htn]; rfl
    · rintro K3 tagB _ ⟨rfl, hcov⟩
      refine Sound.bind (Q := fun K' bs => bs ++ enc v = framed32 wire (enc v) ∧ Covers K' l (cells v)) ?_ ?_
      · cases hwt : d.wire with
        | varint =>
          rw [hwt] at hwire
          refine Sound.pure ⟨?_, hcov⟩
          simp [framed32, ← hwire, WireType.num]
        | sized =>
          rw [hwt] at hwire
          have : framed32 wire (enc v) = leb ((enc v).length % 2 ^ 32) ++ enc v := by
            unfold framed32; rw [if_neg]; rw [← hwire]; decide
          rw [this]
          refine Sound.bind (h.cachedSize l v σ K3 hw ha hcov) ?_
          rintro K4 n4 hK rfl
          exact Sound.pure ⟨by rw [put_eq_leb32, Nat.mod_mod], hcov.mono hK⟩
      · rintro K5 pre _ ⟨hpre, hcov⟩
        refine Sound.bind (h.ser l v σ K5 hw ha hcov.below) ?_
        rintro K6 pay _ rfl
        refine Sound.pure ?_
        rw [List.append_assoc, hpre]

end

theorem WrapLaw.ofBySize {α : Type} {d : Dict α} {wire : Nat} {enc : α → Bytes} {wr : α → Prop} {cells : α → CellMap}
    (hom : d.isOmissible = d.toSerD.isOmissibleBySize) (hwire : d.wire.num = wire)
    (own : ∀ v, cells v [] = if d.hasCache v then some ((enc v).length % 2 ^ 32) else none)
    (size : ∀ l v σ K, wr v → Agrees σ l (cells v) →
      Sound σ K (d.computeSize .release l v) (fun K' n => n = (enc v).length % 2 ^ 32 ∧ CoversBelow K' l (cells v)))
    (ser : ∀ l v σ K, wr v → Agrees σ l (cells v) → CoversBelow K l (cells v) →
      Sound σ K (d.serializeCached .release l v) (fun _ bs => bs = enc v)) :
    WrapLaw d wire enc (fun v => (enc v).length % 2 ^ 32 == 0) wr cells where
  wire_eq := hwire
  own := own
  size := size
  ser := ser
  omit_some := by
    intro l v σ K
    rw [hom]
    refine Sound.pure ?_
    rfl
  omit_none := by
    intro l v σ K hw ha hc
    rw [hom]
    unfold SerD.isOmissibleBySize
    refine Sound.bind (Q := fun _ n => n = (enc v).length % 2 ^ 32) ?_ ?_
    · unfold SerD.cachedSize
      have ho := own v
      split
      · next hh =>
        rw [if_pos hh] at ho
        exact ⟨by simpa using hc [] (by rw [ho]; rfl), _, ha.own.trans ho, rfl⟩
      · exact (size l v σ K hw ha).weaken (fun _ _ _ hq => hq.1)
    · rintro K' n _ rfl
      refine Sound.pure ?_
      rfl

theorem wrapLaw_prim {α : Type} [DecidableEq α] (size : α → Nat) (put : α → Bytes)
    (get : Mode → Bytes → Except Err (α × Bytes)) (dflt : α) (enc : α → Bytes)
    (hput : ∀ v, put v = enc v) (hsize : ∀ v, size v = (enc v).length) (hsmall : ∀ v, (enc v).length < 2 ^ 32) :
    WrapLaw (primDict size put get dflt) 0 enc (fun v => decide (v = dflt)) (fun _ => True) (fun _ => noCells) where
  wire_eq := rfl
  own := fun _ => rfl
  size := fun l v σ K _ _ => Sound.pure ⟨by rw [Nat.mod_eq_of_lt (hsmall v)]; exact hsize v, fun rel _ h => by cases h⟩
  ser := fun l v σ K _ _ _ => Sound.pure (hput v)
  omit_some := fun l v σ K => Sound.pure rfl
  omit_none := fun l v σ K _ _ _ => Sound.pure rfl

theorem wrapLaw_uint (w : Width) :
    WrapLaw (uintDict w) 0 (fun v => leb v.toNat) (fun v => decide (v = 0#w.bits)) (fun _ => True) (fun _ => noCells) :=
  wrapLaw_prim _ _ _ _ _ (fun v => putVarint_eq_leb w.le_bits v)
    (fun v => by rw [uintSize_eq, putVarint_eq_leb w.le_bits])
    (fun v => leb_length_small _ _ v.isLt w.bits_le)

theorem wrapLaw_sint (w : Width) :
    WrapLaw (sintDict w) 0 (fun v => leb (zigzagNat v.toInt)) (fun v => decide (v = 0#w.bits)) (fun _ => True)
      (fun _ => noCells) := by
  have hw := w.le_bits
  have hp : ∀ v : BitVec w.bits, putSigned v = leb (zigzagNat v.toInt) := fun v => by
    unfold putSigned; rw [putVarint_eq_leb hw, zigzag_toNat (by omega)]
  refine wrapLaw_prim _ _ _ _ _ hp (fun v => ?_) (fun v => ?_)
  · unfold sintSize; rw [uintSize_eq, ← hp]; rfl
  · rw [← zigzag_toNat (by omega)]; exact leb_length_small _ _ (zigzag v).isLt w.bits_le

theorem wrapLaw_bool :
    WrapLaw boolDict 0 (fun v => leb v.toNat) (fun v => decide (v = false)) (fun _ => True) (fun _ => noCells) := by
  have : ∀ v : Bool, putBool v = leb v.toNat := by
    intro v; cases v <;> (unfold leb; decide)
  refine wrapLaw_prim _ _ _ _ _ this (fun v => ?_) (fun v => ?_)
  · rw [← this]; rfl
  · rw [← this]; show 1 < 2 ^ 32; decide

theorem wrapLaw_string :
    WrapLaw stringDict 2 (fun v => v.bytes) (fun v => v.bytes.isEmpty) (fun _ => True) (fun _ => noCells) where
  wire_eq := rfl
  own := fun _ => rfl
  size := fun l v σ K _ _ => Sound.pure ⟨rfl, fun rel _ h => by cases h⟩
  ser := fun l v σ K _ _ _ => Sound.pure rfl
  omit_some := fun l v σ K => Sound.pure rfl
  omit_none := fun l v σ K _ _ _ => Sound.pure rfl

theorem wrapLaw_bytes :
    WrapLaw bytesDict 2 (fun v => v) (fun v => v.length % 2 ^ 32 == 0) (fun _ => True) (fun _ => noCells) :=
  WrapLaw.ofBySize rfl rfl (fun _ => rfl)
    (fun l v σ K _ _ => Sound.pure ⟨rfl, fun rel _ h => by cases h⟩)
    (fun l v σ K _ _ _ => Sound.pure rfl)

/-! ### Sequences of items -/

section items
variable {α : Type} {d : Dict α} {wire : Nat} {enc : α → Bytes} {lo : α → Bool} {wr : α → Prop} {cells : α → CellMap}

theorem wrap_sizeItems (h : WrapLaw d wire enc lo wr cells) (l : Loc) (σ : CellMap) :
    ∀ (xs : List α) (i acc : Nat) (K : Loc → Prop), (∀ x ∈ xs, wr x) →
      acc < 2 ^ 32 → KidsAgree σ l i (xs.map cells) →
      Sound σ K (sizeItems d .release l i acc xs)
        (fun K' n => n = (acc + (xs.flatMap (fun x => framed32 wire (enc x))).length) % 2 ^ 32 ∧ KidsCover K' l i (xs.map cells)) := by
  intro xs
  induction xs with
  | nil => intro i acc K _ hacc _; exact Sound.pure ⟨by simp; omega, trivial⟩
  | cons x xs ih =>
    intro i acc K hw hacc ha
    simp only [List.flatMap_cons, List.length_append]
    unfold sizeItems
    refine Sound.bind (h.sizeNested (l ++ [i]) x σ K none false (hw x (by simp)) (by simp) ha.1).unwrap ?_
    rintro K1 n _ ⟨rfl, hc⟩
    refine Sound.bind (Q := fun K' n => n = (acc + (framed32 wire (enc x)).length) % 2 ^ 32 ∧ Covers K' (l ++ [i]) (cells x))
      (Sound.addWrap (by simp only [nested32]; omega) ⟨rfl, hc⟩) ?_
    rintro K2 n _ ⟨rfl, hc⟩
    refine (ih (i + 1) _ K2 (fun y hy => hw y (by simp [hy])) (by omega) ha.2).weaken ?_
    rintro K3 n hK ⟨rfl, hk⟩
    exact ⟨by omega, hc.mono hK, hk⟩

theorem wrap_serializeItems (h : WrapLaw d wire enc lo wr cells) (l : Loc) (σ : CellMap) :
    ∀ (xs : List α) (i : Nat) (K : Loc → Prop), (∀ x ∈ xs, wr x) →
      KidsAgree σ l i (xs.map cells) →
      KidsCover K l i (xs.map cells) →
      Sound σ K (serializeItems d .release l i xs) (fun _ bs => bs = xs.flatMap (fun x => framed32 wire (enc x))) := by
  intro xs
  induction xs with
  | nil => intro i K _ _ _; exact Sound.pure rfl
  | cons x xs ih =>
    intro i K hw ha hc
    simp only [List.flatMap_cons, List.length_append]
    unfold serializeItems
    refine Sound.bind (h.serNested (l ++ [i]) x σ K none false (hw x (by simp)) (by simp) ha.1 hc.1) ?_
    rintro K1 bs hK rfl
    refine Sound.bind (ih (i + 1) K1 (fun y hy => hw y (by simp [hy])) ha.2 (KidsCover.mono hc.2 hK)) ?_
    rintro K2 bs' _ rfl
    exact Sound.pure rfl

theorem wrapLaw_vec (h : WrapLaw d wire enc lo wr cells) :
    WrapLaw (vecDict d) 2 (fun v => v.flatMap (fun x => framed32 wire (enc x)))
      (fun v => (v.flatMap (fun x => framed32 wire (enc x))).length % 2 ^ 32 == 0) (fun v => ∀ x ∈ v, wr x)
      (fun v => cellNode none (v.map cells)) :=
  WrapLaw.ofBySize rfl rfl (fun _ => rfl)
    (fun l v σ K hw ha =>
      (wrap_sizeItems h l σ v 0 0 K hw (by omega) ha.kids).weaken
        (fun K' n _ hq => ⟨by rw [hq.1]; omega, hq.2.below⟩))
    (fun l v σ K hw ha hc => wrap_serializeItems h l σ v 0 K hw ha.kids hc.kids)

theorem wrapLaw_array (n : Nat) (h : WrapLaw d wire enc lo wr cells) :
    WrapLaw (arrayDict n d) 2 (fun v => v.1.flatMap (fun x => framed32 wire (enc x)))
      (fun v => (v.1.flatMap (fun x => framed32 wire (enc x))).length % 2 ^ 32 == 0) (fun v => ∀ x ∈ v.1, wr x)
      (fun v => cellNode none (v.1.map cells)) :=
  WrapLaw.ofBySize rfl rfl (fun _ => rfl)
    (fun l v σ K hw ha =>
      (wrap_sizeItems h l σ v.1 0 0 K hw (by omega) ha.kids).weaken
        (fun K' n _ hq => ⟨by rw [hq.1]; omega, hq.2.below⟩))
    (fun l v σ K hw ha hc => wrap_serializeItems h l σ v.1 0 K hw ha.kids hc.kids)

theorem wrapLaw_list (h : WrapLaw d wire enc lo wr cells) :
    WrapLaw (listDict d) 2 (fun v => v.items.flatMap (fun x => framed32 wire (enc x)))
      (fun v => (v.items.flatMap (fun x => framed32 wire (enc x))).length % 2 ^ 32 == 0) (fun v => ∀ x ∈ v.items, wr x)
      (fun v => cellNode (some ((v.items.flatMap (fun x => framed32 wire (enc x))).length % 2 ^ 32)) (v.items.map cells)) :=
  WrapLaw.ofBySize rfl rfl (fun _ => rfl)
    (fun l v σ K hw ha =>
      (wrap_sizeItems h l σ v.items 0 0 K hw (by omega) ha.kids).weaken
        (fun K' n _ hq => ⟨by rw [hq.1]; omega, hq.2.below⟩))
    (fun l v σ K hw ha hc => wrap_serializeItems h l σ v.items 0 K hw ha.kids hc.kids)

theorem wrapLaw_option (h : WrapLaw d wire enc lo wr cells) :
    WrapLaw (optionDict d) 2 (fun v => v.toList.flatMap (fun x => framed32 wire (enc x)))
      (fun v => (v.toList.flatMap (fun x => framed32 wire (enc x))).length % 2 ^ 32 == 0) (fun v => ∀ x ∈ v, wr x)
      (fun v => cellNode none (v.toList.map cells)) :=
  WrapLaw.ofBySize rfl rfl (fun _ => rfl)
    (fun l v σ K hw ha => by
      cases v with
      | none => exact Sound.pure ⟨rfl, fun rel h0 hs => by cases rel <;> simp [cellNode] at h0 hs⟩
      | some x =>
        simp only [Option.toList_some, List.flatMap_cons, List.flatMap_nil, List.append_nil]
        refine (h.sizeNested (l ++ [0]) x σ K none false (hw x rfl) (by simp) ha.kids.1).unwrap.weaken ?_
        rintro K' n _ ⟨rfl, hc⟩
        exact ⟨rfl, KidsCover.below ⟨hc, trivial⟩⟩)
    (fun l v σ K hw ha hc => by
      cases v with
      | none => exact Sound.pure rfl
      | some x =>
        simp only [Option.toList_some, List.flatMap_cons, List.flatMap_nil, List.append_nil]
        exact h.serNested (l ++ [0]) x σ K none false (hw x rfl) (by simp) ha.kids.1 hc.kids.1)

theorem wrapLaw_box (h : WrapLaw d wire enc lo wr cells) :
    WrapLaw (boxDict d) wire enc (fun v => (enc v).length % 2 ^ 32 == 0) wr cells :=
  WrapLaw.ofBySize rfl h.wire_eq h.own h.size h.ser

/-! ### Maps -/

theorem wrap_sizeMapEntries (h : WrapLaw d wire enc lo wr cells) (l : Loc) (σ : CellMap) :
    ∀ (es : List (U32 × α)) (i acc : Nat) (K : Loc → Prop), (∀ e ∈ es, e.1.toNat < 2 ^ 29 ∧ wr e.2) →
      acc < 2 ^ 32 →
      KidsAgree σ l i (es.map (fun e => cells e.2)) →
      Sound σ K (sizeMapEntries d .release l i acc es)
        (fun K' n => n = (acc + (es.flatMap (fun e => leb (e.1.toNat * 8 + wire) ++ framed32 wire (enc e.2))).length) % 2 ^ 32 ∧
          KidsCover K' l i (es.map (fun e => cells e.2))) := by
  intro es
  induction es with
  | nil => intro i acc K _ hacc _; exact Sound.pure ⟨by simp; omega, trivial⟩
  | cons e es ih =>
    intro i acc K hw hacc ha
    obtain ⟨k, x⟩ := e
    have hns : nested32 wire (some k) false (lo x) (enc x) = leb (k.toNat * 8 + wire) ++ framed32 wire (enc x) := by
      simp [nested32]
    simp only [List.flatMap_cons, List.length_append]
    unfold sizeMapEntries
    refine Sound.bind (h.sizeNested (l ++ [i]) x σ K (some k) false (hw (k, x) (by simp)).2
      (by intro n hn; cases hn; exact (hw (k, x) (by simp)).1)
      ha.1).unwrap ?_
    rintro K1 n _ ⟨rfl, hc⟩
    rw [hns, List.length_append]
    refine Sound.bind (Q := fun K' n => n = (acc + ((leb (k.toNat * 8 + wire)).length + (framed32 wire (enc x)).length)) % 2 ^ 32 ∧
      Covers K' (l ++ [i]) (cells x)) (Sound.addWrap (by omega) ⟨rfl, hc⟩) ?_
    rintro K2 n _ ⟨rfl, hc⟩
    refine (ih (i + 1) _ K2 (fun y hy => hw y (by simp [hy])) (by omega) ha.2).weaken ?_
    rintro K3 n hK ⟨rfl, hk⟩
    exact ⟨by omega, hc.mono hK, hk⟩

theorem wrap_serializeMapEntries (h : WrapLaw d wire enc lo wr cells) (l : Loc) (σ : CellMap) :
    ∀ (es : List (U32 × α)) (i : Nat) (K : Loc → Prop), (∀ e ∈ es, e.1.toNat < 2 ^ 29 ∧ wr e.2) →
      KidsAgree σ l i (es.map (fun e => cells e.2)) → KidsCover K l i (es.map (fun e => cells e.2)) →
      Sound σ K (serializeMapEntries d .release l i es)
        (fun _ bs => bs = es.flatMap (fun e => leb (e.1.toNat * 8 + wire) ++ framed32 wire (enc e.2))) := by
  intro es
  induction es with
  | nil => intro i K _ _ _; exact Sound.pure rfl
  | cons e es ih =>
    intro i K hw ha hc
    obtain ⟨k, x⟩ := e
    have hns : nested32 wire (some k) false (lo x) (enc x) = leb (k.toNat * 8 + wire) ++ framed32 wire (enc x) := by
      simp [nested32]
    simp only [List.flatMap_cons, List.length_append]
    unfold serializeMapEntries
    refine Sound.bind (h.serNested (l ++ [i]) x σ K (some k) false (hw (k, x) (by simp)).2
      (by intro n hn; cases hn; exact (hw (k, x) (by simp)).1)
      ha.1 hc.1) ?_
    rintro K1 bs hK rfl
    rw [hns]
    refine Sound.bind (ih (i + 1) K1 (fun y hy => hw y (by simp [hy])) ha.2 (KidsCover.mono hc.2 hK)) ?_
    rintro K2 bs' _ rfl
    exact Sound.pure rfl

theorem wrapLaw_map (kt : KeyTy) (h : WrapLaw d wire enc lo wr cells) :
    WrapLaw (mapDict kt d) 2
      (fun v => v.entries.flatMap (fun e => leb (e.1.toNat * 8 + wire) ++ framed32 wire (enc e.2)))
      (fun v => (v.entries.flatMap (fun e => leb (e.1.toNat * 8 + wire) ++ framed32 wire (enc e.2))).length % 2 ^ 32 == 0)
      (fun v => ∀ e ∈ v.entries, e.1.toNat < 2 ^ 29 ∧ wr e.2)
      (fun v => cellNode
        (some ((v.entries.flatMap (fun e => leb (e.1.toNat * 8 + wire) ++ framed32 wire (enc e.2))).length % 2 ^ 32))
        (v.entries.map (fun e => cells e.2))) :=
  WrapLaw.ofBySize rfl rfl (fun _ => rfl)
    (fun l v σ K hw ha =>
      (wrap_sizeMapEntries h l σ v.entries 0 0 K hw (by omega) ha.kids).weaken
        (fun K' n _ hq => ⟨by rw [hq.1]; omega, hq.2.below⟩))
    (fun l v σ K hw ha hc => wrap_serializeMapEntries h l σ v.entries 0 K hw ha.kids hc.kids)

end items

/-! ### Hash maps -/

section hashMap
variable {κ ν : Type} {dk : Dict κ} {dv : Dict ν} {wk wv : Nat} {ek : κ → Bytes} {ev : ν → Bytes} {lk : κ → Bool}
  {lv : ν → Bool} {pk : κ → Prop} {pv : ν → Prop} {ck : κ → CellMap} {cv : ν → CellMap}

theorem wrap_sizeEntries (hk : WrapLaw dk wk ek lk pk ck) (hv : WrapLaw dv wv ev lv pv cv) (l : Loc)
    (σ : CellMap) :
    ∀ (es : List (κ × ν)) (i acc : Nat) (K : Loc → Prop), (∀ e ∈ es, pk e.1 ∧ pv e.2) →
      acc < 2 ^ 32 →
      KidsAgree σ l (2 * i) (entryCells ck cv es) →
      Sound σ K (sizeEntries dk dv .release l i acc es)
        (fun K' n => n = (acc + (es.flatMap (fun e => framed32 wk (ek e.1) ++ framed32 wv (ev e.2))).length) % 2 ^ 32 ∧
          KidsCover K' l (2 * i) (entryCells ck cv es)) := by
  intro es
  induction es with
  | nil => intro i acc K _ hacc _; exact Sound.pure ⟨by simp; omega, trivial⟩
  | cons e es ih =>
    intro i acc K hw hacc ha
    obtain ⟨k, x⟩ := e
    simp only [List.flatMap_cons, List.length_append]
    unfold sizeEntries
    refine Sound.bind (hk.sizeNested (l ++ [2 * i]) k σ K none false (hw (k, x) (by simp)).1 (by simp) ha.1).unwrap ?_
    rintro K1 n _ ⟨rfl, hc⟩
    refine Sound.bind (Q := fun K' n => n = (acc + (framed32 wk (ek k)).length) % 2 ^ 32 ∧ Covers K' (l ++ [2 * i]) (ck k))
      (Sound.addWrap (by simp only [nested32]; omega) ⟨rfl, hc⟩) ?_
    rintro K2 n _ ⟨rfl, hc⟩
    refine Sound.bind (hv.sizeNested (l ++ [2 * i + 1]) x σ K2 none false (hw (k, x) (by simp)).2 (by simp) ha.2.1).unwrap ?_
    rintro K3 n hK3 ⟨rfl, hc'⟩
    refine Sound.bind (Q := fun K' n => n = (acc + (framed32 wk (ek k)).length + (framed32 wv (ev x)).length) % 2 ^ 32 ∧
      Covers K' (l ++ [2 * i]) (ck k) ∧ Covers K' (l ++ [2 * i + 1]) (cv x))
      (Sound.addWrap (by simp only [nested32]; omega) ⟨rfl, hc.mono hK3, hc'⟩) ?_
    rintro K4 n _ ⟨rfl, hc, hc'⟩
    refine (ih (i + 1) _ K4 (fun y hy => hw y (by simp [hy])) (by omega) ha.2.2).weaken ?_
    rintro K5 n hK ⟨rfl, hkc⟩
    exact ⟨by omega, hc.mono hK, hc'.mono hK, hkc⟩

theorem wrap_serializeEntries (hk : WrapLaw dk wk ek lk pk ck) (hv : WrapLaw dv wv ev lv pv cv) (l : Loc)
    (σ : CellMap) :
    ∀ (es : List (κ × ν)) (i : Nat) (K : Loc → Prop), (∀ e ∈ es, pk e.1 ∧ pv e.2) →
      KidsAgree σ l (2 * i) (entryCells ck cv es) → KidsCover K l (2 * i) (entryCells ck cv es) →
      Sound σ K (serializeEntries dk dv .release l i es)
        (fun _ bs => bs = es.flatMap (fun e => framed32 wk (ek e.1) ++ framed32 wv (ev e.2))) := by
  intro es
  induction es with
  | nil => intro i K _ _ _; exact Sound.pure rfl
  | cons e es ih =>
    intro i K hw ha hc
    obtain ⟨k, x⟩ := e
    simp only [List.flatMap_cons, List.length_append]
    unfold serializeEntries
    refine Sound.bind (hk.serNested (l ++ [2 * i]) k σ K none false (hw (k, x) (by simp)).1 (by simp) ha.1 hc.1) ?_
    rintro K1 bs hK rfl
    refine Sound.bind (hv.serNested (l ++ [2 * i + 1]) x σ K1 none false (hw (k, x) (by simp)).2 (by simp) ha.2.1 (hc.2.1.mono hK)) ?_
    rintro K2 bs hK' rfl
    refine Sound.bind (ih (i + 1) K2 (fun y hy => hw y (by simp [hy])) ha.2.2
      (KidsCover.mono hc.2.2 (fun x hx => hK' x (hK x hx)))) ?_
    rintro K3 bs' _ rfl
    exact Sound.pure (by simp [nested32])

theorem wrapLaw_hashMap (eq : κ → κ → Bool) (hk : WrapLaw dk wk ek lk pk ck) (hv : WrapLaw dv wv ev lv pv cv) :
    WrapLaw (hashMapDict eq dk dv) 2 (fun v => v.flatMap (fun e => framed32 wk (ek e.1) ++ framed32 wv (ev e.2)))
      (fun v => (v.flatMap (fun e => framed32 wk (ek e.1) ++ framed32 wv (ev e.2))).length % 2 ^ 32 == 0)
      (fun v => ∀ e ∈ v, pk e.1 ∧ pv e.2) (fun v => cellNode none (entryCells ck cv v)) :=
  WrapLaw.ofBySize rfl rfl (fun _ => rfl)
    (fun l v σ K hw ha =>
      (wrap_sizeEntries hk hv l σ v 0 0 K hw (by omega) ha.kids).weaken
        (fun K' n _ hq => ⟨by rw [hq.1]; omega, KidsCover.below hq.2⟩))
    (fun l v σ K hw ha hc => wrap_serializeEntries hk hv l σ v 0 K hw ha.kids hc.kids)

end hashMap

/-! ### Tuples -/

/-- Law of the components of a tuple. -/
structure WrapTuple {α : Type} (t : TupleD α) (enc : α → Bytes) (wr : α → Prop) (kids : α → List CellMap) : Prop where
  size : ∀ l i acc v σ K, wr v → acc < 2 ^ 32 → KidsAgree σ l i (kids v) →
    Sound σ K (t.sizes .release l i acc v) (fun K' n => n = (acc + (enc v).length) % 2 ^ 32 ∧ KidsCover K' l i (kids v))
  ser : ∀ l i v σ K, wr v → KidsAgree σ l i (kids v) → KidsCover K l i (kids v) →
    Sound σ K (t.serialize .release l i v) (fun _ bs => bs = enc v)

theorem wrapTuple_nil : WrapTuple tupleNil (fun _ => []) (fun _ => True) (fun _ => []) where
  size := fun _ _ acc _ _ _ _ hacc _ => Sound.pure ⟨by simp; omega, trivial⟩
  ser := fun _ _ _ _ _ _ _ _ => Sound.pure rfl

theorem wrapTuple_cons {α β : Type} {d : Dict α} {t : TupleD β} {wire : Nat} {enc : α → Bytes} {lo : α → Bool}
    {wr : α → Prop} {cells : α → CellMap} {enc' : β → Bytes} {wr' : β → Prop} {kids : β → List CellMap}
    (h : WrapLaw d wire enc lo wr cells) (h' : WrapTuple t enc' wr' kids) :
    WrapTuple (tupleCons d t) (fun v => framed32 wire (enc v.1) ++ enc' v.2) (fun v => wr v.1 ∧ wr' v.2)
      (fun v => cells v.1 :: kids v.2) where
  size := by
    intro l i acc v σ K hw hacc ha
    obtain ⟨x, y⟩ := v
    simp only [List.length_append]
    refine Sound.bind (h.sizeNested (l ++ [i]) x σ K none false hw.1 (by simp) ha.1).unwrap ?_
    rintro K1 n _ ⟨rfl, hc⟩
    refine Sound.bind (Q := fun K' n => n = (acc + (framed32 wire (enc x)).length) % 2 ^ 32 ∧ Covers K' (l ++ [i]) (cells x))
      (Sound.addWrap (by simp only [nested32]; omega) ⟨rfl, hc⟩) ?_
    rintro K2 n _ ⟨rfl, hc⟩
    refine (h'.size l (i + 1) _ y σ K2 hw.2 (by omega) ha.2).weaken ?_
    rintro K3 n hK ⟨rfl, hk⟩
    exact ⟨by omega, hc.mono hK, hk⟩
  ser := by
    intro l i v σ K hw ha hc
    obtain ⟨x, y⟩ := v
    simp only [List.length_append]
    refine Sound.bind (h.serNested (l ++ [i]) x σ K none false hw.1 (by simp) ha.1 hc.1) ?_
    rintro K1 bs hK rfl
    refine Sound.bind (h'.ser l (i + 1) y σ K1 hw.2 ha.2 (KidsCover.mono hc.2 hK)) ?_
    rintro K2 bs' _ rfl
    exact Sound.pure rfl

theorem wrapLaw_tuple {α : Type} {t : TupleD α} {enc : α → Bytes} {wr : α → Prop} {kids : α → List CellMap}
    (h : WrapTuple t enc wr kids) :
    WrapLaw (tupleDict t) 2 enc (fun v => (enc v).length % 2 ^ 32 == 0) wr (fun v => cellNode none (kids v)) :=
  WrapLaw.ofBySize rfl rfl (fun _ => rfl)
    (fun l v σ K hw ha =>
      (h.size l 0 0 v σ K hw (by omega) ha.kids).weaken (fun K' n _ hq => ⟨by rw [hq.1]; omega, hq.2.below⟩))
    (fun l v σ K hw ha hc => h.ser l 0 v σ K hw ha.kids hc.kids)

/-! ### Structs and enums -/

/-- Law of the fields of a struct or variant. -/
structure WrapFields {β : Type} (fs : FieldsD β) (enc : β → Bytes) (wr : β → Prop) (kids : β → List CellMap) : Prop where
  size : ∀ l i acc v σ K, wr v → acc < 2 ^ 32 → KidsAgree σ l i (kids v) →
    Sound σ K (fs.sizes .release l i acc v) (fun K' n => n = (acc + (enc v).length) % 2 ^ 32 ∧ KidsCover K' l i (kids v))
  ser : ∀ l i v σ K, wr v → KidsAgree σ l i (kids v) → KidsCover K l i (kids v) →
    Sound σ K (fs.serialize .release l i v) (fun _ bs => bs = enc v)

theorem wrapFields_nil : WrapFields fieldsNil (fun _ => []) (fun _ => True) (fun _ => []) where
  size := fun _ _ acc _ _ _ _ hacc _ => Sound.pure ⟨by simp; omega, trivial⟩
  ser := fun _ _ _ _ _ _ _ _ => Sound.pure rfl

theorem wrapFields_cons {α β : Type} {d : Dict α} {fs : FieldsD β} {wire : Nat} {enc : α → Bytes} {lo : α → Bool}
    {wr : α → Prop} {cells : α → CellMap} {enc' : β → Bytes} {wr' : β → Prop} {kids : β → List CellMap}
    (deriveState : Bool) (tag : U32) (attrs : FieldAttrs) (htag : tag.toNat < 2 ^ 29)
    (h : WrapLaw d wire enc lo wr cells) (h' : WrapFields fs enc' wr' kids) :
    WrapFields (fieldsCons deriveState tag attrs d fs)
      (fun v => (if lo v.1 then [] else leb (tag.toNat * 8 + wire) ++ framed32 wire (enc v.1)) ++ enc' v.2)
      (fun v => wr v.1 ∧ wr' v.2) (fun v => cells v.1 :: kids v.2) where
  size := by
    intro l i acc v σ K hw hacc ha
    obtain ⟨x, y⟩ := v
    have hns : nested32 wire (some tag) true (lo x) (enc x) =
        if lo x then [] else leb (tag.toNat * 8 + wire) ++ framed32 wire (enc x) := by simp [nested32]
    simp only [List.length_append]
    rw [← hns]
    refine Sound.bind (h.sizeNested (l ++ [i]) x σ K (some tag) true hw.1
      (by intro n hn; cases hn; exact htag) ha.1).unwrap ?_
    rintro K1 n _ ⟨rfl, hc⟩
    refine Sound.bind (Q := fun K' n => n = (acc + (nested32 wire (some tag) true (lo x) (enc x)).length) % 2 ^ 32 ∧
      Covers K' (l ++ [i]) (cells x)) (Sound.addWrap (by omega) ⟨rfl, hc⟩) ?_
    rintro K2 n _ ⟨rfl, hc⟩
    refine (h'.size l (i + 1) _ y σ K2 hw.2 (by omega) ha.2).weaken ?_
    rintro K3 n hK ⟨rfl, hk⟩
    exact ⟨by omega, hc.mono hK, hk⟩
  ser := by
    intro l i v σ K hw ha hc
    obtain ⟨x, y⟩ := v
    have hns : nested32 wire (some tag) true (lo x) (enc x) =
        if lo x then [] else leb (tag.toNat * 8 + wire) ++ framed32 wire (enc x) := by simp [nested32]
    simp only [List.length_append]
    rw [← hns]
    refine Sound.bind (h.serNested (l ++ [i]) x σ K (some tag) true hw.1
      (by intro n hn; cases hn; exact htag) ha.1 hc.1) ?_
    rintro K1 bs hK rfl
    refine Sound.bind (h'.ser l (i + 1) y σ K1 hw.2 ha.2 (KidsCover.mono hc.2 hK)) ?_
    rintro K2 bs' _ rfl
    exact Sound.pure rfl

theorem wrapLaw_struct {β : Type} {fs : FieldsD β} {enc : β → Bytes} {wr : β → Prop} {kids : β → List CellMap}
    (deriveState cached : Bool) (h : WrapFields fs enc wr kids) :
    WrapLaw (structDict deriveState cached fs) 2 (fun v => enc v.fields) (fun v => (enc v.fields).length % 2 ^ 32 == 0)
      (fun v => wr v.fields)
      (fun v => cellNode (if cached then some ((enc v.fields).length % 2 ^ 32) else none) (kids v.fields)) := by
  cases deriveState
  all_goals
  · refine WrapLaw.ofBySize rfl rfl (fun _ => rfl) ?_ ?_
    · intro l v σ K hw ha
      exact (h.size l 0 0 v.fields σ K hw (by omega) ha.kids).weaken
        (fun K' n _ hq => ⟨by rw [hq.1]; omega, hq.2.below⟩)
    · intro l v σ K hw ha hc
      exact h.ser l 0 v.fields σ K hw ha.kids hc.kids

/-- Law of the variants of an enum; `enc` includes the variant tag. -/
structure WrapVariants {γ : Type} (vs : VariantsD γ) (enc : γ → Bytes) (wr : γ → Prop) (kids : γ → List CellMap) :
    Prop where
  size : ∀ l v σ K, wr v → KidsAgree σ l 0 (kids v) →
    Sound σ K (vs.sizes .release l (u32Size (vs.tagOf v)) v)
      (fun K' n => n = (enc v).length % 2 ^ 32 ∧ KidsCover K' l 0 (kids v))
  ser : ∀ l v σ K, wr v → KidsAgree σ l 0 (kids v) → KidsCover K l 0 (kids v) →
    Sound σ K (vs.serialize .release l v) (fun _ bs => putVarint (vs.tagOf v) ++ bs = enc v)

theorem wrapVariants_nil : WrapVariants variantsNil (fun v => nomatch v) (fun _ => True) (fun _ => []) where
  size := fun _ v => nomatch v
  ser := fun _ v => nomatch v

theorem wrapVariants_cons {β γ : Type} {fs : FieldsD β} {vs : VariantsD γ} {encF : β → Bytes} {wrF : β → Prop}
    {kidsF : β → List CellMap} {encV : γ → Bytes} {wrV : γ → Prop} {kidsV : γ → List CellMap}
    (tag : U32) (cached : Bool) (hf : WrapFields fs encF wrF kidsF) (hv : WrapVariants vs encV wrV kidsV) :
    WrapVariants (variantsCons tag cached fs vs)
      (Sum.elim (fun x => leb tag.toNat ++ encF x) encV) (Sum.elim wrF wrV) (Sum.elim kidsF kidsV) where
  size := by
    intro l v σ K hw ha
    cases v with
    | inl x =>
      simp only [Sum.elim_inl, List.length_append] at hw ha ⊢
      show Sound σ K (fs.sizes .release l 0 (u32Size tag) x) _
      rw [u32Size_eq]
      exact hf.size l 0 _ x σ K hw (leb_length_small _ 32 tag.isLt (by decide)) ha
    | inr x => exact hv.size l x σ K hw ha
  ser := by
    intro l v σ K hw ha hc
    cases v with
    | inl x =>
      simp only [Sum.elim_inl, List.length_append] at hw ha hc ⊢
      refine (hf.ser l 0 x σ K hw ha hc).weaken ?_
      rintro K' bs _ rfl
      show putVarint tag ++ _ = _
      rw [putVarint_eq_leb (by decide)]
    | inr x => exact hv.ser l x σ K hw ha hc

theorem wrapLaw_enum {γ : Type} {vs : VariantsD γ} {enc : γ → Bytes} {wr : γ → Prop} {kids : γ → List CellMap}
    (deriveState : Bool) (dfltVal : Option Rt → γ) (h : WrapVariants vs enc wr kids) :
    WrapLaw (enumDict deriveState vs dfltVal) 2 (fun v => enc v.val) (fun v => (enc v.val).length % 2 ^ 32 == 0)
      (fun v => wr v.val)
      (fun v => cellNode (if vs.hasCache v.val then some ((enc v.val).length % 2 ^ 32) else none) (kids v.val)) := by
  have hu : ∀ t : U32, 0 + u32Size t < 2 ^ 32 := by
    intro t; rw [u32Size_eq, Nat.zero_add]; exact leb_length_small _ 32 t.isLt (by decide)
  cases deriveState
  all_goals
  · refine WrapLaw.ofBySize rfl rfl (fun _ => rfl) ?_ ?_
    · intro l v σ K hw ha
      refine Sound.bind (Q := fun _ n => n = u32Size (vs.tagOf v.val))
        (Sound.addU32 (hu _) (Nat.zero_add _)) ?_
      rintro K' n _ rfl
      exact (h.size l v.val σ K' hw ha.kids).weaken (fun K' n _ hq => ⟨hq.1, hq.2.below⟩)
    · intro l v σ K hw ha hc
      refine Sound.bind (h.ser l v.val σ K hw ha.kids hc.kids) ?_
      rintro K' bs _ hb
      exact Sound.pure hb


mutual
/-- The size caches in and below a value with their true contents. -/
def cells32 : (t : Ty) → t.El → CellMap
  | .vec t, v => cellNode none (v.map (cells32 t))
  | .array _ t, v => cellNode none (v.1.map (cells32 t))
  | .tuple ts, v => cellNode none (cells32Tuple ts v)
  | .option t, v => cellNode none (v.toList.map (cells32 t))
  | .box t, v => cells32 t v
  | .hashMap k w, v => cellNode none (entryCells (cells32 k) (cells32 w) v)
  | .list t, v => cellNode (some ((encode32 (.list t) v).length % 2 ^ 32)) (v.items.map (cells32 t))
  | .map kt t, v => cellNode (some ((encode32 (.map kt t) v).length % 2 ^ 32)) (v.entries.map (fun e => cells32 t e.2))
  | .struct ds cached fs, v =>
    cellNode (if cached then some ((encode32 (.struct ds cached fs) v).length % 2 ^ 32) else none) (cells32Fields fs v.fields)
  | .enum ds cached fs vs, v =>
    cellNode (if (match v.val with | .inl _ => cached | .inr x => cachedVariant vs x)
        then some ((encode32 (.enum ds cached fs vs) v).length % 2 ^ 32) else none)
      (match v.val with
      | .inl x => cells32Fields fs x
      | .inr x => cells32Variant vs x)
  | .uint _, _ => noCells
  | .sint _, _ => noCells
  | .bool, _ => noCells
  | .string, _ => noCells
  | .bytes, _ => noCells

/-- Cells of the components. -/
def cells32Tuple : (ts : Tys) → ts.El → List CellMap
  | .nil, _ => []
  | .cons t ts, v => cells32 t v.1 :: cells32Tuple ts v.2

/-- Cells of the fields. -/
def cells32Fields : (fs : Fields) → fs.El → List CellMap
  | .nil, _ => []
  | .cons _ _ t fs, v => cells32 t v.1 :: cells32Fields fs v.2

/-- Cells of the current variant's fields. -/
def cells32Variant : (vs : Variants) → vs.El → List CellMap
  | .nil, _ => []
  | .cons _ _ fs vs, v =>
    match v with
    | .inl x => cells32Fields fs x
    | .inr x => cells32Variant vs x
end

theorem WrapLaw.congr {α : Type} {d : Dict α} {wire wire' : Nat} {enc enc' : α → Bytes} {lo lo' : α → Bool}
    {wr wr' : α → Prop} {cells cells' : α → CellMap} (h : WrapLaw d wire enc lo wr cells)
    (h1 : wire = wire') (h2 : enc = enc') (h3 : lo = lo') (h4 : wr = wr') (h5 : cells = cells') :
    WrapLaw d wire' enc' lo' wr' cells' := by
  subst h1 h2 h3 h4 h5; exact h

mutual
theorem wrapLaw : (t : Ty) → t.WF →
    WrapLaw t.dict (wireOf t) (encode32 t) (fun v => leftOut32 t v (encode32 t v)) (Writable t) (cells32 t)
  | .uint w, _ => (wrapLaw_uint w).congr rfl rfl (by funext v; simp [leftOut32]; rfl) rfl rfl
  | .sint w, _ => (wrapLaw_sint w).congr rfl rfl (by funext v; simp [leftOut32]; rfl) rfl rfl
  | .bool, _ => wrapLaw_bool.congr rfl rfl (by funext v; cases v <;> rfl) rfl rfl
  | .string, _ => wrapLaw_string
  | .bytes, _ => wrapLaw_bytes
  | .vec t, h => wrapLaw_vec (wrapLaw t h)
  | .array n t, h => wrapLaw_array n (wrapLaw t h.2.2)
  | .tuple ts, h => wrapLaw_tuple (wrapTuple ts h.2.2)
  | .option t, h => wrapLaw_option (wrapLaw t h)
  | .box t, h => wrapLaw_box (wrapLaw t h)
  | .hashMap k v, h => wrapLaw_hashMap k.eq (wrapLaw k h.1) (wrapLaw v h.2)
  | .list t, h => wrapLaw_list (wrapLaw t h.2)
  | .map k t, h => wrapLaw_map k (wrapLaw t h.2)
  | .struct ds cached fs, h => wrapLaw_struct ds cached (wrapFields fs ds h.2)
  | .enum ds cached fs vs, h => by
    have h0 := wrapLaw_enum ds (fun rt => Sum.inl ((fs.dict ds).init rt))
      (wrapVariants_cons 0#32 cached (wrapFields fs ds h.2.1) (wrapVariants vs ds h.2.2.2.2))
    refine WrapLaw.congr (wire' := 2) (enc' := encode32 (.enum ds cached fs vs))
      (lo' := fun v => (encode32 (.enum ds cached fs vs) v).length % 2 ^ 32 == 0) (wr' := Writable (.enum ds cached fs vs))
      (cells' := cells32 (.enum ds cached fs vs)) h0 rfl ?_ ?_ ?_ ?_
    · funext v; rcases v with ⟨rt, x | x⟩ <;> rfl
    · funext v; rcases v with ⟨rt, x | x⟩ <;> rfl
    · funext v; rcases v with ⟨rt, x | x⟩ <;> rfl
    · funext v; rcases v with ⟨rt, x | x⟩
      · rfl
      · show cellNode (if (vs.dict ds).hasCache x then _ else _) _ = _
        rw [hasCache_variant]; rfl

theorem wrapTuple : (ts : Tys) → ts.WF → WrapTuple ts.dict (encode32Tuple ts) (WritableTuple ts) (cells32Tuple ts)
  | .nil, _ => wrapTuple_nil
  | .cons t ts, h => wrapTuple_cons (wrapLaw t h.1) (wrapTuple ts h.2)

theorem wrapFields : (fs : Fields) → (ds : Bool) → fs.WF ds →
    WrapFields (fs.dict ds) (encode32Fields fs) (WritableFields fs) (cells32Fields fs)
  | .nil, _, _ => wrapFields_nil
  | .cons tag attrs t fs, ds, h => wrapFields_cons ds tag attrs (tag_lt h.1) (wrapLaw t h.2.2.1) (wrapFields fs ds h.2.2.2)

theorem wrapVariants : (vs : Variants) → (ds : Bool) → vs.WF ds →
    WrapVariants (vs.dict ds) (encode32Variant vs) (WritableVariant vs) (cells32Variant vs)
  | .nil, _, _ => ⟨fun _ v => (nomatch v), fun _ v => (nomatch v)⟩
  | .cons tag cached fs vs, ds, h => by
    have := wrapVariants_cons tag cached (wrapFields fs ds h.2.2.1) (wrapVariants vs ds h.2.2.2)
    have e1 : encode32Variant (.cons tag cached fs vs) =
        Sum.elim (fun x => leb tag.toNat ++ encode32Fields fs x) (encode32Variant vs) := by
      funext v; cases v <;> rfl
    have e2 : WritableVariant (.cons tag cached fs vs) = Sum.elim (WritableFields fs) (WritableVariant vs) := by
      funext v; cases v <;> rfl
    have e3 : cells32Variant (.cons tag cached fs vs) = Sum.elim (cells32Fields fs) (cells32Variant vs) := by
      funext v; cases v <;> rfl
    rw [e1, e2, e3]
    exact this
end

end Steit
