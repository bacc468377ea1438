import Verif.Lemmas.Sound
import Verif.Lemmas.WireFmt
import Verif.Lemmas.Zigzag
import Verif.Model.Derive
import Verif.Spec.Encoding

/-! # Serialization laws of the trait implementations -/

namespace Steit
open Spec Prog

/-- What a `Serialize` implementation owes: it computes the size of, and writes, exactly `enc v`; `lo` is the omission
test; `wr` the values that can be written; `cells` the true contents of the size caches in and below the object. -/
structure SerLaw {α : Type} (d : Dict α) (wire : Nat) (enc : α → Bytes) (lo : α → Bool) (wr : α → Prop)
    (cells : α → CellMap) : Prop where
  wire_eq : d.wire.num = wire
  own : ∀ v, cells v [] = if d.hasCache v then some (enc v).length else none
  lo_small : ∀ v, lo v = true → (enc v).length < 2 ^ 32
  size : ∀ m l v σ K, wr v → (enc v).length < 2 ^ 32 → Agrees σ l (cells v) →
    Sound σ K (d.computeSize m l v) (fun K' n => n = (enc v).length ∧ CoversBelow K' l (cells v))
  ser : ∀ m l v σ K, wr v → (enc v).length < 2 ^ 32 → Agrees σ l (cells v) → CoversBelow K l (cells v) →
    Sound σ K (d.serializeCached m l v) (fun _ bs => bs = enc v)
  omit_some : ∀ m l v σ K, (enc v).length < 2 ^ 32 →
    Sound σ K (d.isOmissible m l v (some (enc v).length)) (fun _ b => b = lo v)
  omit_none : ∀ m l v σ K, wr v → (enc v).length < 2 ^ 32 → Agrees σ l (cells v) → Covers K l (cells v) →
    Sound σ K (d.isOmissible m l v none) (fun _ b => b = lo v)

theorem u32Size_eq (v : U32) : u32Size v = (leb v.toNat).length := by
  have h1 := uintSize_eq .w32 v
  have h2 := putVarint_eq_leb (w := Width.w32.bits) (by decide) v
  rw [h2] at h1
  exact h1

theorem size_eq_leb (n : Nat) (h : n < 2 ^ 32) : u32Size (BitVec.ofNat 32 n) = (leb n).length := by
  rw [u32Size_eq, BitVec.toNat_ofNat, Nat.mod_eq_of_lt h]

theorem put_eq_leb (n : Nat) (h : n < 2 ^ 32) : putVarint (BitVec.ofNat 32 n) = leb n := by
  rw [putVarint_eq_leb (by decide), BitVec.toNat_ofNat, Nat.mod_eq_of_lt h]

theorem framed_length_ge (w : Nat) (bs : Bytes) : bs.length ≤ (framed w bs).length := by
  unfold framed; split <;> simp

section
variable {α : Type} {d : Dict α} {wire : Nat} {enc : α → Bytes} {lo : α → Bool} {wr : α → Prop} {cells : α → CellMap}

theorem SerLaw.cacheSize (h : SerLaw d wire enc lo wr cells) (m : Mode) (l : Loc) (v : α) (σ : CellMap)
    (K : Loc → Prop) (hw : wr v) (hlen : (enc v).length < 2 ^ 32) (ha : Agrees σ l (cells v)) :
    Sound σ K (d.cacheSize m l v) (fun K' n => n = (enc v).length ∧ Covers K' l (cells v)) := by
  unfold SerD.cacheSize
  refine Sound.bind (h.size m l v σ K hw hlen ha) ?_
  rintro K' n _ ⟨rfl, hc⟩
  have ho := h.own v
  split
  · next hh =>
    rw [if_pos hh] at ho
    refine ⟨ha.own.trans ho, rfl, ?_⟩
    intro rel hs
    by_cases hr : rel = []
    · subst hr; right; simp
    · exact Or.inl (hc rel hr hs)
  · next hh =>
    rw [if_neg hh] at ho
    refine ⟨rfl, ?_⟩
    intro rel hs
    by_cases hr : rel = []
    · subst hr; rw [ho] at hs; cases hs
    · exact hc rel hr hs

theorem SerLaw.cachedSize (h : SerLaw d wire enc lo wr cells) (m : Mode) (l : Loc) (v : α) (σ : CellMap)
    (K : Loc → Prop) (hw : wr v) (hlen : (enc v).length < 2 ^ 32) (ha : Agrees σ l (cells v))
    (hc : Covers K l (cells v)) :
    Sound σ K (d.cachedSize m l v) (fun _ n => n = (enc v).length) := by
  unfold SerD.cachedSize
  have ho := h.own v
  split
  · next hh =>
    rw [if_pos hh] at ho
    refine ⟨by simpa using hc [] (by rw [ho]; rfl), _, ha.own.trans ho, rfl⟩
  · exact (h.size m l v σ K hw hlen ha).weaken (fun _ _ _ hq => hq.1)

theorem SerLaw.bySize_some (d : Dict α) (m : Mode) (l : Loc) (v : α) (σ : CellMap) (K : Loc → Prop)
    (n : Nat) : Sound σ K (d.toSerD.isOmissibleBySize m l v (some n)) (fun _ b => b = (n == 0)) := rfl

/-- The key bytes of a field, if it has a number. -/
def keyBytes (wire : Nat) : Option U32 → Bytes
  | none => []
  | some n => leb (n.toNat * 8 + wire)

/-- Size and bytes of a nested value or field, as specified. -/
def nestedSpec (wire : Nat) (fieldNumber : Option U32) (omissible lo : Bool) (payload : Bytes) : Bytes :=
  match fieldNumber with
  | none => framed wire payload
  | some n => if omissible && lo then [] else leb (n.toNat * 8 + wire) ++ framed wire payload

theorem SerLaw.sizeNested (h : SerLaw d wire enc lo wr cells) (m : Mode) (l : Loc) (v : α) (σ : CellMap)
    (K : Loc → Prop) (fn : Option U32) (om : Bool) (hw : wr v)
    (hfn : ∀ n ∈ fn, n.toNat < 2 ^ 29)
    (hlen : (nestedSpec wire fn om (lo v) (enc v)).length < 2 ^ 32) (ha : Agrees σ l (cells v)) :
    Sound σ K (d.computeSizeNested m l v fn om)
      (fun K' n => n = (nestedSpec wire fn om (lo v) (enc v)).length ∧ Covers K' l (cells v)) := by
  have hwire := h.wire_eq
  have hel : (enc v).length < 2 ^ 32 := by
    have hfr := framed_length_ge wire (enc v)
    cases fn with
    | none => simp only [nestedSpec] at hlen; omega
    | some n =>
      simp only [nestedSpec] at hlen
      cases hc : (om && lo v)
      · simp only [hc, Bool.false_eq_true, if_false, List.length_append] at hlen; omega
      · simp only [Bool.and_eq_true] at hc; exact h.lo_small v hc.2
  unfold Dict.computeSizeNested
  refine Sound.bind (h.cacheSize m l v σ K hw hel ha) ?_
  rintro K1 n1 _ ⟨rfl, hcov⟩
  refine Sound.bind (Q := fun K' b => b = (fn.isSome && om && lo v) ∧ Covers K' l (cells v)) ?_ ?_
  · split
    · next hc =>
      simp only [Bool.and_eq_true] at hc
      refine (h.omit_some m l v σ K1 hel).weaken (fun K' b hK hb => ⟨?_, hcov.mono hK⟩)
      rw [hb, hc.1, hc.2]; simp
    · next hc =>
      simp only [Bool.not_eq_true] at hc
      exact Sound.pure ⟨by rw [hc]; rfl, hcov⟩
  rintro K2 b _ ⟨rfl, hcov⟩
  split
  · next hc =>
    refine Sound.pure ⟨?_, hcov⟩
    simp only [Bool.and_eq_true] at hc
    cases fn with
    | none => simp at hc
    | some n => simp [nestedSpec, hc.1.2, hc.2]
  · next hc =>
    have hframe : nestedSpec wire fn om (lo v) (enc v) =
        keyBytes wire fn ++ framed wire (enc v) := by
      cases fn with
      | none => rfl
      | some n => simp only [nestedSpec, keyBytes]; rw [if_neg]; simpa using hc
    rw [hframe] at hlen ⊢
    rw [List.length_append] at hlen
    refine Sound.bind (Q := fun K' n => n = (framed wire (enc v)).length ∧ Covers K' l (cells v)) ?_ ?_
    · cases hwt : d.wire with
      | varint =>
        rw [hwt] at hwire
        refine Sound.pure ⟨?_, hcov⟩
        simp [framed, ← hwire, WireType.num]
      | sized =>
        rw [hwt] at hwire
        have : framed wire (enc v) = leb (enc v).length ++ enc v := by
          unfold framed; rw [if_neg]; rw [← hwire]; decide
        rw [this, List.length_append] at hlen ⊢
        simp only
        rw [size_eq_leb _ hel]
        exact Sound.addU32 (by omega) ⟨by omega, hcov⟩
    · rintro K3 n3 _ ⟨rfl, hcov⟩
      cases fn with
      | none => exact Sound.pure ⟨by simp [keyBytes], hcov⟩
      | some n =>
        obtain ⟨t, ht, htn⟩ := mkTag_ok n d.wire (hfn n rfl)
        simp only [ht, hwire] at htn ⊢
        show Sound σ K3 (Prog.addU32 m (framed wire (enc v)).length (u32Size t)) _
        rw [u32Size_eq, htn]
        refine Sound.addU32 ?_ ⟨?_, hcov⟩
        · simp only [keyBytes] at hlen; omega
        · simp only [List.length_append, keyBytes]; omega

theorem SerLaw.serNested (h : SerLaw d wire enc lo wr cells) (m : Mode) (l : Loc) (v : α) (σ : CellMap)
    (K : Loc → Prop) (fn : Option U32) (om : Bool) (hw : wr v)
    (hfn : ∀ n ∈ fn, n.toNat < 2 ^ 29)
    (hlen : (nestedSpec wire fn om (lo v) (enc v)).length < 2 ^ 32) (ha : Agrees σ l (cells v))
    (hcov : Covers K l (cells v)) :
    Sound σ K (d.serializeNested m l v fn om) (fun _ bs => bs = nestedSpec wire fn om (lo v) (enc v)) := by
  have hwire := h.wire_eq
  have hel : (enc v).length < 2 ^ 32 := by
    have hfr := framed_length_ge wire (enc v)
    cases fn with
    | none => simp only [nestedSpec] at hlen; omega
    | some n =>
      simp only [nestedSpec] at hlen
      cases hc : (om && lo v)
      · simp only [hc, Bool.false_eq_true, if_false, List.length_append] at hlen; omega
      · simp only [Bool.and_eq_true] at hc; exact h.lo_small v hc.2
  unfold Dict.serializeNested
  refine Sound.bind (Q := fun K' b => b = (fn.isSome && om && lo v) ∧ Covers K' l (cells v)) ?_ ?_
  · split
    · next hc =>
      simp only [Bool.and_eq_true] at hc
      refine (h.omit_none m l v σ K hw hel ha hcov).weaken (fun K' b hK hb => ⟨?_, hcov.mono hK⟩)
      rw [hb, hc.1, hc.2]; simp
    · next hc =>
      simp only [Bool.not_eq_true] at hc
      exact Sound.pure ⟨by rw [hc]; rfl, hcov⟩
  rintro K2 b _ ⟨rfl, hcov⟩
  split
  · next hc =>
    refine Sound.pure ?_
    simp only [Bool.and_eq_true] at hc
    cases fn with
    | none => simp at hc
    | some n => simp [nestedSpec, hc.1.2, hc.2]
  · next hc =>
    have hframe : nestedSpec wire fn om (lo v) (enc v) =
        keyBytes wire fn ++ framed wire (enc v) := by
      cases fn with
      | none => rfl
      | some n => simp only [nestedSpec, keyBytes]; rw [if_neg]; simpa using hc
    rw [hframe]
    refine Sound.bind (Q := fun K' bs => bs = keyBytes wire fn ∧
      Covers K' l (cells v)) ?_ ?_
    · cases fn with
      | none => exact Sound.pure ⟨rfl, hcov⟩
      | some n =>
        obtain ⟨t, ht, htn⟩ := mkTag_ok n d.wire (hfn n rfl)
        simp only [ht, hwire] at htn ⊢
        show Sound σ K2 (Prog.pure (putVarint t)) _
        refine ⟨?_, hcov⟩
        rw [putVarint_eq_leb (by decide), htn]; rfl
    · rintro K3 tagB _ ⟨rfl, hcov⟩
      refine Sound.bind (Q := fun K' bs => bs ++ enc v = framed wire (enc v) ∧ Covers K' l (cells v)) ?_ ?_
      · cases hwt : d.wire with
        | varint =>
          rw [hwt] at hwire
          refine Sound.pure ⟨?_, hcov⟩
          simp [framed, ← hwire, WireType.num]
        | sized =>
          rw [hwt] at hwire
          have : framed wire (enc v) = leb (enc v).length ++ enc v := by
            unfold framed; rw [if_neg]; rw [← hwire]; decide
          rw [this]
          refine Sound.bind (h.cachedSize m l v σ K3 hw hel ha hcov) ?_
          rintro K4 n4 hK rfl
          exact Sound.pure ⟨by rw [put_eq_leb _ hel], hcov.mono hK⟩
      · rintro K5 pre _ ⟨hpre, hcov⟩
        refine Sound.bind (h.ser m l v σ K5 hw hel ha hcov.below) ?_
        rintro K6 pay _ rfl
        refine Sound.pure ?_
        rw [List.append_assoc, hpre]

end

end Steit
