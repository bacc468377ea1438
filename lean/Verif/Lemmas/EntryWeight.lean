import Verif.Lemmas.RecursiveDerive
import Verif.Model.Replay

/-! # A log entry read from `k` bytes has a path and a payload of less than `k` items and bytes together -/

namespace Steit
open Spec

/-- Reading into a value makes it heavier by no more bytes than are read. -/
def Pot {α : Type} (merge : Mode → α → Bytes → Res α) (φ : α → Nat) : Prop :=
  ∀ m v bs v' rest, merge m v bs = .ok v' rest → φ v' + rest.length ≤ φ v + bs.length

/-- Likewise for the fields of a message. -/
def PotFields {α : Type} (fs : FieldsD α) (φ : α → Nat) : Prop :=
  ∀ m n wt v bs v' rest, fs.mergeField m n wt v bs = some (.ok v' rest) → φ v' + rest.length ≤ φ v + bs.length

theorem pot_untilEof {α : Type} {step : α → Bytes → Res α} {φ : α → Nat}
    (h : ∀ v bs v' rest, step v bs = .ok v' rest → φ v' + rest.length ≤ φ v + bs.length) :
    ∀ (fuel : Nat) (v : α) (bs : Bytes) (v' : α) (rest : Bytes), untilEof step fuel v bs = .ok v' rest →
      φ v' + rest.length ≤ φ v + bs.length
  | fuel, v, [], v', rest, he => by cases fuel <;> (cases he; exact Nat.le_refl _)
  | 0, v, b :: bs, v', rest, he => by cases he
  | fuel + 1, v, b :: bs, v', rest, he => by
    rw [untilEof] at he
    cases hs : step v (b :: bs) with
    | err x e => rw [hs] at he; cases he
    | ok x r =>
      rw [hs] at he
      have h1 := h _ _ _ _ hs
      have h2 := pot_untilEof h fuel x r v' rest he
      omega

theorem pot_withNested {α : Type} {m : Mode} {φ : α → Nat} {v v' : α} {bs rest : Bytes} {body : Bytes → Res α}
    (h : ∀ inner v' rest, body inner = .ok v' rest → φ v' + rest.length ≤ φ v + inner.length)
    (he : withNested m v bs body = .ok v' rest) : φ v' + rest.length + 1 ≤ φ v + bs.length := by
  unfold withNested at he
  cases hg : getVarint m 64 bs with
  | error e => rw [hg] at he; cases he
  | ok x =>
    obtain ⟨size, r⟩ := x
    rw [hg] at he
    dsimp only at he
    have hl := getVarint_shorter (by decide) hg
    cases hb : body (r.take size.toNat) with
    | err x e => rw [hb] at he; cases he
    | ok x u =>
      rw [hb] at he
      cases he
      have h1 := h _ _ _ hb
      simp only [List.length_append, List.length_take, List.length_drop] at h1 ⊢
      omega

theorem pot_mergeNested {α : Type} {d : Dict α} {φ : α → Nat} (h : Pot d.merge φ) (m : Mode) (v : α) (wt : WireType) (bs : Bytes)
    (v' : α) (rest : Bytes) (he : d.mergeNested m v wt bs = .ok v' rest) : φ v' + rest.length ≤ φ v + bs.length := by
  unfold Dict.mergeNested at he
  split at he
  · cases hs : skipField m wt bs with
    | error e => rw [hs] at he; cases he
    | ok r =>
      rw [hs] at he
      cases he
      have := (skipField_ok hs).2
      omega
  · cases wt with
    | varint => exact h m v bs v' rest he
    | sized =>
      have := pot_withNested (φ := φ) (fun inner v' rest hb => h m v inner v' rest hb) he
      omega

theorem potFields_nil : PotFields fieldsNil (fun _ => 0) := by
  intro m n wt v bs v' rest h
  cases h

theorem potFields_cons {α β : Type} {ds : Bool} {tag : U32} {attrs : FieldAttrs} {d : Dict α} {fs : FieldsD β} {φ : α → Nat}
    {ψ : β → Nat} (h : Pot d.merge φ) (hf : PotFields fs ψ) : PotFields (fieldsCons ds tag attrs d fs) (fun v => φ v.1 + ψ v.2) := by
  intro m n wt v bs v' rest he
  simp only [fieldsCons] at he
  split at he
  · injection he with he
    cases hm : d.mergeNested m v.1 wt bs with
    | err x e => rw [hm] at he; cases he
    | ok x r =>
      rw [hm] at he
      cases he
      have := pot_mergeNested h m _ _ _ _ _ hm
      dsimp only
      omega
  · cases hm : fs.mergeField m n wt v.2 bs with
    | none => rw [hm] at he; cases he
    | some y =>
      rw [hm] at he
      cases y with
      | err x e => cases he
      | ok x r =>
        cases he
        have := hf m n wt _ _ _ _ hm
        dsimp only
        omega

theorem pot_fields {α : Type} {fs : FieldsD α} {φ : α → Nat} (h : PotFields fs φ) : Pot fs.merge φ := by
  intro m v bs v' rest he
  refine pot_untilEof ?_ _ v bs v' rest he
  intro v bs v' rest hs
  unfold FieldsD.mergeStep at hs
  cases ht : readTag m bs with
  | error e => rw [ht] at hs; cases hs
  | ok x =>
    obtain ⟨⟨n, wt⟩, r⟩ := x
    rw [ht] at hs
    dsimp only at hs
    have hl := readTag_shorter ht
    cases hm : fs.mergeField m n wt v r with
    | none =>
      rw [hm] at hs
      dsimp only at hs
      cases hk : skipField m wt r with
      | error e => rw [hk] at hs; cases hs
      | ok r' =>
        rw [hk] at hs
        cases hs
        have := (skipField_ok hk).2
        omega
    | some y =>
      rw [hm] at hs
      dsimp only at hs
      subst hs
      have := h m n wt _ _ _ _ hm
      omega

theorem pot_bytes : Pot bytesDict.merge List.length := by
  intro m v bs v' rest h
  cases h
  simp

theorem pot_uint (w : Width) : Pot (uintDict w).merge (fun _ => 0) := by
  intro m v bs v' rest h
  simp only [uintDict, primDict] at h
  cases hg : getVarint m w.bits bs with
  | error e => rw [hg] at h; cases h
  | ok x =>
    rw [hg] at h
    cases h
    have := getVarint_shorter (by cases w <;> decide) hg
    dsimp only
    omega

theorem pot_vecUint (w : Width) : Pot (vecDict (uintDict w)).merge List.length := by
  intro m v bs v' rest h
  refine pot_untilEof ?_ _ v bs v' rest h
  intro v bs v' rest hs
  unfold vecStep at hs
  cases hd : (uintDict w).deserializeNested m (uintDict w).wire bs with
  | error e => rw [hd] at hs; cases hs
  | ok x =>
    rw [hd] at hs
    cases hs
    unfold Dict.deserializeNested Dict.mergeNested at hd
    rw [if_neg (by simp), show (uintDict w).wire = .varint from rfl] at hd
    simp only [uintDict, primDict] at hd
    cases hg : getVarint m w.bits bs with
    | error e => rw [hg] at hd; cases hd
    | ok y =>
      rw [hg] at hd
      cases hd
      have := getVarint_shorter (by cases w <;> decide) hg
      simp only [List.length_append, List.length_singleton]
      omega

/-- Number of path elements and payload bytes. -/
def Entry.weight : Entry → Nat
  | .update path value => path.length + value.length
  | .listPush path item => path.length + item.length
  | .listPop path => path.length
  | .mapRemove path _ => path.length

/-- Reading the fields of the variants of an enum makes them heavier by no more bytes than are read; new ones weigh nothing. -/
structure PotVariants {α : Type} (vs : VariantsD α) (φ : α → Nat) : Prop where
  merge : Pot vs.mergeFields φ
  ctor : ∀ tag rt v, vs.ctor tag rt = some v → φ v = 0

theorem potVariants_nil : PotVariants variantsNil (fun _ => 0) :=
  ⟨fun _ v => (nomatch v : False).elim, fun _ _ v => (nomatch v : False).elim⟩

theorem potVariants_cons {α β : Type} {tag : U32} {cached : Bool} {fs : FieldsD α} {vs : VariantsD β} {φ : α → Nat} {ψ : β → Nat}
    (h : PotFields fs φ) (hi : ∀ rt, φ (fs.init rt) = 0) (hv : PotVariants vs ψ) :
    PotVariants (variantsCons tag cached fs vs) (fun v => match v with | .inl x => φ x | .inr y => ψ y) := by
  refine ⟨?_, ?_⟩
  · intro m v bs v' rest he
    cases v with
    | inl x =>
      simp only [variantsCons] at he
      cases hm : fs.merge m x bs with
      | err y e => rw [hm] at he; cases he
      | ok y r => rw [hm] at he; cases he; exact pot_fields h m _ _ _ _ hm
    | inr x =>
      simp only [variantsCons] at he
      cases hm : vs.mergeFields m x bs with
      | err y e => rw [hm] at he; cases he
      | ok y r => rw [hm] at he; cases he; exact hv.merge m _ _ _ _ hm
  · intro tag' rt v he
    simp only [variantsCons] at he
    split at he
    · cases he; exact hi rt
    · cases hc : vs.ctor tag' rt with
      | none => rw [hc] at he; cases he
      | some y => rw [hc] at he; cases he; exact hv.ctor tag' rt y hc

theorem pot_enum {α : Type} {vs : VariantsD α} {φ : α → Nat} (h : PotVariants vs φ) {m : Mode} {v v' : EnumV α} {bs rest : Bytes}
    (he : enumMerge false vs m v bs = .ok v' rest) : φ v'.val + rest.length + 1 ≤ φ v.val + bs.length := by
  unfold enumMerge at he
  cases hg : getVarint m 32 bs with
  | error e => rw [hg] at he; cases he
  | ok x =>
    obtain ⟨tag, r⟩ := x
    rw [hg] at he
    dsimp only at he
    have hl := getVarint_shorter (by decide) hg
    split at he
    · cases hm : vs.mergeFields m v.val r with
      | err y e => rw [hm] at he; cases he
      | ok y u => rw [hm] at he; cases he; have := h.merge m _ _ _ _ hm; dsimp only; omega
    · rw [if_neg (by simp)] at he
      cases hc : vs.ctor tag none with
      | none => rw [hc] at he; cases he
      | some x =>
        rw [hc] at he
        dsimp only at he
        cases hm : vs.mergeFields m x r with
        | err y e => rw [hm] at he; cases he
        | ok y u =>
          rw [hm] at he
          cases he
          have h1 := h.merge m _ _ _ _ hm
          have h2 := h.ctor _ _ _ hc
          dsimp only
          omega

/-- The weight of an entry as a value of the generated enum. -/
def entryPot (v : logEntryTy.El) : Nat :=
  match v.val with
  | .inl x => x.1.length + (x.2.1.length + 0)
  | .inr y => match y with
    | .inl x => x.1.length + (x.2.1.length + 0)
    | .inr y => match y with
      | .inl x => x.1.length + 0
      | .inr y => match y with
        | .inl x => x.1.length + (0 + 0)
        | .inr _ => 0

theorem entryPot_eq (v : logEntryTy.El) : (Entry.ofEl v).weight = entryPot v := by
  obtain ⟨rt, v⟩ := v
  rcases v with ⟨p, x, ⟨⟩⟩ | ⟨p, x, ⟨⟩⟩ | ⟨p, ⟨⟩⟩ | ⟨p, k, ⟨⟩⟩ | v
  · rfl
  · rfl
  · rfl
  · rfl
  · nomatch v

theorem pot_entry {m : Mode} {v v' : logEntryTy.El} {bs rest : Bytes} (he : logEntryTy.dict.merge m v bs = .ok v' rest) :
    entryPot v' + rest.length + 1 ≤ entryPot v + bs.length := by
  have hp := potFields_cons (ds := false) (tag := 0#32) (attrs := {}) (pot_vecUint .w32)
    (potFields_cons (ds := false) (tag := 1#32) (attrs := {}) pot_bytes potFields_nil)
  have hq := potFields_cons (ds := false) (tag := 0#32) (attrs := {}) (pot_vecUint .w32) potFields_nil
  have hr := potFields_cons (ds := false) (tag := 0#32) (attrs := {}) (pot_vecUint .w32)
    (potFields_cons (ds := false) (tag := 1#32) (attrs := {}) (pot_uint .w32) potFields_nil)
  have h := potVariants_cons (tag := 0#32) (cached := true) hp (fun rt => by cases rt <;> rfl)
    (potVariants_cons (tag := 8#32) (cached := true) hp (fun rt => by cases rt <;> rfl)
    (potVariants_cons (tag := 9#32) (cached := true) hq (fun rt => by cases rt <;> rfl)
    (potVariants_cons (tag := 12#32) (cached := true) hr (fun rt => by cases rt <;> rfl) potVariants_nil)))
  have hk := pot_enum h he
  obtain ⟨rt, v⟩ := v
  obtain ⟨rt', v'⟩ := v'
  rcases v with a | a | a | a | a <;> rcases v' with b | b | b | b | b <;>
    first | exact hk | exact a.elim | exact b.elim

theorem entry_weight {m : Mode} {bs rest : Bytes} {e : logEntryTy.El}
    (h : logEntryTy.dict.deserializeNested m logEntryTy.dict.wire bs = .ok (e, rest)) :
    (Entry.ofEl e).weight + rest.length + 1 ≤ bs.length := by
  unfold Dict.deserializeNested Dict.mergeNested at h
  rw [if_neg (by simp), show logEntryTy.dict.wire = .sized from rfl] at h
  dsimp only at h
  cases hw : withNested m logEntryTy.dict.dflt bs (logEntryTy.dict.merge m logEntryTy.dict.dflt) with
  | err x e => rw [hw] at h; cases h
  | ok x r =>
    rw [hw] at h
    cases h
    have := pot_withNested (φ := entryPot)
      (fun inner v' rest hb => by have := pot_entry hb; omega) hw
    rw [entryPot_eq]
    have hd : entryPot logEntryTy.dict.dflt = 0 := rfl
    omega

end Steit
