import Verif.Lemmas.CSharpTotal
import Verif.Lemmas.Boundary

/-! # Messages read by C# as sequences of fields -/

namespace Steit
open Spec

theorem csVarintLoop_any (init : Bytes) (last : Byte) (hi : ∀ b ∈ init, 128 ≤ b.toNat) (hl : last.toNat < 128) :
    ∀ (acc : BitVec 64) (off : Nat), ∃ v, ∀ rest, csVarintLoop (init ++ last :: rest) acc off = .ok (v, rest) := by
  induction init with
  | nil =>
    intro acc off
    refine ⟨acc ||| ((last &&& 0x7f#8).setWidth 64 <<< (off % 64)), fun rest => ?_⟩
    simp only [List.nil_append, csVarintLoop, (byte_hi last).2 hl, if_true]
  | cons b bs ih =>
    intro acc off
    have hb : ¬ (b &&& 0x80#8 = 0#8) := fun h => by
      have := (byte_hi b).1 h; have := hi b (by simp); omega
    obtain ⟨v, hv⟩ := ih (fun b h => hi b (by simp [h])) (acc ||| ((b &&& 0x7f#8).setWidth 64 <<< (off % 64))) (off + 7)
    refine ⟨v, fun rest => ?_⟩
    simp only [List.cons_append, csVarintLoop, if_neg hb]
    exact hv rest

/-- Any varint can be read, of whatever length. -/
theorem csReadUnsigned_any (enc : Bytes) (h : IsVarint enc) : ∃ v, ∀ rest, csReadUnsigned (enc ++ rest) = .ok (v, rest) := by
  obtain ⟨init, last, rfl, h1, h2⟩ := h
  obtain ⟨v, hv⟩ := csVarintLoop_any init last h1 h2 0#64 0
  exact ⟨v, fun rest => by rw [List.append_assoc]; exact hv rest⟩

theorem csReadBoolean_any (enc : Bytes) (h : IsVarint enc) : ∃ v, ∀ rest, csReadBoolean (enc ++ rest) = .ok (v, rest) := by
  obtain ⟨init, last, rfl, h1, h2⟩ := h
  exact ⟨_, fun rest => by
    rw [List.append_assoc]
    exact csBoolLoop_of_getBoolLoop _ _ _ _ (getBoolLoop_varint init last rest h1 h2 false)⟩

theorem csReadUInt32_any (enc rest : Bytes) (h : IsVarint enc) (hlen : enc.length ≤ 10) :
    csReadUInt32 (enc ++ rest) = .ok (BitVec.ofNat 32 (lebValue enc), rest) := by
  unfold csReadUInt32 csReadUInt
  rw [csReadUnsigned_varint enc rest h hlen]
  refine congrArg (fun x : U32 => (Except.ok (x, rest) : Except Exn (U32 × Bytes))) ?_
  apply BitVec.eq_of_toNat_eq
  show (BitVec.setWidth 32 (BitVec.ofNat 64 (lebValue enc))).toNat = _
  rw [BitVec.toNat_setWidth]
  show (BitVec.ofNat 64 (lebValue enc)).toNat % 2 ^ 32 = (BitVec.ofNat 32 (lebValue enc)).toNat
  rw [BitVec.toNat_ofNat, BitVec.toNat_ofNat]
  omega

theorem csReadKey_any (w : WField) (h : w.OK) (rest : Bytes) : csReadKey (w.key ++ rest) = .ok ((w.num, w.wire), rest) := by
  obtain ⟨h1, h2, h3, h4, _⟩ := h
  have hn := w.wire.num_le
  have := csReadKey_leb w.num w.wire h1 rest
  unfold csReadKey at this ⊢
  rw [csReadUInt32_leb _ _ (by omega)] at this
  rw [csReadUInt32_any _ _ h2 (by omega), h4]
  exact this

theorem csGetNested_any (body : Bytes) (h : Chunk .sized body) (hlen : body.length < 2 ^ 31) :
    ∃ payload, payload.length ≤ body.length ∧ ∀ rest, csGetNested (body ++ rest) = .ok (payload, rest) := by
  obtain ⟨len, payload, rfl, h1, h2, h3, _⟩ := h
  rw [List.length_append] at hlen
  refine ⟨payload, by simp, fun rest => ?_⟩
  have := csGetNested_framed payload rest (by omega)
  unfold csGetNested csReadSize at this ⊢
  rw [List.append_assoc, csReadUInt32_leb _ _ (by omega)] at this
  rw [List.append_assoc, csReadUInt32_any _ _ h1 h2, h3]
  exact this

/-- A primitive that is not a string reads exactly one varint. -/
theorem csDeserialize_varint (ρ : Bytes → Str) (enc : Bytes) (h : IsVarint enc) :
    (t : Ty) → wireOf t = 0 → ∃ x, ∀ rest, t.csDeserialize ρ (enc ++ rest) = .ok (x, rest)
  | .uint w, _ => by
    obtain ⟨v, hv⟩ := csReadUnsigned_any enc h
    refine ⟨v.setWidth w.bits, fun rest => ?_⟩
    show csReadUInt w _ = _
    unfold csReadUInt
    rw [hv]; rfl
  | .sint w, _ => by
    obtain ⟨v, hv⟩ := csReadUnsigned_any enc h
    refine ⟨(v.sshiftRight 1 ^^^ -(v &&& 1#64)).setWidth w.bits, fun rest => ?_⟩
    show csReadSInt w _ = _
    unfold csReadSInt csReadSigned
    rw [hv]; rfl
  | .bool, _ => csReadBoolean_any enc h
  | .box t, ht => csDeserialize_varint ρ enc h t ht
  | .string, h => absurd h (by decide : (2 : Nat) ≠ 0)
  | .bytes, h => absurd h (by decide : (2 : Nat) ≠ 0)
  | .vec _, h => absurd h (by decide : (2 : Nat) ≠ 0)
  | .array _ _, h => absurd h (by decide : (2 : Nat) ≠ 0)
  | .tuple _, h => absurd h (by decide : (2 : Nat) ≠ 0)
  | .option _, h => absurd h (by decide : (2 : Nat) ≠ 0)
  | .hashMap _ _, h => absurd h (by decide : (2 : Nat) ≠ 0)
  | .list _, h => absurd h (by decide : (2 : Nat) ≠ 0)
  | .map _ _, h => absurd h (by decide : (2 : Nat) ≠ 0)
  | .struct _ _ _, h => absurd h (by decide : (2 : Nat) ≠ 0)
  | .enum _ _ _ _, h => absurd h (by decide : (2 : Nat) ≠ 0)

theorem csGetWireType_none : (fs : Fields) → (tag : U32) → tag ∉ fs.tags → fs.csGetWireType tag = none
  | .nil, _, _ => rfl
  | .cons tag' _ _ fs, tag, h => by
    simp only [Fields.tags, List.mem_cons, not_or] at h
    simp only [Fields.csGetWireType, if_neg h.1]
    exact csGetWireType_none fs tag h.2

theorem csGetWireType_isSome : (fs : Fields) → (tag : U32) → fs.csGetWireType tag = none → tag ∉ fs.tags
  | .nil, _, _ => by simp [Fields.tags]
  | .cons tag' _ _ fs, tag, h => by
    simp only [Fields.csGetWireType] at h
    split at h
    · cases h
    · next hne =>
      simp only [Fields.tags, List.mem_cons, not_or]
      exact ⟨hne, csGetWireType_isSome fs tag h⟩

theorem csReplaceAt_none (ρ : Bytes → Str) : (fs : Fields) → (tag : U32) → tag ∉ fs.tags → ∀ wire bs v,
    fs.csReplaceAt ρ tag wire bs v = (csSkipField wire bs).map (fun rest => (v, rest))
  | .nil, _, _, wire, bs, v => by
    simp only [Fields.csReplaceAt]
    cases csSkipField wire bs <;> rfl
  | .cons tag' _ _ fs, tag, h, wire, bs, v => by
    simp only [Fields.tags, List.mem_cons, not_or] at h
    simp only [Fields.csReplaceAt, if_neg h.1]
    rw [csReplaceAt_none ρ fs tag h.2]
    cases csSkipField wire bs <;> rfl

/-- Replacing a field whose type the generated code takes for a varint reads one varint. -/
theorem csReplaceAt_varint (ρ : Bytes → Str) (enc : Bytes) (h : IsVarint enc) : (fs : Fields) → MirroredFields fs → ∀ tag v,
    fs.csGetWireType tag = some .varint → ∃ v', ∀ rest, fs.csReplaceAt ρ tag .varint (enc ++ rest) v = .ok (v', rest)
  | .nil, _, _, _, ht => by cases ht
  | .cons tag' attrs t fs, hm, tag, v, ht => by
    simp only [Fields.csGetWireType] at ht
    simp only [Fields.csReplaceAt]
    by_cases he : tag = tag'
    · rw [if_pos he] at ht
      have hw := csFieldWire_num attrs t hm.1
      rw [Option.some.inj ht] at hw
      obtain ⟨x, hx⟩ := csDeserialize_varint ρ enc h t hw.symm
      refine ⟨(x, v.2), fun rest => ?_⟩
      rw [if_pos he, hx]; rfl
    · rw [if_neg he] at ht
      obtain ⟨y, hy⟩ := csReplaceAt_varint ρ enc h fs hm.2.2 tag v.2 ht
      refine ⟨(v.1, y), fun rest => ?_⟩
      rw [if_neg he, hy]; rfl

/-- The loop of `State.Replace`. -/
def csLoop (ρ : Bytes → Str) (fs : Fields) (v : fs.Cs) (bs : Bytes) : Except Exn fs.Cs :=
  untilEnd (csReplaceStep fs.csGetWireType (fun tag wire bs v => fs.csReplaceAt ρ tag wire bs v)) bs.length v bs

/-- Reading one field does not depend on what follows, and an unknown field changes nothing. -/
theorem csStep_field (ρ : Bytes → Str) (fs : Fields) (hm : MirroredFields fs) (w : WField) (hw : w.OK)
    (hlen : w.body.length < 2 ^ 31) (v : fs.Cs) : ∃ r : Except Exn fs.Cs, (w.num ∉ fs.tags → r = .ok v) ∧ ∀ rest,
      csReplaceStep fs.csGetWireType (fun tag wire bs v => fs.csReplaceAt ρ tag wire bs v) v (w.bytes ++ rest) =
        r.map (fun v => (v, rest)) := by
  have hk := csReadKey_any w hw
  have hc : Chunk w.wire w.body := hw.2.2.2.2
  unfold csReplaceStep WField.bytes
  simp only [List.append_assoc, hk]
  cases hwire : w.wire with
  | sized =>
    rw [hwire] at hc
    obtain ⟨payload, _, hp⟩ := csGetNested_any w.body hc hlen
    simp only [bind, Except.bind, hp]
    by_cases hv : fs.csGetWireType w.num = some .varint
    · refine ⟨.ok v, fun _ => rfl, fun rest => ?_⟩
      rw [if_pos hv]; rfl
    · refine ⟨(fs.csReplaceAt ρ w.num .sized payload v).map (·.1), fun h => ?_, fun rest => ?_⟩
      · rw [csReplaceAt_none ρ fs _ h]; rfl
      · rw [if_neg hv]
        cases fs.csReplaceAt ρ w.num .sized payload v <;> rfl
  | varint =>
    rw [hwire] at hc
    obtain ⟨b, hb⟩ := csReadBoolean_any w.body hc
    simp only [bind, Except.bind]
    rcases Option.eq_none_or_eq_some (fs.csGetWireType w.num) with hv | ⟨wire, hv⟩
    · refine ⟨.ok v, fun _ => rfl, fun rest => ?_⟩
      rw [if_neg (by rw [hv]; simp), csReplaceAt_none ρ fs _ (csGetWireType_isSome fs _ hv)]
      simp only [csSkipField, hb, bind, Except.bind]
      rfl
    · cases wire with
      | sized =>
        refine ⟨.ok v, fun _ => rfl, fun rest => ?_⟩
        rw [if_pos hv]
        simp only [csSkipField, hb, bind, Except.bind]
        rfl
      | varint =>
        obtain ⟨v', hv'⟩ := csReplaceAt_varint ρ w.body hc fs hm w.num v hv
        refine ⟨.ok v', fun h => ?_, fun rest => ?_⟩
        · rw [csGetWireType_none fs _ h] at hv; cases hv
        · rw [if_neg (by rw [hv]; simp), hv']; rfl

/-- The loop, field by field. -/
theorem csLoop_cons (ρ : Bytes → Str) (fs : Fields) (hm : MirroredFields fs) (w : WField) (hw : w.OK)
    (hlen : w.body.length < 2 ^ 31) (v : fs.Cs) : ∃ r : Except Exn fs.Cs, (w.num ∉ fs.tags → r = .ok v) ∧ ∀ rest,
      csLoop ρ fs v (w.bytes ++ rest) = r.bind (fun v => csLoop ρ fs v rest) := by
  obtain ⟨r, h1, h2⟩ := csStep_field ρ fs hm w hw hlen v
  refine ⟨r, h1, fun rest => ?_⟩
  have hne : w.bytes ≠ [] := by
    obtain ⟨init, last, hk, _⟩ := hw.2.1
    unfold WField.bytes
    rw [hk]; simp
  unfold csLoop
  have h3 := h2 rest
  cases hbs : w.bytes with
  | nil => exact absurd hbs hne
  | cons b bs =>
    rw [hbs, List.cons_append] at h3
    rw [List.cons_append, List.length_cons]
    simp only [untilEnd, h3]
    cases r with
    | error e => rfl
    | ok v' =>
      exact untilEnd_fuel (fun v bs _ => tame_replaceStep (tameFields ρ fs) v bs) _ _ _ _ (by simp) (Nat.le_refl _)

/-- Unknown fields change nothing. -/
theorem csLoop_unknown (ρ : Bytes → Str) (fs : Fields) (hm : MirroredFields fs) : ∀ (ws : List WField) (v : fs.Cs),
    (∀ w ∈ ws, w.OK ∧ w.body.length < 2 ^ 31) →
    csLoop ρ fs v (wireBytes ws) = csLoop ρ fs v (wireBytes (ws.filter (fun w => w.num ∈ fs.tags)))
  | [], _, _ => rfl
  | w :: ws, v, h => by
    obtain ⟨h1, h2⟩ := h w (by simp)
    have ih := fun v => csLoop_unknown ρ fs hm ws v (fun w h' => h w (by simp [h']))
    obtain ⟨r, h3, h4⟩ := csLoop_cons ρ fs hm w h1 h2 v
    have hw : wireBytes (w :: ws) = w.bytes ++ wireBytes ws := by simp [wireBytes]
    rw [hw, h4]
    by_cases hk : w.num ∈ fs.tags
    · rw [List.filter_cons_of_pos (by simpa using hk)]
      have : wireBytes (w :: ws.filter (fun w => w.num ∈ fs.tags)) = w.bytes ++ wireBytes (ws.filter (fun w => w.num ∈ fs.tags)) := by
        simp [wireBytes]
      rw [this, h4]
      cases r with
      | error e => rfl
      | ok v' => exact ih v'
    · rw [List.filter_cons_of_neg (by simpa using hk), h3 hk]
      exact ih v

end Steit
