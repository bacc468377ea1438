import Verif.Lemmas.Utf8
import Verif.Lemmas.AnyTy

/-! # Strings: property C21 -/

namespace Steit
open Spec

/-- C21: reading a `String` from a payload succeeds exactly if the payload is the UTF-8 encoding of a sequence of Unicode scalar
values; the string then holds precisely these bytes, whatever it held before, and nothing is left unread. -/
theorem C21_accepts_utf8 (m : Mode) (old : Str) (bs : Bytes) (cs : List Nat) (hc : ∀ c ∈ cs, Scalar c) (hb : bs = utf8 cs) :
    ∃ new : Str, Ty.string.dict.merge m old bs = .ok new [] ∧ new.bytes = utf8 cs := by
  have hv : utf8Valid bs = true := by rw [hb]; exact utf8Valid_utf8 cs hc
  refine ⟨⟨bs, hv⟩, ?_, hb⟩
  show (if h : utf8Valid bs = true then Res.ok ⟨bs, h⟩ [] else .err old .invalidData) = _
  rw [dif_pos hv]

/-- C21: anything else is rejected as `InvalidData` and leaves the old string unchanged. -/
theorem C21_rejects_other (m : Mode) (old : Str) (bs : Bytes) (h : ¬ ∃ cs, (∀ c ∈ cs, Scalar c) ∧ bs = utf8 cs) :
    Ty.string.dict.merge m old bs = .err old .invalidData := by
  have hv : ¬ utf8Valid bs = true := fun hv => h (utf8_of_valid bs.length bs (Nat.le_refl _) hv)
  show (if h : utf8Valid bs = true then Res.ok ⟨bs, h⟩ [] else .err old .invalidData) = _
  rw [dif_neg hv]

/-- C21: the text is determined by the bytes. -/
theorem C21_text_unique (cs cs' : List Nat) (h : ∀ c ∈ cs, Scalar c) (h' : ∀ c ∈ cs', Scalar c) (he : utf8 cs = utf8 cs') :
    cs = cs' := utf8_inj cs cs' h h' he

/-- C21: every string a program can hold is the encoding of some text. -/
theorem C21_every_string_is_text (s : Str) : ∃ cs, (∀ c ∈ cs, Scalar c) ∧ s.bytes = utf8 cs :=
  utf8_of_valid s.bytes.length s.bytes (Nat.le_refl _) s.valid

/-- C21 for a `String` nested in other data: the declared bytes decide, what follows is left. -/
theorem C21_nested (m : Mode) (old : Str) (len payload rest : Bytes) (hl : IsVarint len) (h10 : len.length ≤ 10)
    (hv : lebValue len = payload.length) (hp : payload.length < 2 ^ 64) :
    (∃ new : Str, new.bytes = payload ∧ Ty.string.dict.mergeNested m old .sized (len ++ payload ++ rest) = .ok new rest ∧
        ∃ cs, (∀ c ∈ cs, Scalar c) ∧ payload = utf8 cs) ∨
    (Ty.string.dict.mergeNested m old .sized (len ++ payload ++ rest) = .err old .invalidData ∧
        ¬ ∃ cs, (∀ c ∈ cs, Scalar c) ∧ payload = utf8 cs) := by
  have hm : Ty.string.dict.mergeNested m old .sized (len ++ payload ++ rest) =
      match Ty.string.dict.merge m old payload with
      | .ok v' unread => .ok v' (unread ++ rest)
      | .err v' e => .err v' e := by
    unfold Dict.mergeNested
    rw [if_neg (by decide)]
    simp only [withNested]
    rw [List.append_assoc, getVarint_varint m (w := 64) len _ hl (by omega)]
    simp only [BitVec.toNat_ofNat, hv, Nat.mod_eq_of_lt hp, List.take_left, List.drop_left]
    cases Ty.string.dict.merge m old payload <;> rfl
  by_cases h : ∃ cs, (∀ c ∈ cs, Scalar c) ∧ payload = utf8 cs
  · left
    obtain ⟨cs, h1, h2⟩ := h
    obtain ⟨new, h3, h4⟩ := C21_accepts_utf8 m old payload cs h1 h2
    exact ⟨new, by rw [h4, h2], by rw [hm, h3]; rfl, cs, h1, h2⟩
  · right
    exact ⟨by rw [hm, C21_rejects_other m old payload h], h⟩

/-- Not vacuous: "aé€😀" (all four lengths) and, rejected, an overlong slash, a surrogate, a truncated character. -/
example : (∀ c ∈ [0x61, 0xe9, 0x20ac, 0x1f600], Scalar c) ∧
    utf8 [0x61, 0xe9, 0x20ac, 0x1f600] =
      [0x61#8, 0xc3#8, 0xa9#8, 0xe2#8, 0x82#8, 0xac#8, 0xf0#8, 0x9f#8, 0x98#8, 0x80#8] := by
  refine ⟨?_, by decide⟩
  intro c hc
  simp only [List.mem_cons, List.not_mem_nil, or_false] at hc
  unfold Scalar
  omega

example : utf8Valid [0xc0#8, 0xaf#8] = false ∧ utf8Valid [0xed#8, 0xa0#8, 0x80#8] = false ∧ utf8Valid [0xe2#8, 0x82#8] = false ∧
    utf8Valid [0xf4#8, 0x90#8, 0x80#8, 0x80#8] = false := by decide

end Steit
