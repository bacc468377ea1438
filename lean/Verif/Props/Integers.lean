import Verif.Lemmas.DecTy
import Verif.Lemmas.VarintAny

/-!
# Integers, bools and tags: properties C01 to C07

`(uintDict w)`, `(sintDict w)` and `boolDict` are the trait implementations of `u8`..`u64`, `i8`..`i64` and `bool`;
`toBytesFrom m μ v` is what `v.to_bytes()` returns in build mode `m`, `sizeFrom` what `v.compute_size()` returns,
`deserialize m bytes` the decoded value and the unread bytes. `leb`, `lebValue`, `IsVarint`, `zigzagNat`
(`Verif/Spec/Leb128.lean`) are plain arithmetic.
-/

namespace Steit
open Spec

theorem toBytes_uint (w : Width) (m : Mode) (μ : Prog.Mem) (v : BitVec w.bits) :
    (uintDict w).toBytesFrom m μ v = .ok (leb v.toNat) := by
  rw [← putVarint_eq_leb w.le_bits]; rfl

theorem toBytes_sint (w : Width) (m : Mode) (μ : Prog.Mem) (v : BitVec w.bits) :
    (sintDict w).toBytesFrom m μ v = .ok (leb (zigzagNat v.toInt)) := by
  rw [← zigzag_toNat (by have := w.le_bits; omega), ← putVarint_eq_leb w.le_bits]; rfl

/-! ## C01 -/

/-- C01: what `to_bytes` writes for an unsigned integer, followed by anything, is read back as that integer, leaving
exactly what followed; also when merged over an old value. -/
theorem C01_unsigned_roundtrip (w : Width) (m m' : Mode) (μ : Prog.Mem) (v old : BitVec w.bits) (rest : Bytes) :
    ∃ bytes, (uintDict w).toBytesFrom m μ v = .ok bytes ∧
      (uintDict w).deserialize m' (bytes ++ rest) = .ok (v, rest) ∧
      (uintDict w).merge m' old (bytes ++ rest) = .ok v rest := by
  have hg : getVarint m' w.bits (leb v.toNat ++ rest) = .ok (v, rest) := by
    rw [getVarint_leb m' _ _ v.isLt (by have := w.le_bits; omega)]; simp
  refine ⟨_, toBytes_uint w m μ v, ?_, ?_⟩
  · simp only [Dict.deserialize, uintDict, primDict, hg]
  · simp only [uintDict, primDict, hg]

/-- Not vacuous: `300u16` is written as `[0xac, 0x02]`. -/
example : (uintDict .w16).toBytesFrom .debug (fun _ => 7) 300#16 = .ok [0xac#8, 0x02#8] := by decide

/-! ## C02 -/

/-- C02, unsigned: `compute_size` is the number of bytes written, these bytes denote the value, and no shorter terminated
varint denotes it. -/
theorem C02_unsigned_size (w : Width) (m m' : Mode) (μ μ' : Prog.Mem) (v : BitVec w.bits) :
    ∃ bytes, (uintDict w).toBytesFrom m μ v = .ok bytes ∧ (uintDict w).sizeFrom m' μ' v = .ok bytes.length ∧
      IsVarint bytes ∧ lebValue bytes = v.toNat ∧
      ∀ other, IsVarint other → lebValue other = v.toNat → bytes.length ≤ other.length := by
  refine ⟨_, toBytes_uint w m μ v, ?_, leb_isVarint _, lebValue_leb _, ?_⟩
  · show Except.ok (uintSize w v) = _
    rw [uintSize_eq, putVarint_eq_leb w.le_bits]
  · intro other ho hv
    rw [← hv]
    exact leb_minimal other ho

/-- C02, signed: the same, the bytes denoting the zigzag number of the value. -/
theorem C02_signed_size (w : Width) (m m' : Mode) (μ μ' : Prog.Mem) (v : BitVec w.bits) :
    ∃ bytes, (sintDict w).toBytesFrom m μ v = .ok bytes ∧ (sintDict w).sizeFrom m' μ' v = .ok bytes.length ∧
      IsVarint bytes ∧ lebValue bytes = zigzagNat v.toInt ∧
      ∀ other, IsVarint other → lebValue other = zigzagNat v.toInt → bytes.length ≤ other.length := by
  refine ⟨_, toBytes_sint w m μ v, ?_, leb_isVarint _, lebValue_leb _, ?_⟩
  · show Except.ok (sintSize w v) = _
    unfold sintSize
    rw [uintSize_eq, putVarint_eq_leb w.le_bits, zigzag_toNat (by have := w.le_bits; omega)]
  · intro other ho hv
    rw [← hv]
    exact leb_minimal other ho

/-- Not vacuous: the boundary `2^14` of `u64` takes three bytes, `-65` as `i16` takes two. -/
example : (uintDict .w64).sizeFrom .release (fun _ => 0) 16384#64 = .ok 3 ∧
    (sintDict .w16).sizeFrom .debug (fun _ => 0) (-65#16) = .ok 2 := by decide

/-! ## C03 -/

/-- C03: encodings are prefix-free: if the encodings of `a` and `b` both start the same stream then `a = b`. -/
theorem C03_prefix_free (w : Width) (m m' : Mode) (μ μ' : Prog.Mem) (a b : BitVec w.bits) (ea eb ra rb : Bytes)
    (ha : (uintDict w).toBytesFrom m μ a = .ok ea) (hb : (uintDict w).toBytesFrom m' μ' b = .ok eb)
    (h : ea ++ ra = eb ++ rb) : a = b ∧ ra = rb := by
  rw [toBytes_uint] at ha hb
  cases ha; cases hb
  have h1 : getVarint .debug w.bits (leb a.toNat ++ ra) = .ok (a, ra) := by
    rw [getVarint_leb .debug _ _ a.isLt (by have := w.le_bits; omega)]; simp
  have h2 : getVarint .debug w.bits (leb b.toNat ++ rb) = .ok (b, rb) := by
    rw [getVarint_leb .debug _ _ b.isLt (by have := w.le_bits; omega)]; simp
  rw [h, h2] at h1
  simp only [Except.ok.injEq, Prod.mk.injEq] at h1
  exact ⟨h1.1.symm, h1.2.symm⟩

/-- Not vacuous: two values with encodings sharing their first byte. -/
example : (uintDict .w16).toBytesFrom .debug (fun _ => 0) 128#16 = .ok [0x80#8, 1#8] ∧
    (uintDict .w16).toBytesFrom .debug (fun _ => 0) 256#16 = .ok [0x80#8, 2#8] := by decide

/-! ## C04 -/

/-- C04, exactly when a signed integer survives: deserializing what was serialized succeeds and leaves what followed; it
returns the value itself iff `-2^(N-2) ≤ v < 2^(N-2)`, and otherwise a value off by `2^(N-1)`. -/
theorem C04_signed_roundtrip_iff (w : Width) (m m' : Mode) (μ : Prog.Mem) (v : BitVec w.bits) (rest : Bytes) :
    ∃ bytes v', (sintDict w).toBytesFrom m μ v = .ok bytes ∧
      (sintDict w).deserialize m' (bytes ++ rest) = .ok (v', rest) ∧
      (v' = v ↔ -(2 ^ (w.bits - 2) : Int) ≤ v.toInt ∧ v.toInt < 2 ^ (w.bits - 2)) ∧
      (v.toInt ≥ 2 ^ (w.bits - 2) → v'.toInt = v.toInt - 2 ^ (w.bits - 1)) ∧
      (v.toInt < -(2 ^ (w.bits - 2) : Int) → v'.toInt = v.toInt + 2 ^ (w.bits - 1)) := by
  have hw := w.le_bits
  have hg : getSigned m' w.bits (leb (zigzagNat v.toInt) ++ rest) = .ok (unzigzag (zigzag v), rest) := by
    unfold getSigned
    rw [← zigzag_toNat (by omega) v, getVarint_leb m' _ _ (zigzag v).isLt (by omega)]
    simp only [BitVec.ofNat_toNat, BitVec.setWidth_eq]
  have hz := unzigzag_zigzag_toInt (by omega) v
  have h1 : ((2 ^ (w.bits - 2) : Nat) : Int) = 2 ^ (w.bits - 2) := by simp
  have h2 : ((2 ^ (w.bits - 1) : Nat) : Int) = 2 ^ (w.bits - 1) := by simp
  have h3 : (0 : Int) < 2 ^ (w.bits - 1) := Int.pow_pos (by decide)
  have h4 : (0 : Int) < 2 ^ (w.bits - 2) := Int.pow_pos (by decide)
  rw [h1, h2] at hz
  refine ⟨_, unzigzag (zigzag v), toBytes_sint w m μ v, ?_, ?_, ?_, ?_⟩
  · simp only [Dict.deserialize, sintDict, primDict, hg]
  · constructor
    · intro he
      rw [he] at hz
      generalize (2 : Int) ^ (w.bits - 1) = X at *
      generalize (2 : Int) ^ (w.bits - 2) = Y at *
      split at hz
      · omega
      · split at hz <;> omega
    · intro hr
      apply BitVec.eq_of_toInt_eq
      rw [hz, if_neg (by omega), if_neg (by omega)]
  · intro hr
    rw [hz, if_pos hr]
  · intro hr
    rw [hz, if_neg (by omega), if_pos hr]

/-- C04, the part that holds. Missing: the other half of the values, on which the claim is false (next theorem). -/
theorem C04_signed_roundtrip_partial (w : Width) (m m' : Mode) (μ : Prog.Mem) (v : BitVec w.bits) (rest : Bytes)
    (h : -(2 ^ (w.bits - 2) : Int) ≤ v.toInt ∧ v.toInt < 2 ^ (w.bits - 2)) :
    ∃ bytes, (sintDict w).toBytesFrom m μ v = .ok bytes ∧
      (sintDict w).deserialize m' (bytes ++ rest) = .ok (v, rest) := by
  obtain ⟨bytes, v', h1, h2, h3, _⟩ := C04_signed_roundtrip_iff w m m' μ v rest
  rw [h3.2 h] at h2
  exact ⟨bytes, h1, h2⟩

/-- C04, the claim as one would want it is false: `64i8` comes back as `-64`. -/
theorem C04_signed_roundtrip_false :
    ¬ ∀ (w : Width) (m : Mode) (μ : Prog.Mem) (v : BitVec w.bits), ∃ bytes,
      (sintDict w).toBytesFrom m μ v = .ok bytes ∧ (sintDict w).deserialize m bytes = .ok (v, []) := by
  intro h
  obtain ⟨bytes, h1, h2⟩ := h .w8 .debug (fun _ => 0) 64#8
  have h3 : (sintDict .w8).toBytesFrom .debug (fun _ => 0) 64#8 = .ok [0x80#8, 1#8] := by decide
  rw [h3] at h1
  cases h1
  revert h2
  decide

/-- Not vacuous, on both sides of the boundary: `63i8` and `-64i8` survive, `64i8` becomes `-64`, `i32::MIN` becomes 0. -/
example :
    (sintDict .w8).deserialize .debug [126#8] = .ok (63#8, []) ∧
    (sintDict .w8).deserialize .debug [127#8] = .ok (-64#8, []) ∧
    (sintDict .w8).deserialize .debug [0x80#8, 1#8] = .ok (-64#8, []) ∧
    (sintDict .w32).toBytesFrom .debug (fun _ => 0) (BitVec.intMin 32) =
      .ok [0xff#8, 0xff#8, 0xff#8, 0xff#8, 0x0f#8] ∧
    (sintDict .w32).deserialize .debug [0xff#8, 0xff#8, 0xff#8, 0xff#8, 0x0f#8] = .ok (0#32, []) := by decide

/-! ## C05 -/

/-- C05: every input starts with a terminated varint or has no terminating byte. With `k` bytes to the end of the varint:
if `k ≤ ⌈width/7⌉` the result is the number denoted, modulo `2^width`, and exactly the varint is consumed; if the varint is
longer, a debug build panics and a release build still consumes exactly the varint; if there is no terminating byte the
result is `UnexpectedEof` (or a panic in a debug build if there are more than `⌈width/7⌉` bytes). An unsuccessful read
leaves the target unchanged. -/
theorem C05_every_varint (w : Width) (old : BitVec w.bits) (bs : Bytes) :
    ((∃ enc rest, bs = enc ++ rest ∧ IsVarint enc ∧
        (enc.length ≤ (w.bits + 6) / 7 → ∀ m,
          (uintDict w).merge m old bs = .ok (BitVec.ofNat w.bits (lebValue enc)) rest) ∧
        ((w.bits + 6) / 7 < enc.length →
          (uintDict w).merge .debug old bs = .err old .panic ∧
          ∃ v, (uintDict w).merge .release old bs = .ok v rest)) ∨
      ((∀ b ∈ bs, 128 ≤ b.toNat) ∧
        (uintDict w).merge .release old bs = .err old .unexpectedEof ∧
        (uintDict w).merge .debug old bs =
          .err old (if bs.length ≤ (w.bits + 6) / 7 then .unexpectedEof else .panic))) := by
  have hw := w.le_bits
  rcases varint_cases bs with ⟨enc, rest, rfl, hv⟩ | h
  · left
    refine ⟨enc, rest, rfl, hv, ?_, ?_⟩
    · intro hl m
      simp only [uintDict, primDict, getVarint_varint m enc rest hv (w := w.bits) (by omega)]
    · intro hl
      obtain ⟨init, last, rfl, h2, h3⟩ := hv
      rw [List.append_assoc, List.singleton_append]
      simp only [List.length_append, List.length_singleton] at hl
      obtain ⟨v, hv⟩ := getLoop_release (w := w.bits) init last rest h2 h3 0#w.bits 0
      refine ⟨?_, v, ?_⟩
      · simp only [uintDict, primDict, getVarint,
          getLoop_debug_panic (w := w.bits) init last rest h2 0#w.bits 0 (by omega)]
      · simp only [uintDict, primDict, getVarint, hv]
  · right
    refine ⟨h, ?_, ?_⟩
    · simp only [uintDict, primDict, getVarint, getLoop_eof .release bs h 0#w.bits 0 (.inl rfl)]
    · by_cases hl : bs.length ≤ (w.bits + 6) / 7
      · rw [if_pos hl]
        simp only [uintDict, primDict, getVarint, getLoop_eof .debug bs h 0#w.bits 0 (.inr (by omega))]
      · rw [if_neg hl]
        rcases List.eq_nil_or_concat bs with rfl | ⟨init, last, rfl⟩
        · exact absurd (Nat.zero_le _) hl
        · rw [List.concat_eq_append] at h hl ⊢
          simp only [List.length_append, List.length_singleton] at hl
          have hp := getLoop_debug_panic (w := w.bits) init last [] (fun b hb => h b (by simp [hb])) 0#w.bits 0
            (by omega)
          simp only [uintDict, primDict, getVarint, hp]

/-- Not vacuous: a non-canonical two-byte zero; a `u8` varint whose high bits are dropped; three bytes for a `u8`. -/
example :
    (uintDict .w32).merge .debug 5#32 [0x80#8, 0#8, 9#8] = .ok 0#32 [9#8] ∧
    (uintDict .w8).merge .debug 5#8 [0xff#8, 0x7f#8] = .ok 0xff#8 [] ∧
    (uintDict .w8).merge .debug 5#8 [0x80#8, 0x80#8, 1#8] = .err 5#8 .panic ∧
    (uintDict .w8).merge .release 5#8 [0x80#8, 0x80#8, 1#8] = .ok 64#8 [] ∧
    (uintDict .w8).merge .debug 5#8 [0x80#8, 0x80#8] = .err 5#8 .unexpectedEof := by
  refine ⟨?_, ?_, ?_, ?_, ?_⟩ <;> rfl

/-! ## C06 -/

/-- C06, writing: a bool takes one byte and is read back. -/
theorem C06_bool_roundtrip (m m' : Mode) (μ : Prog.Mem) (v old : Bool) (rest : Bytes) :
    ∃ bytes, boolDict.toBytesFrom m μ v = .ok bytes ∧ boolDict.sizeFrom m μ v = .ok bytes.length ∧
      boolDict.merge m' old (bytes ++ rest) = .ok v rest := by
  cases v
  · exact ⟨[0#8], rfl, rfl, rfl⟩
  · exact ⟨[1#8], rfl, rfl, rfl⟩

/-- C06, reading: any terminated varint, of any length, is read as whether it denotes a non-zero number, in every build;
without a terminating byte the read fails and the target is unchanged. -/
theorem C06_bool_any_varint (m : Mode) (old : Bool) (bs : Bytes) :
    (∃ enc rest, bs = enc ++ rest ∧ IsVarint enc ∧ boolDict.merge m old bs = .ok (decide (lebValue enc ≠ 0)) rest) ∨
      ((∀ b ∈ bs, 128 ≤ b.toNat) ∧ boolDict.merge m old bs = .err old .unexpectedEof) := by
  rcases varint_cases bs with ⟨enc, rest, rfl, hv⟩ | h
  · left
    refine ⟨enc, rest, rfl, hv, ?_⟩
    obtain ⟨init, last, rfl, h2, h3⟩ := hv
    rw [List.append_assoc, List.singleton_append]
    simp only [boolDict, primDict, getBool, getBoolLoop_varint init last rest h2 h3, Bool.false_or]
  · right
    exact ⟨h, by simp only [boolDict, primDict, getBool, getBoolLoop_eof bs h]⟩

/-- Not vacuous: a twelve-byte varint (longer than any integer) denoting a non-zero number. -/
example : boolDict.merge .debug false (List.replicate 11 0x80#8 ++ [1#8, 3#8]) = .ok true [3#8] := rfl

/-! ## C07 -/

/-- C07, writing: `tag(n, wt)` succeeds exactly for `n ≤ 2^29 - 1` and is then `8 n + wt`. -/
theorem C07_tag (n : U32) (wt : WireType) :
    (∀ t, mkTag n wt = .ok t ↔ n.toNat ≤ 2 ^ 29 - 1 ∧ t.toNat = 8 * n.toNat + wt.num) ∧
    (2 ^ 29 - 1 < n.toNat → mkTag n wt = .error .invalidData) := by
  constructor
  · intro t
    by_cases h : n.toNat < 2 ^ 29
    · obtain ⟨t', h1, h2⟩ := mkTag_ok n wt h
      rw [h1]
      constructor
      · intro he; cases he; omega
      · intro he
        have : t' = t := BitVec.eq_of_toNat_eq (by omega)
        rw [this]
    · rw [mkTag_err n wt h]
      constructor
      · intro he; cases he
      · intro he; omega
  · intro h
    exact mkTag_err n wt (by omega)

/-- C07, reading: `parse_tag` inverts `tag`, and accepts exactly the values `tag` produces. -/
theorem C07_parse_tag (v n : U32) (wt : WireType) : parseTag v = .ok (n, wt) ↔ mkTag n wt = .ok v := by
  rw [(C07_tag n wt).1]
  constructor
  · intro h
    have h1 := parseTag_inv h
    have := v.isLt
    omega
  · intro h
    exact parseTag_ok v n wt (by omega)

/-- C07: any other value is refused with `InvalidData`. -/
theorem C07_parse_tag_refuses (v : U32) :
    (∃ n wt, parseTag v = .ok (n, wt)) ∨
      (parseTag v = .error .invalidData ∧ ∀ wt : WireType, v.toNat % 8 ≠ wt.num) := by
  by_cases h0 : v.toNat % 8 = 0
  · left
    refine ⟨v >>> 3, .varint, parseTag_ok _ _ _ ?_⟩
    rw [BitVec.toNat_ushiftRight, Nat.shiftRight_eq_div_pow]; simp only [WireType.num]; omega
  · by_cases h2 : v.toNat % 8 = 2
    · left
      refine ⟨v >>> 3, .sized, parseTag_ok _ _ _ ?_⟩
      rw [BitVec.toNat_ushiftRight, Nat.shiftRight_eq_div_pow]; simp only [WireType.num]; omega
    · right
      refine ⟨parseTag_err ⟨h0, h2⟩, ?_⟩
      intro wt; cases wt <;> assumption

/-- Not vacuous: the largest field number, one beyond it, and an unknown wire type. -/
example : mkTag 0x1fffffff#32 .sized = .ok 0xfffffffa#32 ∧ mkTag 0x20000000#32 .sized = .error .invalidData ∧
    parseTag 0xfffffffa#32 = .ok (0x1fffffff#32, .sized) ∧ parseTag 5#32 = .error .invalidData := by decide

end Steit
