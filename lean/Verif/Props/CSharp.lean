import Verif.Lemmas.CSharpDecode
import Verif.Lemmas.CSharpReplayTotal
import Verif.Lemmas.CSharpSkip
import Verif.Props.Integers
import Verif.Props.RoundTrip

/-!
# The C# client: properties C44, C45, C54

`csRead…` and `t.csDeserialize` (`Verif/Model/CSharp.lean`) are what the C# client does with bytes, `Shows` (`Verif/Spec/CSharp.lean`)
says that a C# object has the data of a Rust value. `ρ` is what .NET does with invalid UTF-8, about which nothing is assumed.
-/

namespace Steit
open Spec

/-! ## C44 -/

/-- C44, unsigned: C# reads every `u8`..`u64` that Rust writes, and leaves exactly what follows. -/
theorem C44_unsigned (w : Width) (m : Mode) (μ : Prog.Mem) (v : BitVec w.bits) (rest : Bytes) :
    ∃ bytes, (uintDict w).toBytesFrom m μ v = .ok bytes ∧ csReadUInt w (bytes ++ rest) = .ok (v, rest) :=
  ⟨_, toBytes_uint w m μ v, csReadUInt_leb w v rest⟩

/-- C44, bools. -/
theorem C44_bool (m : Mode) (μ : Prog.Mem) (v : Bool) (rest : Bytes) :
    ∃ bytes, boolDict.toBytesFrom m μ v = .ok bytes ∧ csReadBoolean (bytes ++ rest) = .ok (v, rest) := by
  refine ⟨leb v.toNat, ?_, csReadBoolean_leb v rest⟩
  cases v <;> rw [leb_eq_lebF] <;> rfl

/-- C44, signed: C# reads every `i8`, `i16`, `i32` that Rust writes; also every `i64` in `[-2^62, 2^62)`. Missing: the other
`i64`s, on which the claim is false (`C44_int64_iff`). -/
theorem C44_signed_partial (w : Width) (m : Mode) (μ : Prog.Mem) (v : BitVec w.bits) (rest : Bytes)
    (h : w = .w64 → -(2 ^ 62 : Int) ≤ v.toInt ∧ v.toInt < 2 ^ 62) :
    ∃ bytes, (sintDict w).toBytesFrom m μ v = .ok bytes ∧ csReadSInt w (bytes ++ rest) = .ok (v, rest) :=
  ⟨_, toBytes_sint w m μ v, csReadSInt_leb w v rest h⟩

/-- C# and Rust read the same `i64`. -/
theorem csReadSInt64_rust (v : BitVec 64) (rest : Bytes) :
    csReadSInt .w64 (leb (zigzagNat v.toInt) ++ rest) = .ok (unzigzag (zigzag v), rest) := by
  have h := zigzagNat_lt (by decide) v
  unfold csReadSInt
  rw [csReadSigned_leb _ _ h]
  have hz : BitVec.ofNat 64 (zigzagNat v.toInt) = zigzag v := by
    apply BitVec.eq_of_toNat_eq
    rw [BitVec.toNat_ofNat, Nat.mod_eq_of_lt h, zigzag_toNat (by decide)]
  rw [hz]
  simp only [bind, Except.bind, Except.ok.injEq, Prod.mk.injEq, and_true]
  exact BitVec.setWidth_eq _

/-- C44, `i64`: reading succeeds and leaves what follows; it returns the value exactly when it is in `[-2^62, 2^62)`. On `i64`
C# and Rust make the same mistake. -/
theorem C44_int64_iff (m m' : Mode) (μ : Prog.Mem) (v : BitVec 64) (rest : Bytes) :
    ∃ bytes v', (sintDict .w64).toBytesFrom m μ v = .ok bytes ∧ csReadSInt .w64 (bytes ++ rest) = .ok (v', rest) ∧
      (v' = v ↔ -(2 ^ 62 : Int) ≤ v.toInt ∧ v.toInt < 2 ^ 62) ∧
      (sintDict .w64).deserialize m' (bytes ++ rest) = .ok (v', rest) := by
  obtain ⟨bytes, v', h1, h2, h3, _⟩ := C04_signed_roundtrip_iff .w64 m m' μ v rest
  have hb := toBytes_sint .w64 m μ v
  rw [h1] at hb
  cases hb
  refine ⟨_, v', h1, ?_, h3, h2⟩
  have hg : getSigned m' 64 (leb (zigzagNat v.toInt) ++ rest) = .ok (unzigzag (zigzag v), rest) := by
    unfold getSigned
    rw [← zigzag_toNat (by decide) v, getVarint_leb m' _ _ (zigzag v).isLt (by decide)]
    simp only [BitVec.ofNat_toNat, BitVec.setWidth_eq]
  have h4 : (sintDict .w64).deserialize m' (leb (zigzagNat v.toInt) ++ rest) = .ok (unzigzag (zigzag v), rest) := by
    have hg' : getSigned m' Width.w64.bits (leb (zigzagNat v.toInt) ++ rest) = .ok (unzigzag (zigzag v), rest) := hg
    simp only [Dict.deserialize, sintDict, primDict, hg']
  have h5 := h2.symm.trans h4
  simp only [Except.ok.injEq, Prod.mk.injEq, and_true] at h5
  rw [h5]
  exact csReadSInt64_rust v rest

/-- C44: where `i8`, `i16`, `i32` values do not survive in Rust (C04), Rust and C# disagree: from the same bytes C# reads the
value that was written and Rust another one. -/
theorem C44_disagreement (w : Width) (hw : w ≠ .w64) (m m' : Mode) (μ : Prog.Mem) (v : BitVec w.bits) (rest : Bytes)
    (h : ¬ (-(2 ^ (w.bits - 2) : Int) ≤ v.toInt ∧ v.toInt < 2 ^ (w.bits - 2))) :
    ∃ bytes v', (sintDict w).toBytesFrom m μ v = .ok bytes ∧ csReadSInt w (bytes ++ rest) = .ok (v, rest) ∧
      (sintDict w).deserialize m' (bytes ++ rest) = .ok (v', rest) ∧ v' ≠ v := by
  obtain ⟨bytes, v', h1, h2, h3, _⟩ := C04_signed_roundtrip_iff w m m' μ v rest
  obtain ⟨b, g1, g2⟩ := C44_signed_partial w m μ v rest (fun h => absurd h hw)
  cases h1.symm.trans g1
  exact ⟨bytes, v', h1, g2, h2, fun he => h (h3.1 he)⟩

/-- C44, any varint of at most ten bytes, of minimal length or not: C# reads the number it denotes, modulo 2^64. -/
theorem C44_any_varint (enc rest : Bytes) (h : IsVarint enc) (hlen : enc.length ≤ 10) :
    csReadUnsigned (enc ++ rest) = .ok (BitVec.ofNat 64 (lebValue enc), rest) := csReadUnsigned_varint enc rest h hlen

/-- C44: with eleven bytes this is false. `ulong` shifts are taken modulo 64, so what C# reads here is 64, and not 2^70 modulo 2^64. -/
theorem C44_overlong_varint : ∃ enc, IsVarint enc ∧ enc.length = 11 ∧ lebValue enc = 2 ^ 70 ∧
    csReadUnsigned enc = .ok (64#64, []) :=
  ⟨[0x80#8, 0x80#8, 0x80#8, 0x80#8, 0x80#8, 0x80#8, 0x80#8, 0x80#8, 0x80#8, 0x80#8, 1#8], by
    refine ⟨[0x80#8, 0x80#8, 0x80#8, 0x80#8, 0x80#8, 0x80#8, 0x80#8, 0x80#8, 0x80#8, 0x80#8], 1#8, rfl, ?_, ?_⟩ <;> decide,
    rfl, by decide, by decide +kernel⟩

/-- Not vacuous: `100i8` is read by C# as 100, by Rust as -28. -/
example : csReadSInt .w8 [0xc8#8, 0x01#8] = .ok (100#8, []) ∧
    (sintDict .w8).deserialize .release [0xc8#8, 0x01#8] = .ok (BitVec.ofInt 8 (-28), []) := by decide +kernel

/-! ## C45 -/

/-- What `X.Deserialize(reader)` needs in order to work without a path. -/
def Rooted : Ty → Prop
  | .option t => primitive t = true
  | _ => True

theorem csState_eq (t : Ty) : t.isCsState = !primitive t := by
  induction t using Ty.isCsState.induct with
  | case5 t ih => exact ih
  | case6 t h1 h2 h3 h4 h5 => cases t <;> first | rfl | simp_all
  | _ => rfl

theorem csDeserializeRoot_eq (ρ : Bytes → Str) (t : Ty) (h : Rooted t) (bs : Bytes) :
    t.csDeserializeRoot ρ bs = t.csDeserialize ρ bs := by
  cases t with
  | option t =>
    simp only [Ty.csDeserializeRoot]
    rw [if_neg]
    rw [csState_eq, show primitive t = true from h]
    simp
  | _ => rfl

/-- C45: C# reads what Rust wrote as an object with the same data, for all types with a C# counterpart (`Mirrored`) and all values.
Missing, because false (see the theorems below): fields of type parameters that are strings; `i64`s beyond 2^62; an `Option`
of a state at the root. Encodings of 2^31 bytes or more are not readable in C# (`C45_size_limit`). -/
theorem C45_decodes_partial (t : Ty) (ht : t.WF) (hm : Mirrored t) (hr : Rooted t) (ρ : Bytes → Str) (m : Mode) (μ : Prog.Mem)
    (v : t.El) (hl : Legible t v) (hlen : (encode t v).length < 2 ^ 31) :
    ∃ bytes c, t.dict.toBytesFrom m μ v = .ok bytes ∧ t.csDeserializeRoot ρ bytes = .ok (c, []) ∧ Shows t v c := by
  obtain ⟨c, h1, h2⟩ := readable ρ t ht hm v hl hlen
  have := h2 [] (fun _ => rfl)
  rw [List.append_nil] at this
  exact ⟨encode t v, c, toBytes_eq t ht m μ v (legible_writable t hm v hl) (by omega),
    (csDeserializeRoot_eq ρ t hr _).trans this, h1⟩

/-- C45 together with C11: what Rust and C# decode from the same bytes is the same data. -/
theorem C45_decodes_like_rust (t : Ty) (ht : t.WF) (hm : Mirrored t) (hr : Rooted t) (ρ : Bytes → Str) (m m' : Mode)
    (μ : Prog.Mem) (v : t.El) (hc : Carried t v) (hlen : (encode t v).length < 2 ^ 31) :
    ∃ bytes v' c, t.dict.toBytesFrom m μ v = .ok bytes ∧ t.dict.deserialize m' bytes = .ok (v', []) ∧
      t.csDeserializeRoot ρ bytes = .ok (c, []) ∧ Shows t v' c := by
  obtain ⟨bytes, v', h1, h2, h3, _⟩ := C11_roundtrip t ht m m' μ v hc (by omega)
  obtain ⟨b, c, g1, g2, g3⟩ := C45_decodes_partial t ht hm hr ρ m μ v (carried_legible t v hc) hlen
  cases h1.symm.trans g1
  exact ⟨bytes, v', c, h1, h2, g2, (shows_same h3 c).2 g3⟩

/-- Not vacuous: a struct with a list, a map, a generic field, an option and a boxed enum. -/
def csTy : Ty :=
  .struct true false (.cons 0#32 {} (.list (.sint .w8)) (.cons 1#32 {} (.map .u32 .bool) (.cons 2#32 { param := true } (.uint .w16)
    (.cons 3#32 { noState := true } (.option .string) (.cons 4#32 {} (.box (.enum true false .nil
      (.cons 7#32 false (.cons 0#32 {} .bool .nil) .nil))) .nil)))))

/-- A value of it, with an integer that does not survive in Rust. -/
def csVal : csTy.El :=
  ⟨Rt.dflt, ⟨Rt.dflt, [100#8, 3#8]⟩, ⟨Rt.dflt, [(5#32, true), (2#32, false)]⟩, 300#16, some ⟨[97#8], rfl⟩,
    ⟨Rt.dflt, .inr (.inl (true, ()))⟩, ()⟩

/-- Its encoding. -/
def csBytes : Bytes :=
  [2#8, 3#8, 0xc8#8, 1#8, 6#8, 10#8, 4#8, 40#8, 1#8, 16#8, 0#8, 16#8, 0xac#8, 2#8, 26#8, 2#8, 1#8, 97#8, 34#8, 3#8, 7#8, 0#8, 1#8]

theorem csVal_encode : encode csTy csVal = csBytes := by
  simp only [csTy, csVal, encode, encodeFields, encodeVariant, framed, leb_eq_lebF]; decide

/-- C# reads the entries of the map in the order written; 100 is read as 100. -/
example : csTy.WF ∧ Mirrored csTy ∧ Rooted csTy ∧ Legible csTy csVal ∧ (encode csTy csVal).length < 2 ^ 31 ∧
    csTy.csDeserializeRoot (fun _ => ⟨[], rfl⟩) (encode csTy csVal) =
      .ok (([100#8, 3#8], [(2#32, false), (5#32, true)], 300#16, some (some ⟨[97#8], rfl⟩), .inr (.inl (true, ())), ()), []) := by
  refine ⟨?_, ?_, trivial, ?_, ?_, ?_⟩
  · simp [csTy, Ty.WF, Fields.WF, Variants.WF, Fields.tags, Variants.tags, Ty.isState]
  · simp [csTy, Mirrored, MirroredFields, MirroredVariants, GoodField, textual, primitive]
  · simp [csTy, csVal, Legible, LegibleFields, LegibleVariant]
  · rw [csVal_encode]; decide
  · rw [csVal_encode]; rfl

/-- C45 is false for type parameters instantiated with `String`: the generated class takes the field for a varint, and ignores what is
written for it. -/
theorem C45_generic_string_dropped (ρ : Bytes → Str) : ∃ (t : Ty) (v : t.El) (bytes : Bytes) (c : t.Cs), t.WF ∧ Legible t v ∧
    t.dict.toBytesFrom .release (fun _ => 0) v = .ok bytes ∧ t.csDeserializeRoot ρ bytes = .ok (c, []) ∧ ¬ Shows t v c :=
  ⟨.struct false false (.cons 0#32 { param := true } .string .nil), ⟨Rt.dflt, ⟨[97#8], by decide⟩, ()⟩, [2#8, 1#8, 97#8],
    (none, ()), by simp [Ty.WF, Fields.WF, Fields.tags], by simp [Legible, LegibleFields], by decide +kernel, rfl, by
      simp [Shows, ShowsFields]⟩

/-- C45: an empty string field is null in C#, though Rust has no null. -/
theorem C45_empty_string_null (ρ : Bytes → Str) : ∃ (t : Ty) (v : t.El) (bytes : Bytes) (c : (Fields.cons 0#32 {} .string .nil).Cs),
    t = .struct false false (.cons 0#32 {} .string .nil) ∧ t.dict.toBytesFrom .release (fun _ => 0) v = .ok bytes ∧
    (Ty.struct false false (.cons 0#32 {} .string .nil)).csDeserializeRoot ρ bytes = .ok (c, []) ∧ c.1 = none :=
  ⟨.struct false false (.cons 0#32 {} .string .nil), ⟨Rt.dflt, ⟨[], by decide⟩, ()⟩, [], (none, ()), rfl, by decide +kernel,
    rfl, rfl⟩

/-- C45 is false for an `Option` of a state at the root: `None` is read, every `Some` ends in a `NullReferenceException`. -/
theorem C45_root_option (ρ : Bytes → Str) (t : Ty) (ht : t.WF) (hp : primitive t = false) (m : Mode) (μ : Prog.Mem) (x : t.El)
    (hw : Writable t x) (hlen : (encode t x).length < 2 ^ 31) :
    ∃ bytes, (Ty.option t).dict.toBytesFrom m μ (some x) = .ok bytes ∧
      (Ty.option t).csDeserializeRoot ρ bytes = .error .nullReference := by
  have hs : t.isCsState = true := by rw [csState_eq, hp]; rfl
  have hwire : wireOf t = 2 := by
    rcases wireOf_cases t with h | h
    · have := primitive_wire t h; rw [hp] at this; cases this
    · exact h
  have he : encode (.option t) (some x) = leb (encode t x).length ++ encode t x := by
    simp only [encode, framed, hwire, Option.toList_some, List.flatMap_cons, List.flatMap_nil, List.append_nil]
    rw [if_neg (by decide)]
  have hl : (leb (encode t x).length).length ≤ 10 := leb_length_le 9 _ (by omega)
  refine ⟨_, toBytes_eq (.option t) ht m μ (some x) (by simpa [Writable] using hw) (by rw [he, List.length_append]; omega), ?_⟩
  simp only [Ty.csDeserializeRoot]
  have hn := csGetNested_framed (encode t x) [] hlen
  rw [List.append_nil] at hn
  rw [he, if_pos ⟨fun h => leb_ne_nil _ (List.append_eq_nil_iff.1 h).1, hs⟩, hn]

/-- `Some` of a list with one item. -/
example (ρ : Bytes → Str) (μ : Prog.Mem) : ∃ bytes, (Ty.option (.list (.uint .w8))).dict.toBytesFrom .debug μ (some ⟨Rt.dflt, [7#8]⟩) = .ok bytes ∧
    (Ty.option (.list (.uint .w8))).csDeserializeRoot ρ bytes = .error .nullReference :=
  C45_root_option ρ (.list (.uint .w8)) ⟨rfl, trivial⟩ rfl .debug μ ⟨Rt.dflt, [7#8]⟩ (by simp [Writable]) (by decide +kernel)

/-- C45: nested data of 2^31 bytes or more, which Rust writes, ends in an `OverflowException`. -/
theorem C45_size_limit (payload rest : Bytes) (h : 2 ^ 31 ≤ payload.length) (h' : payload.length < 2 ^ 32) :
    csGetNested (leb payload.length ++ payload ++ rest) = .error .overflow := by
  unfold csGetNested csReadSize
  rw [List.append_assoc, csReadUInt32_leb _ _ h']
  have hi : (BitVec.ofNat 32 payload.length).toInt < 0 := by
    rcases toInt_cases (BitVec.ofNat 32 payload.length) with ⟨_, h2, _⟩ | ⟨_, _, hi⟩
    · rw [BitVec.toNat_ofNat, Nat.mod_eq_of_lt h'] at h2; omega
    · rw [hi, BitVec.toNat_ofNat, Nat.mod_eq_of_lt h']; omega
  simp only [bind, Except.bind]
  unfold csTake
  rw [if_neg (by omega), if_pos hi]

/-- Such payloads exist. -/
example : ∃ payload : Bytes, 2 ^ 31 ≤ payload.length ∧ payload.length < 2 ^ 32 :=
  ⟨List.replicate (2 ^ 31) 0#8, by rw [List.length_replicate]; decide, by rw [List.length_replicate]; decide⟩

/-- C45, data written by newer programs: fields the C# class does not know do not matter, whatever varints and payloads they
hold (Rust: C14, where debug builds panic on some). -/
theorem C45_unknown_skipped (ds cached : Bool) (fs : Fields) (hm : Mirrored (.struct ds cached fs)) (ρ : Bytes → Str)
    (ws : List WField) (hw : ∀ w ∈ ws, w.OK ∧ w.body.length < 2 ^ 31) :
    (Ty.struct ds cached fs).csDeserialize ρ (wireBytes ws) =
      (Ty.struct ds cached fs).csDeserialize ρ (wireBytes (ws.filter (fun w => w.num ∈ fs.tags))) := by
  have := csLoop_unknown ρ fs hm ws fs.csNew hw
  unfold csLoop at this
  simp only [Ty.csDeserialize, this]

/-- C45 for values written by newer programs: whatever unknown fields are strewn between those of a written struct, C# reads
an object with its data. -/
theorem C45_reads_newer (ds cached : Bool) (fs : Fields) (hwf : (Ty.struct ds cached fs).WF) (hm : Mirrored (.struct ds cached fs))
    (ρ : Bytes → Str) (v : (Ty.struct ds cached fs).El) (hl : Legible (.struct ds cached fs) v)
    (hlen : (encode (.struct ds cached fs) v).length < 2 ^ 31) (ws : List WField) (hw : ∀ w ∈ ws, w.OK ∧ w.body.length < 2 ^ 31)
    (hk : ws.filter (fun w => w.num ∈ fs.tags) = fieldsOf fs v.fields) :
    ∃ c, (Ty.struct ds cached fs).csDeserializeRoot ρ (wireBytes ws) = .ok (c, []) ∧ Shows (.struct ds cached fs) v c := by
  obtain ⟨c, h1, h2⟩ := readable ρ _ hwf hm v hl hlen
  have := h2 [] (fun _ => rfl)
  rw [List.append_nil] at this
  refine ⟨c, ?_, h1⟩
  rw [csDeserializeRoot_eq ρ (.struct ds cached fs) trivial, C45_unknown_skipped ds cached fs hm ρ ws hw, hk]
  have hb : encode (.struct ds cached fs) v = wireBytes (fieldsOf fs v.fields) :=
    (fieldsOf_ok fs ds hwf.2 v.fields (by have := hlen; simp only [encode] at this; omega)).2
  rw [← hb]
  exact this

/-- Not vacuous: a known field between an unknown varint of eleven bytes and an unknown payload. -/
example : ∃ ws : List WField, (∀ w ∈ ws, w.OK ∧ w.body.length < 2 ^ 31) ∧
    ws.filter (fun w => w.num ∈ (Fields.cons 1#32 {} .bool .nil).tags) =
      fieldsOf (.cons 1#32 {} .bool .nil) (true, ()) ∧ ws.length = 3 :=
  ⟨[⟨3#32, .varint, [0x18#8], List.replicate 10 0x80#8 ++ [1#8]⟩, ⟨1#32, .varint, [8#8], [1#8]⟩,
      ⟨2#32, .sized, [0x12#8], [1#8, 0xff#8]⟩], by
    simp only [List.mem_cons, List.not_mem_nil, or_false]
    rintro w (rfl | rfl | rfl)
    · exact ⟨⟨by decide, ⟨[], 0x18#8, rfl, by simp, by decide⟩, by decide, by decide, ⟨List.replicate 10 0x80#8, 1#8, rfl, by decide, by decide⟩⟩,
        by decide⟩
    · exact ⟨⟨by decide, ⟨[], 8#8, rfl, by simp, by decide⟩, by decide, by decide, ⟨[], 1#8, rfl, by simp, by decide⟩⟩, by decide⟩
    · exact ⟨⟨by decide, ⟨[], 0x12#8, rfl, by simp, by decide⟩, by decide, by decide,
        ⟨[1#8], [0xff#8], rfl, ⟨[], 1#8, rfl, by simp, by decide⟩, by decide, by decide, by decide⟩⟩, by decide⟩,
    by simp only [fieldsOf, encode, leftOut, leb_eq_lebF, framed]; decide, rfl⟩

theorem csVariant_unknown (ρ : Bytes → Str) : (vs : Variants) → (tag : U32) → tag ∉ vs.tags → ∀ bs, vs.csVariant ρ tag bs = .ok none
  | .nil, _, _, _ => rfl
  | .cons tag' _ _ vs, tag, h, bs => by
    simp only [Variants.tags, List.mem_cons, not_or] at h
    simp only [Variants.csVariant, if_neg h.1]
    rw [csVariant_unknown ρ vs tag h.2 bs]
    rfl

theorem ctor_unknown (ds : Bool) : (vs : Variants) → (tag : U32) → tag ∉ vs.tags → ∀ rt, (vs.dict ds).ctor tag rt = none
  | .nil, _, _, _ => rfl
  | .cons tag' _ fs vs, tag, h, rt => by
    simp only [Variants.tags, List.mem_cons, not_or] at h
    show (if tag = tag' then some (Sum.inl ((fs.dict ds).init rt)) else ((vs.dict ds).ctor tag rt).map .inr) = none
    rw [if_neg h.1, ctor_unknown ds vs tag h.2 rt]
    rfl

theorem enumMerge_unknown {γ : Type} (ds : Bool) (vs : VariantsD γ) (m : Mode) (v : EnumV γ) (bs : Bytes) {tag : U32} {rest : Bytes}
    (hg : getVarint m 32 bs = .ok (tag, rest)) (ht : tag ≠ vs.tagOf v.val) (hc : ∀ rt, vs.ctor tag rt = none) :
    enumMerge ds vs m v bs = .err v .invalidData := by
  unfold enumMerge
  rw [hg]
  simp only [if_neg ht, hc]
  cases ds with
  | true => cases v.rt.parent <;> rfl
  | false => rfl

/-- C45, data written by newer programs: a variant the C# class does not know is silently read as the default variant; Rust reports
an error. -/
theorem C45_unknown_variant (ds cached : Bool) (fs : Fields) (vs : Variants) (ρ : Bytes → Str) (m : Mode) (tag : U32)
    (h0 : tag ≠ 0#32) (ht : tag ∉ vs.tags) (payload : Bytes) :
    (Ty.enum ds cached fs vs).csDeserializeRoot ρ (leb tag.toNat ++ payload) = .ok (.inl fs.csNew, []) ∧
      (Ty.enum ds cached fs vs).dict.deserialize m (leb tag.toNat ++ payload) = .error .invalidData := by
  have hn : BitVec.ofNat 32 tag.toNat = tag := by rw [BitVec.ofNat_toNat, BitVec.setWidth_eq]
  constructor
  · simp only [Ty.csDeserializeRoot, Ty.csDeserialize]
    rw [csReadUInt32_leb _ _ tag.isLt, hn]
    simp only [bind, Except.bind, if_neg h0, csVariant_unknown ρ vs tag ht]
  · have hc : ∀ rt, (variantsCons 0#32 cached (fs.dict ds) (vs.dict ds)).ctor tag rt = none := by
      intro rt
      show (if tag = 0#32 then some (Sum.inl ((fs.dict ds).init rt)) else ((vs.dict ds).ctor tag rt).map .inr) = none
      rw [if_neg h0, ctor_unknown ds vs tag ht rt]
      rfl
    have hg : getVarint m 32 (leb tag.toNat ++ payload) = .ok (tag, payload) := by
      rw [getVarint_leb m _ _ tag.isLt (by decide), hn]
    cases ds with
    | true =>
      have := enumMerge_unknown true (γ := fs.El ⊕ vs.El) _ m ⟨Rt.dflt.nested 0#32, .inl ((fs.dict true).init (some (Rt.dflt.nested 0#32)))⟩
        (leb tag.toNat ++ payload) hg h0 hc
      have hm : (Ty.enum true cached fs vs).dict.merge m (Ty.enum true cached fs vs).dict.dflt (leb tag.toNat ++ payload) =
        .err _ .invalidData := this
      unfold Dict.deserialize
      rw [hm]
    | false =>
      have := enumMerge_unknown false (γ := fs.El ⊕ vs.El) _ m ⟨Rt.dflt, .inl ((fs.dict false).init none)⟩
        (leb tag.toNat ++ payload) hg h0 hc
      have hm : (Ty.enum false cached fs vs).dict.merge m (Ty.enum false cached fs vs).dict.dflt (leb tag.toNat ++ payload) =
        .err _ .invalidData := this
      unfold Dict.deserialize
      rw [hm]

/-- Variant 5 of an enum that has variants 0 and 1. -/
example (ρ : Bytes → Str) (m : Mode) : ∃ t : Ty, t = .enum true false (.cons 0#32 {} (.uint .w32) .nil) (.cons 1#32 true .nil .nil) ∧
    (∃ c, t.csDeserializeRoot ρ [5, 0, 9] = .ok (c, [])) ∧ t.dict.deserialize m [5, 0, 9] = .error .invalidData := by
  have h : ([5, 0, 9] : Bytes) = leb (5#32 : U32).toNat ++ [0, 9] := by decide +kernel
  refine ⟨_, rfl, ?_⟩
  rw [h]
  have := C45_unknown_variant true false (.cons 0#32 {} (.uint .w32) .nil) (.cons 1#32 true .nil .nil) ρ m 5#32 (by decide) (by decide) [0, 9]
  exact ⟨⟨_, this.1⟩, this.2⟩

/-! ## C54 -/

/-- C54: whatever the bytes, decoding them in C# comes to an end, with an object or an exception, and leaves no more than it was
given. -/
theorem C54_decoding_ends (ρ : Bytes → Str) (t : Ty) (bs : Bytes) : t.csDeserializeRoot ρ bs ≠ .error .stuck ∧
    ∀ c rest, t.csDeserializeRoot ρ bs = .ok (c, rest) → rest.length ≤ bs.length := by
  have key : Tame bs 0 (t.csDeserializeRoot ρ bs) := by
    have h := fun t' : Ty => (tameTy ρ t' bs).weaken (Nat.zero_le _)
    cases t with
    | option t =>
      simp only [Ty.csDeserializeRoot]
      split
      · split
        · next e he =>
          have := tame_nested bs
          rw [he] at this
          exact this
        · exact (by decide : Exn.nullReference ≠ Exn.stuck)
      · exact h (.option t)
    | _ => exact h _
  refine ⟨key.ends, fun c rest he => ?_⟩
  rw [he] at key
  exact key

/-- C54: nor do the loops depend on the fuel the model gives them: with any more they return the same. -/
theorem C54_fuel_independent (ρ : Bytes → Str) (fs : Fields) (v : fs.Cs) (bs : Bytes) (n : Nat) (h : bs.length ≤ n) :
    untilEnd (csReplaceStep fs.csGetWireType (fun tag wire bs v => fs.csReplaceAt ρ tag wire bs v)) n v bs =
      untilEnd (csReplaceStep fs.csGetWireType (fun tag wire bs v => fs.csReplaceAt ρ tag wire bs v)) bs.length v bs :=
  untilEnd_fuel (fun v bs _ => tame_replaceStep (tameFields ρ fs) v bs) _ _ _ _ h (Nat.le_refl _)

/-- C54: replaying any bytes on any object comes to an end. -/
theorem C54_replay_ends (ρ : Bytes → Str) (t : Ty) (v : t.Cs) (bs : Bytes) : t.csReplay ρ v bs ≠ .error .stuck :=
  untilEnd_total (fun v bs _ => tame_replayStep ρ t v bs) _ _ _ (Nat.le_refl _)

/-- Not vacuous: a loop whose body consumes nothing is stuck. -/
example (b : Byte) (bs : Bytes) (n : Nat) : untilEnd (fun (_ : Unit) bs => .ok ((), bs)) n () (b :: bs) = .error .stuck := by
  induction n with
  | zero => rfl
  | succ n ih => exact ih

end Steit
