import Verif.Lemmas.Limit
import Verif.Lemmas.Chunks
import Verif.Props.RoundTrip

/-!
# The 4 GiB limit: property C83

Sizes are `u32`. The theorems on serialization assume that a value has less than 4 GiB of bytes; here is what happens without this
assumption. `Spec.encode32` is the encoding with sizes cut to 32 bits, `Spec.summed` the size a debug build arrives at, which panics
instead of cutting sums (`Verif/Spec/Limit.lean`).
-/

namespace Steit
open Spec Prog

/-! ## Release builds -/

theorem sound_toBytes32 (t : Ty) (ht : t.WF) (v : t.El) (hw : Writable t v) :
    Sound (cells32 t v) (fun _ => False) (t.dict.toBytes .release v) (fun _ bs => bs = encode32 t v) := by
  have h := wrapLaw t ht
  have ha : Agrees (cells32 t v) [] (cells32 t v) := fun rel => by simp
  unfold Dict.toBytes Dict.steitSerialize
  refine Sound.unwrap ?_
  refine Sound.bind (h.cacheSize [] v _ _ hw ha) ?_
  intro K n _ hn
  exact h.ser [] v _ _ hw ha hn.2.below

/-- C83, release builds: however large a value is, `to_bytes` succeeds and writes the encoding with lengths cut to 32 bits, and
`compute_size` returns its size cut to 32 bits. -/
theorem C83_release_writes (t : Ty) (ht : t.WF) (μ : Mem) (v : t.El) (hw : Writable t v) :
    t.dict.toBytesFrom .release μ v = .ok (encode32 t v) ∧
      t.dict.sizeFrom .release μ v = .ok ((encode32 t v).length % 2 ^ 32) := by
  constructor
  · obtain ⟨K, a, h1, h2, _⟩ := (sound_toBytes32 t ht v hw).run (μ := μ) (fun _ h => h.elim)
    unfold Dict.toBytesFrom
    rw [h2, h1]
  · have ha : Agrees (cells32 t v) [] (cells32 t v) := fun rel => by simp
    obtain ⟨K, a, h1, h2, _⟩ :=
      ((wrapLaw t ht).size [] v _ (fun _ => False) hw ha).run (μ := μ) (fun _ h => h.elim)
    unfold Dict.sizeFrom
    rw [h2, h1.1]

/-- C83, release builds: the total may well exceed 4 GiB. As long as everything inside the value fits, the bytes are those of
`Spec.encode`, and a reader of either build gets the value back. -/
theorem C83_release_roundtrip (t : Ty) (ht : t.WF) (m' : Mode) (μ : Mem) (v : t.El) (hc : Carried t v)
    (hin : ∀ o ∈ (objects t v).tail, (encode o.1 o.2).length < 2 ^ 32) (hlen : (encode t v).length < 2 ^ 63) :
    t.dict.toBytesFrom .release μ v = .ok (encode t v) ∧
      ∃ v', t.dict.deserialize m' (encode t v) = .ok (v', []) ∧ Same t v' v ∧ t.eq v' v = true := by
  refine ⟨?_, ?_⟩
  · rw [(C83_release_writes t ht μ v (carried_writable t v hc)).1, encode32_inner t v hin]
  · obtain ⟨v', h1, h2⟩ := (decLaw t ht).roundWide m' Rt.dflt v [] hc hlen (fun _ => rfl)
    refine ⟨v', ?_, h2, eq_of_same h2 hc⟩
    unfold Dict.deserialize
    rw [(decLaw t ht).dflt_eq]
    rw [List.append_nil] at h1
    rw [h1]

theorem framed_two (b : Bytes) : (framed 2 b).length = (leb b.length).length + b.length := by simp [framed]

/-- Not vacuous: a vector of two byte sequences, each below the limit, more than 4 GiB in all. -/
example : ∃ v : (Ty.vec .bytes).El, (Ty.vec .bytes).WF ∧ Carried (.vec .bytes) v ∧
    (∀ o ∈ (objects (.vec .bytes) v).tail, (encode o.1 o.2).length < 2 ^ 32) ∧
    2 ^ 32 ≤ (encode (.vec .bytes) v).length ∧ (encode (.vec .bytes) v).length < 2 ^ 63 := by
  obtain ⟨b, hb⟩ : ∃ b : Bytes, b.length = 2 ^ 31 := ⟨List.replicate (2 ^ 31) 0#8, List.length_replicate⟩
  refine ⟨[b, b], trivial, fun _ _ => trivial, ?_, ?_, ?_⟩
  · intro o ho
    simp only [objects, List.tail_cons, List.flatMap_cons, List.flatMap_nil, List.append_nil, List.mem_append,
      List.mem_singleton, or_self] at ho
    subst ho
    show b.length < 2 ^ 32
    omega
  all_goals
    have h1 : (leb b.length).length < 2 ^ 32 := leb_length_small _ 64 (by omega) (by decide)
    simp only [encode, List.flatMap_cons, List.flatMap_nil, List.append_nil, wireOf, List.length_append, framed_two]
    omega

/-! ## Debug builds -/

/-- C83, debug builds: a size above 32 bits panics, otherwise `compute_size` returns it and `to_bytes` writes what a release build
writes. There is no third outcome: no error and no bytes that differ between the builds. -/
theorem C83_debug_writes (t : Ty) (ht : t.WF) (μ : Mem) (v : t.El) (hw : Writable t v) :
    (t.dict.toBytesFrom .debug μ v = if summed t v < 2 ^ 32 then .ok (encode32 t v) else .error .panic) ∧
      (t.dict.sizeFrom .debug μ v = if summed t v < 2 ^ 32 then .ok (summed t v) else .error .panic) := by
  have hs := limitLaw t ht v hw []
  refine ⟨?_, hs μ⟩
  by_cases h : summed t v < 2 ^ 32
  · rw [if_pos h]
    have hc := gives_cacheSize hs
    rw [limit_of_lt h] at hc
    obtain ⟨a, ha⟩ := (Ends.bind hc.ends (fun _ => endsLaw t ht v hw h [])) μ
    have hu : ((t.dict.toBytes .debug v).run μ).1 = .ok a := by
      unfold Dict.toBytes Dict.steitSerialize
      rw [run_unwrap]
      generalize Prog.run _ μ = s at ha ⊢
      obtain ⟨s, μ'⟩ := s
      simp only at ha
      subst ha
      rfl
    have hr := (C83_release_writes t ht μ v hw).1
    unfold Dict.toBytesFrom at hr ⊢
    rcases follows_toBytes t v μ with hf | hf
    · rw [hf, hr]
    · rw [hu] at hf; cases hf
  · rw [if_neg h]
    have hc : Gives (t.dict.cacheSize .debug [] v) (.error .panic) := by
      have := gives_cacheSize hs
      rwa [limit, if_neg h] at this
    have : Gives (t.dict.toBytes .debug v) (.error .panic) := by
      have hb : Gives (t.dict.steitSerialize .debug [] v) (.error .panic) := Gives.bind_error hc
      intro μ
      unfold Dict.toBytes
      rw [run_unwrap]
      have := hb μ
      generalize Prog.run _ μ = s at this ⊢
      obtain ⟨s, μ'⟩ := s
      simp only at this
      subst this
      rfl
    exact this μ

/-- C83, debug builds: if no single string or `Bytes` inside the value has 4 GiB, debug builds are exact. They write `Spec.encode`
below the limit and panic from the limit on. -/
theorem C83_debug_exact (t : Ty) (ht : t.WF) (μ : Mem) (v : t.El) (hw : Writable t v) (hs : Short t v) :
    (t.dict.toBytesFrom .debug μ v = if (encode t v).length < 2 ^ 32 then .ok (encode t v) else .error .panic) ∧
      (t.dict.sizeFrom .debug μ v = if (encode t v).length < 2 ^ 32 then .ok (encode t v).length else .error .panic) := by
  obtain ⟨h1, h2⟩ := C83_debug_writes t ht μ v hw
  rw [summed_short t v hs] at h1 h2
  refine ⟨?_, h2⟩
  by_cases h : (encode t v).length < 2 ^ 32
  · rw [if_pos h]; exact toBytes_eq t ht .debug μ v hw h
  · rw [if_neg h] at h1 ⊢; exact h1

/-- Not vacuous, on both sides of the limit. -/
example : Short exTy exVal ∧ Writable exTy exVal ∧ (encode exTy exVal).length < 2 ^ 32 :=
  ⟨fun o ho => by
    simp only [exTy, exVal, objects, objectsFields, objectsVariant, List.flatMap_cons, List.flatMap_nil, List.append_nil,
      List.mem_cons, List.mem_append, List.not_mem_nil, or_false] at ho
    repeat' (rcases ho with ho | ho)
    all_goals first | exact Nat.two_pow_pos 32 | exact (by decide : 2 < 2 ^ 32),
    carried_writable _ _ exVal_carried, by rw [exVal_length]; decide⟩

/-- And above it: the two byte sequences again, now a panic. -/
example : ∃ v : (Ty.vec .bytes).El, Writable (.vec .bytes) v ∧ Short (.vec .bytes) v ∧
    ∀ μ, (Ty.vec .bytes).dict.toBytesFrom .debug μ v = .error .panic := by
  obtain ⟨b, hb⟩ : ∃ b : Bytes, b.length = 2 ^ 31 := ⟨List.replicate (2 ^ 31) 0#8, List.length_replicate⟩
  have hw : Writable (.vec .bytes) [b, b] := fun _ _ => trivial
  have hs : Short (.vec .bytes) [b, b] := by
    intro o ho
    simp only [objects, List.flatMap_cons, List.flatMap_nil, List.append_nil, List.mem_append, List.mem_cons,
      List.not_mem_nil, or_false, or_self] at ho
    rcases ho with rfl | rfl
    · exact Nat.two_pow_pos 32
    · show b.length < 2 ^ 32
      omega
  refine ⟨[b, b], hw, hs, fun μ => ?_⟩
  rw [(C83_debug_exact (.vec .bytes) trivial μ _ hw hs).1, if_neg]
  simp only [encode, List.flatMap_cons, List.flatMap_nil, List.append_nil, wireOf, List.length_append, framed_two]
  omega

/-! ## What the missing check costs -/

/-- Like `struct Blob { #[steit(tag = 1)] data: Vec<u8> as Bytes, #[steit(tag = 2)] admin: bool }`. -/
def blobTy : Ty := .struct false true (.cons 1 {} .bytes (.cons 2 {} .bool .nil))

theorem blobTy_wf : blobTy.WF := by
  simp only [blobTy, Ty.WF, Fields.WF, Fields.tags]
  decide

theorem blob_summed (rt : Rt) (b : Bytes) : summed blobTy ⟨rt, (b, false, ())⟩ =
    if b.length % 2 ^ 32 = 0 then 0 else 1 + ((leb (b.length % 2 ^ 32)).length + b.length % 2 ^ 32) := by
  have h1 : (leb 10).length = 1 := by simp [leb_eq_lebF]; decide
  simp only [blobTy, summed, summedFields, leftOutSize, framedSize, wireOf, beq_iff_eq, beq_self_eq_true, if_true]
  split
  · rfl
  · show (leb 10).length + _ + 0 + 0 = _
    rw [h1]
    rfl

theorem blob_writes (m : Mode) (μ : Mem) (rt : Rt) (b : Bytes) (h : b.length % 2 ^ 32 < 2 ^ 32 - 12) :
    blobTy.dict.toBytesFrom m μ ⟨rt, (b, false, ())⟩ =
      .ok (if b.length % 2 ^ 32 = 0 then [] else 10#8 :: (leb (b.length % 2 ^ 32) ++ b)) := by
  have hw : Writable blobTy ⟨rt, (b, false, ())⟩ := ⟨trivial, trivial, trivial⟩
  have he : encode32 blobTy ⟨rt, (b, false, ())⟩ =
      if b.length % 2 ^ 32 = 0 then [] else 10#8 :: (leb (b.length % 2 ^ 32) ++ b) := by
    have h1 : leb 10 = [10#8] := by simp only [leb_eq_lebF]; decide
    simp only [blobTy, encode32, encode32Fields, leftOut32, framed32, wireOf, beq_iff_eq, beq_self_eq_true, if_true,
      List.append_nil]
    split
    · rfl
    · show leb 10 ++ _ = _
      rw [h1]
      rfl
  rw [← he]
  cases m
  · rw [(C83_debug_writes blobTy blobTy_wf μ _ hw).1, if_pos]
    rw [blob_summed]
    have h2 := leb_length_le 4 (b.length % 2 ^ 32) (by omega)
    split <;> omega
  · exact (C83_release_writes blobTy blobTy_wf μ _ hw).1

/-- C83 is false of `Bytes` (and of strings): `len as u32` drops the upper bits in both builds. A field of exactly 4 GiB counts as
empty and is left out, the reader gets the empty field. -/
theorem C83_false_lost (m m' : Mode) (μ : Mem) (rt : Rt) (b : Bytes) (hb : b.length = 2 ^ 32) :
    blobTy.dict.toBytesFrom m μ ⟨rt, (b, false, ())⟩ = .ok [] ∧
      blobTy.dict.deserialize m' [] = .ok (⟨Rt.dflt, ([], false, ())⟩, []) := by
  refine ⟨?_, by cases m' <;> rfl⟩
  have h0 : b.length % 2 ^ 32 = 0 := by rw [hb]
  rw [blob_writes m μ rt b (by rw [h0]; decide), if_pos h0]

/-- The same in a release build if a vector, all of whose items fit, sums up to 4 GiB. A debug build panics. -/
theorem C83_false_sum (μ : Mem) (rt : Rt) (b : Bytes) (hb : b.length = 2 ^ 32 - 5) :
    (Ty.struct false true (.cons 1 {} (.vec .bytes) .nil)).dict.toBytesFrom .release μ ⟨rt, ([b], ())⟩ = .ok [] ∧
      (Ty.struct false true (.cons 1 {} (.vec .bytes) .nil)).dict.toBytesFrom .debug μ ⟨rt, ([b], ())⟩ = .error .panic := by
  have hwf : (Ty.struct false true (.cons 1 {} (.vec .bytes) .nil)).WF := by
    simp only [Ty.WF, Fields.WF, Fields.tags]
    decide
  have hw : Writable (Ty.struct false true (.cons 1 {} (.vec .bytes) .nil)) ⟨rt, ([b], ())⟩ :=
    ⟨fun _ _ => trivial, trivial⟩
  have hm : b.length % 2 ^ 32 = 2 ^ 32 - 5 := by omega
  have hl : (leb (2 ^ 32 - 5)).length = 5 := leb_length_eq 4 _ (by decide) (by decide)
  constructor
  · rw [(C83_release_writes _ hwf μ _ hw).1]
    have : (framed32 2 b).length % 2 ^ 32 = 0 := by
      have : (framed32 2 b).length = (leb (b.length % 2 ^ 32)).length + b.length := by simp [framed32]
      rw [this, hm, hl, hb]
    simp only [encode32, encode32Fields, leftOut32, wireOf, List.flatMap_cons, List.flatMap_nil, List.append_nil, this,
      beq_self_eq_true, if_true]
  · rw [(C83_debug_writes _ hwf μ _ hw).1, if_neg]
    have h2 : framedSize 2 (2 ^ 32 - 5) = 2 ^ 32 := by
      have : framedSize 2 (2 ^ 32 - 5) = (leb (2 ^ 32 - 5)).length + (2 ^ 32 - 5) := by simp [framedSize]
      rw [this, hl]
    have h3 := framedSize_ge 2 (2 ^ 32)
    simp only [summed, summedFields, leftOutSize, wireOf, List.map_cons, List.map_nil, List.sum_cons, List.sum_nil,
      Nat.add_zero, hm, h2]
    rw [if_neg (by decide)]
    omega

/-- The key and value of `admin: true`, as a field on the wire. -/
def adminField : WField := ⟨2, .varint, [16#8], [1#8]⟩

theorem adminField_ok : adminField.OK := by
  refine ⟨by decide, ⟨[], 16#8, rfl, by simp, by decide⟩, by decide, by decide, ?_⟩
  exact ⟨[], 1#8, rfl, by simp, by decide⟩

/-- Any number of such fields, at least one, sets `admin`. -/
theorem feeds_admin (m : Mode) (p : Bytes) : ∀ (n : Nat) (a : Bool), 0 < n →
    feeds (.cons 1 {} .bytes (.cons 2 {} .bool .nil)) m (p, a, ()) (List.replicate n adminField) =
      .ok (p, true, ()) []
  | 0, _, h => absurd h (by decide)
  | n + 1, a, _ => by
    have h1 : feed (.cons 1 {} .bytes (.cons 2 {} .bool .nil)) m (p, a, ()) adminField = .ok (p, true, ()) [] := by
      cases m <;> rfl
    rw [List.replicate_succ]
    simp only [feeds, h1]
    cases n with
    | zero => rfl
    | succ n => exact feeds_admin m p (n + 1) true (by omega)

theorem wireBytes_replicate (n : Nat) : wireBytes (List.replicate n adminField) = (List.replicate n [16#8, 1#8]).flatten := by
  rw [wireBytes_eq, List.map_replicate]; rfl

theorem injected (m m' : Mode) (μ : Mem) (rt : Rt) (p : Bytes) (hp : 0 < p.length) (hp' : p.length < 128) (n : Nat)
    (hn : 2 * n = 2 ^ 32) :
    ∃ bytes, blobTy.dict.toBytesFrom m μ ⟨rt, (p ++ (List.replicate n [16#8, 1#8]).flatten, false, ())⟩ = .ok bytes ∧
      blobTy.dict.deserialize m' bytes = .ok (⟨Rt.dflt, (p, true, ())⟩, []) := by
  have hl : (p ++ (List.replicate n [16#8, 1#8]).flatten).length = p.length + 2 ^ 32 := by
    rw [List.length_append, ← hn]
    simp [List.length_flatten, Nat.mul_comm]
  have hmod : (p ++ (List.replicate n [16#8, 1#8]).flatten).length % 2 ^ 32 = p.length := by rw [hl]; omega
  refine ⟨_, blob_writes m μ rt _ (by rw [hmod]; omega), ?_⟩
  rw [hmod, if_neg (by omega)]
  have hb : 10#8 :: (leb p.length ++ (p ++ (List.replicate n [16#8, 1#8]).flatten)) =
      wireBytes (⟨1, .sized, [10#8], leb p.length ++ p⟩ :: List.replicate n adminField) := by
    rw [← wireBytes_replicate]
    simp [wireBytes, WField.bytes]
  have hleb : leb p.length = [BitVec.ofNat 8 p.length] := by unfold leb; rw [if_pos hp']
  have hok : ∀ w ∈ (⟨1, .sized, [10#8], leb p.length ++ p⟩ :: List.replicate n adminField : List WField), w.OK := by
    intro w hw
    rcases List.mem_cons.1 hw with rfl | hw
    · refine ⟨(by decide : (1#32).toNat < 2 ^ 29), ⟨[], 10#8, rfl, by simp, by decide⟩, (by decide : [10#8].length ≤ 5),
        (by decide : lebValue [10#8] = (1#32).toNat * 8 + 2), ?_⟩
      refine ⟨leb p.length, p, rfl, leb_isVarint _, ?_, lebValue_leb _, by omega⟩
      rw [hleb]
      exact (by decide : 1 ≤ 10)
    · rw [List.eq_of_mem_replicate hw]; exact adminField_ok
  have hf := merge_feeds (.cons 1 {} .bytes (.cons 2 {} .bool .nil)) false blobTy_wf.2 m' ([], false, ()) _ hok
  have h1 : feed (.cons 1 {} .bytes (.cons 2 {} .bool .nil)) m' ([], false, ()) ⟨1, .sized, [10#8], leb p.length ++ p⟩ =
      .ok (p, false, ()) [] := by
    have := withNested_frame m' ([] : Bytes) p [] (fun bs => .ok ([] ++ bs) []) (by omega)
    rw [List.append_nil] at this
    show ((Ty.bytes.dict.mergeNested m' ([] : Bytes) .sized (leb p.length ++ p)).map (fun x => (x, false, ()))) = _
    have hm : Ty.bytes.dict.mergeNested m' ([] : Bytes) .sized (leb p.length ++ p) =
        withNested m' ([] : Bytes) (leb p.length ++ p) (fun bs => .ok ([] ++ bs) []) := rfl
    rw [hm, this]
    rfl
  simp only [feeds, h1, feeds_admin m' p n false (by omega)] at hf
  rw [hb]
  have hd : ∀ bs, blobTy.dict.deserialize m' bs =
      match (Fields.dict (.cons 1 {} .bytes (.cons 2 {} .bool .nil)) false).merge m' ([], false, ()) bs with
      | .ok v rest => .ok (⟨Rt.dflt, v⟩, rest)
      | .err _ e => .error e := by
    intro bs
    have hmerge : blobTy.dict.merge m' blobTy.dict.dflt bs =
        ((Fields.dict (.cons 1 {} .bytes (.cons 2 {} .bool .nil)) false).merge m' ([], false, ()) bs).map
          (fun fields => (⟨Rt.dflt, fields⟩ : StructV _)) := rfl
    unfold Dict.deserialize
    rw [hmerge]
    cases (Fields.dict (.cons 1 {} .bytes (.cons 2 {} .bool .nil)) false).merge m' ([], false, ()) bs <;> rfl
  rw [hd, hf]

/-- The wrapped length cuts the content short, and the reader takes what follows for fields of the message. Whoever chooses the
content of one field thus sets the others: here `admin`, which was `false`, comes back `true`. Both builds write this without
complaint. -/
theorem C83_false_injection (m m' : Mode) (μ : Mem) (rt : Rt) (p : Bytes) (hp : 0 < p.length) (hp' : p.length < 128) :
    ∃ content bytes, blobTy.dict.toBytesFrom m μ ⟨rt, (p ++ content, false, ())⟩ = .ok bytes ∧
      blobTy.dict.deserialize m' bytes = .ok (⟨Rt.dflt, (p, true, ())⟩, []) :=
  ⟨_, injected m m' μ rt p hp hp' (2 ^ 31) rfl⟩

/-- Not vacuous. -/
example : 0 < [7#8].length ∧ [7#8].length < 128 := by decide

/-- Not vacuous: there are byte sequences of 4 GiB. -/
example : ∃ b b' : Bytes, b.length = 2 ^ 32 ∧ b'.length = 2 ^ 32 - 5 :=
  ⟨List.replicate (2 ^ 32) 0#8, List.replicate (2 ^ 32 - 5) 0#8, List.length_replicate, List.length_replicate⟩

end Steit
