import Verif.Lemmas.KeepDerive
import Verif.Lemmas.Objects
import Verif.Lemmas.GrowDerive
import Verif.Lemmas.WeightEncode
import Verif.Props.RoundTrip
import Verif.Props.Replay
import Verif.Props.CSharp

/-!
# Passing on what was received: properties C73 and C74

A program that got some bytes from anywhere, decoded them without an error, and now uses the value: goes over its maps,
serializes it for someone else, for Rust or for C#. And how big the value can be. The bytes are arbitrary throughout.
-/

namespace Steit
open Spec Prog

/-! ## C73: what was decoded can be used -/

/-- C73. Whatever the bytes: a decoded value is one the wire format carries, so that C11, C45 and the others that ask for
this apply to it. Signed integers need no care: decoding never yields one outside the half of the range that survives (see
`C04`). -/
theorem C73_decoded (t : Ty) (m : Mode) (bs rest : Bytes) (v : t.El) (h : t.dict.deserialize m bs = .ok (v, rest)) :
    Carried t v :=
  (keepLaw t).deserialize h

/-- C73, on an existing value, and also when decoding fails half way: what is there then is a value the wire format
carries. -/
theorem C73_merged (t : Ty) (m : Mode) (bs : Bytes) (v : t.El) (hv : Carried t v) :
    Carried t (t.dict.merge m v bs).target :=
  (keepLaw t).merge m v bs hv

/-! ### Going over maps -/

/-- C73. No map anywhere in a decoded value makes its iterator panic (`steit/src/types/map/iter.rs:22-27`), and it yields
every key once. -/
theorem C73_iterates (t : Ty) (m : Mode) (bs rest : Bytes) (v : t.El) (h : t.dict.deserialize m bs = .ok (v, rest))
    (kt : KeyTy) (s : Ty) (w : (Ty.map kt s).El) (hw : (⟨.map kt s, w⟩ : Σ s : Ty, s.El) ∈ objects t v) :
    ∃ keys, mapIterKeys kt w = .ok keys ∧ keys.Nodup := by
  have hc := carried_objects t v (C73_decoded t m bs rest v h) _ hw
  exact ⟨_, mapM_keys kt w.entries (fun e he => (hc.1 e he).1), hc.2⟩

/-! ### Passing on -/

/-- The size of what was decoded, see C74. -/
theorem decoded_weight {t : Ty} {m : Mode} {bs rest : Bytes} {v : t.El} (h : t.dict.deserialize m bs = .ok (v, rest)) :
    weight t v ≤ growth t * (bs.length + 1) := by
  have h1 := ((growLaw t).merge m t.dict.dflt bs).le
  have h2 := (growLaw t).dflt
  unfold Dict.deserialize at h
  revert h h1
  cases t.dict.merge m t.dict.dflt bs with
  | ok v' r =>
    intro h h1
    cases h
    simp only [Res.target] at h1
    rw [Nat.mul_add]
    omega
  | err v' e => intro h; cases h

theorem decoded_length {t : Ty} {m : Mode} {bs rest : Bytes} {v : t.El} {n : Nat}
    (h : t.dict.deserialize m bs = .ok (v, rest)) (hlen : 24 * (growth t * (bs.length + 1)) < n) (hn : n ≤ 2 ^ 32) :
    (encode t v).length < n := by
  have h1 := decoded_weight h
  have := encode_le t v (by omega)
  omega

/-- C73. What was decoded from any bytes is passed on: serializing it gives bytes, whoever decodes these has an equal value,
and would send the same bytes on (up to the order in which a `HashMap` iterates, see `C82_relayed`). The bytes received must not be so many that the ones sent could exceed the 4 GiB limit. -/
theorem C73_passed_on (t : Ty) (ht : t.WF) (m m₁ m₂ m₃ : Mode) (μ μ' : Mem) (bs rest : Bytes) (v : t.El)
    (h : t.dict.deserialize m bs = .ok (v, rest)) (hlen : 24 * (growth t * (bs.length + 1)) < 2 ^ 32) :
    ∃ bytes v', t.dict.toBytesFrom m₁ μ v = .ok bytes ∧ t.dict.deserialize m₂ bytes = .ok (v', []) ∧ Same t v' v ∧
      t.eq v' v = true ∧ t.dict.toBytesFrom m₃ μ' v' = .ok bytes := by
  have hc := C73_decoded t m bs rest v h
  have hl := decoded_length h hlen (Nat.le_refl _)
  obtain ⟨bytes, v', h1, h2, h3, h4⟩ := C11_roundtrip t ht m₁ m₂ μ v hc hl
  have hb : bytes = encode t v := by
    have := toBytes_eq t ht m₁ μ v (carried_writable t v hc) hl
    exact Except.ok.inj (h1.symm.trans this)
  refine ⟨bytes, v', h1, h2, h3, h4, ?_⟩
  have hc' := C73_decoded t m₂ bytes [] v' h2
  have he : encode t v' = encode t v := encode_same h3
  rw [toBytes_eq t ht m₃ μ' v' (carried_writable t v' hc') (by rw [he]; exact hl), he, hb]

/-- One hop: serialized by one program, decoded by the next. -/
inductive Hops (t : Ty) : t.El → t.El → Prop
  | here (v : t.El) : Hops t v v
  | hop {v v' v'' : t.El} {m m' : Mode} {μ : Mem} {bytes rest : Bytes} (h : t.dict.toBytesFrom m μ v = .ok bytes)
    (h' : t.dict.deserialize m' bytes = .ok (v', rest)) (hs : Hops t v' v'') : Hops t v v''

/-- C73. Over any number of hops, through programs built with and without overflow checks, the value stays the same. -/
theorem C73_hops (t : Ty) (ht : t.WF) (m : Mode) (bs rest : Bytes) (v v' : t.El)
    (h : t.dict.deserialize m bs = .ok (v, rest)) (hlen : 24 * (growth t * (bs.length + 1)) < 2 ^ 32)
    (hh : Hops t v v') : Same t v' v ∧ t.eq v' v = true := by
  have hc := C73_decoded t m bs rest v h
  have hl := decoded_length h hlen (Nat.le_refl _)
  have key : ∀ {v v' : t.El}, Hops t v v' → Carried t v → (encode t v).length < 2 ^ 32 → Same t v' v := by
    intro v v' hh
    induction hh with
    | here v => exact fun _ _ => rfl
    | @hop v v' v'' m m' μ bytes rest h h' hs ih =>
      intro hc hl
      obtain ⟨b, x, h1, h2, h3, _⟩ := C11_roundtrip t ht m m' μ v hc hl
      cases h.symm.trans h1
      cases h'.symm.trans h2
      exact (ih (C73_decoded t m' _ _ _ h2) (by rw [encode_same h3]; exact hl)).trans h3
  have hs := key hh hc hl
  exact ⟨hs, eq_of_same hs hc⟩

/-- C73. What was decoded from any bytes and passed on to a C# client is shown there. -/
theorem C73_passed_on_to_client (t : Ty) (ht : t.WF) (hm : Mirrored t) (hr : Rooted t) (ρ : Bytes → Str) (m m' : Mode)
    (μ : Mem) (bs rest : Bytes) (v : t.El) (h : t.dict.deserialize m bs = .ok (v, rest))
    (hlen : 24 * (growth t * (bs.length + 1)) < 2 ^ 31) :
    ∃ bytes c, t.dict.toBytesFrom m' μ v = .ok bytes ∧ t.csDeserializeRoot ρ bytes = .ok (c, []) ∧ Shows t v c :=
  C45_decodes_partial t ht hm hr ρ m' μ v (carried_legible t v (C73_decoded t m bs rest v h))
    (decoded_length h hlen (by decide))

/-- Bytes that no serializer writes: an unknown field, field 1 twice, the key 7 twice, an overlong number. -/
def strayBytes : Bytes :=
  [0x18#8, 7#8, 0x0a#8, 4#8, 3#8, 0#8, 0#8, 1#8, 0x0a#8, 10#8, 9#8, 5#8, 0x12#8, 6#8, 0x38#8, 9#8, 0x38#8, 0x83#8, 0x80#8, 0#8]

/-- What they say. -/
def strayVal : exTy.El :=
  ⟨Rt.dflt, ⟨Rt.dflt, [⟨Rt.dflt, .inl (1#32, ())⟩, ⟨Rt.dflt, .inr (.inl (⟨Rt.dflt, [(7#32, -2#16)]⟩, ()))⟩]⟩, ⟨[], rfl⟩, ()⟩

/-- Not vacuous: they decode, a map is among the values inside, and the bounds are far away. -/
example : ∃ v, exTy.dict.deserialize .release strayBytes = .ok (v, []) ∧ exTy.eq v strayVal = true ∧
    (∃ w, (⟨.map .u8 (.sint .w16), w⟩ : Σ s : Ty, s.El) ∈ objects exTy v) ∧
    24 * (growth exTy * (strayBytes.length + 1)) < 2 ^ 31 ∧ exTy.WF ∧ weight exTy v = 9 := by
  refine ⟨_, rfl, rfl, ?_, by decide, exTy_wf, rfl⟩
  exact ⟨_, List.mem_cons_of_mem _ (List.mem_append_left _ (List.mem_cons_of_mem _ (List.mem_append_right _
    (List.mem_append_left _ (List.mem_cons_of_mem _ (List.mem_append_left _ (.head _)))))))⟩

/-! ### After replaying a log -/

/-- The entries that replaying the bytes comes across, up to where they stop being a log. -/
inductive EntryIn (m : Mode) : Bytes → Entry → Prop
  | here {bs rest : Bytes} {x : logEntryTy.El}
    (h : logEntryTy.dict.deserializeNested m logEntryTy.dict.wire bs = .ok (x, rest)) : EntryIn m bs (.ofEl x)
  | later {bs rest : Bytes} {x : logEntryTy.El} {e : Entry}
    (h : logEntryTy.dict.deserializeNested m logEntryTy.dict.wire bs = .ok (x, rest)) (he : EntryIn m rest e) : EntryIn m bs e

theorem applyEntry_carried (t : Ty) (m : Mode) (v : t.El) (e : Entry) (hv : Carried t v) (he : KeysIn t (address e)) :
    Carried t (applyEntry t.dict m v e).target := by
  cases e <;> exact (keepLaw t).handle m v _ _ _ _ hv he

/-- C73, for replicas: whatever bytes are replayed on a value the wire format carries, with or without success, it remains
one, as long as the paths in the log name map keys of the maps' key types. -/
theorem C73_replayed (t : Ty) (m : Mode) (bs : Bytes) (v : t.El) (hv : Carried t v)
    (hk : ∀ e, EntryIn m bs e → KeysIn t (address e)) : Carried t (replay t.dict m v bs).target := by
  have key : ∀ fuel (v : t.El) bs, Carried t v → (∀ e, EntryIn m bs e → KeysIn t (address e)) →
      Carried t (untilEof (replayStep t.dict m) fuel v bs).target := by
    intro fuel
    induction fuel with
    | zero =>
      intro v bs hv _
      cases bs <;> exact hv
    | succ n ih =>
      intro v bs hv hk
      cases bs with
      | nil => exact hv
      | cons b bs =>
        simp only [untilEof, replayStep]
        cases hd : logEntryTy.dict.deserializeNested m logEntryTy.dict.wire (b :: bs) with
        | error e => exact hv
        | ok xr =>
          obtain ⟨x, rest⟩ := xr
          have ha := applyEntry_carried t m v (.ofEl x) hv (hk _ (.here hd))
          dsimp only
          revert ha
          cases applyEntry t.dict m v (.ofEl x) with
          | err v' e => exact fun ha => ha
          | ok v' _ => exact fun ha => ih v' rest ha (fun e he => hk e (.later hd he))
  unfold replay
  split
  · exact hv
  · exact hv
  · exact key _ v bs hv hk

/-- C73 is false for logs that say otherwise: `State::handle` puts keys into maps without the check decoding makes
(`steit/src/types/map/map.rs:228-237`). A log entry of twelve bytes gives a `Map<u32, bool>` the key 2^29, and from then on
`to_bytes` panics. (`C32_keys_can_leave_their_type` has the iterator.) -/
theorem C73_false_replayed_key :
    ∃ (bs : Bytes) (v' : (Ty.map .u32 .bool).El), replay (Ty.map .u32 .bool).dict .debug ⟨⟨1, []⟩, []⟩ bs = .ok v' [] ∧
      (Ty.map .u32 .bool).dict.toBytesFrom .release (fun _ => 0) v' = .error .panic :=
  ⟨[11#8, 0#8, 2#8, 5#8, 0x80#8, 0x80#8, 0x80#8, 0x80#8, 2#8, 10#8, 1#8, 1#8], ⟨⟨1, []⟩, [(0x20000000#32, true)]⟩,
    rfl, by decide⟩

/-- Not vacuous: a log that puts the key 3 into a `Map<u8, bool>`, followed by bytes that are no log. -/
example : (∀ e, EntryIn .debug [7#8, 0#8, 2#8, 1#8, 3#8, 10#8, 1#8, 1#8, 0xff#8] e → KeysIn (.map .u8 .bool) (address e)) ∧
    replay (Ty.map .u8 .bool).dict .debug ⟨⟨1, []⟩, []⟩ [7#8, 0#8, 2#8, 1#8, 3#8, 10#8, 1#8, 1#8, 0xff#8] =
      .err ⟨⟨1, []⟩, [(3#32, true)]⟩ .unexpectedEof := by
  refine ⟨fun e he => ?_, rfl⟩
  have h1 : logEntryTy.dict.deserializeNested .debug logEntryTy.dict.wire
      [7#8, 0#8, 2#8, 1#8, 3#8, 10#8, 1#8, 1#8, 0xff#8] = .ok (⟨Rt.dflt, .inl ([3#32], [1#8], ())⟩, [0xff#8]) := rfl
  have h2 : logEntryTy.dict.deserializeNested .debug logEntryTy.dict.wire [0xff#8] = .error .unexpectedEof := rfl
  cases he with
  | here h => cases h.symm.trans h1; exact ⟨by decide, by decide, trivial⟩
  | later h he =>
    cases h.symm.trans h1
    cases he with
    | here h => cases h.symm.trans h2
    | later h _ => cases h.symm.trans h2

/-! ## C74: how big what was received can be -/

/-- C74. A value decoded from `n` bytes has at most `growth t * (n + 1)` objects and string bytes in it; `growth t` is the
size of the declaration. -/
theorem C74_decoded (t : Ty) (m : Mode) (bs rest : Bytes) (v : t.El) (h : t.dict.deserialize m bs = .ok (v, rest)) :
    weight t v ≤ growth t * (bs.length + 1) :=
  decoded_weight h

/-- C74, on an existing value, and also when decoding fails half way. -/
theorem C74_merged (t : Ty) (m : Mode) (bs : Bytes) (v : t.El) :
    weight t (t.dict.merge m v bs).target ≤ weight t v + growth t * bs.length :=
  ((growLaw t).merge m v bs).le

theorem growth_entry : growth logEntryTy = 12 := rfl

theorem payload_lt (x : logEntryTy.El) : (payload (.ofEl x)).length + 1 ≤ weight logEntryTy x := by
  rcases x with ⟨rt, ⟨p, b, ⟨⟩⟩ | ⟨p, b, ⟨⟩⟩ | ⟨p, ⟨⟩⟩ | ⟨p, k, ⟨⟩⟩ | v⟩
  · show b.length + 1 ≤ 1 + (_ + (1 + b.length + 0)); omega
  · show b.length + 1 ≤ 1 + (_ + (1 + b.length + 0)); omega
  · show 0 + 1 ≤ 1 + _; omega
  · show 0 + 1 ≤ 1 + _; omega
  · exact nomatch v

theorem applyEntry_weight (t : Ty) (m : Mode) (v : t.El) (e : Entry) :
    weight t (applyEntry t.dict m v e).target ≤ weight t v + growth t * ((payload e).length + 1) := by
  cases e <;> exact (growLaw t).handle m v _ _ _ _

/-- C74, for replicas: replaying `n` bytes of log, with or without success, adds at most `12 * growth t * n`. -/
theorem C74_replayed (t : Ty) (m : Mode) (bs : Bytes) (v : t.El) :
    weight t (replay t.dict m v bs).target ≤ weight t v + 12 * growth t * bs.length := by
  unfold replay
  split
  · exact Nat.le_add_right _ _
  · exact Nat.le_add_right _ _
  · refine (grown_untilEof (W := weight t) (c := 12 * growth t) (fun v b bs => ?_) _ v bs).le
    simp only [replayStep]
    cases hd : logEntryTy.dict.deserializeNested m logEntryTy.dict.wire (b :: bs) with
    | error e => exact grown_err (by omega)
    | ok xr =>
      obtain ⟨x, rest⟩ := xr
      obtain ⟨h1, h2⟩ := (growLaw logEntryTy).deserializeNested hd
      have h3 := payload_lt x
      have h4 := applyEntry_weight t m v (.ofEl x)
      rw [growth_entry] at h2
      have h5 : growth t * ((payload (.ofEl x)).length + 1) ≤ 12 * growth t * ((b :: bs).length - rest.length) := by
        rw [Nat.mul_comm 12, Nat.mul_assoc]
        exact Nat.mul_le_mul_left _ (Nat.le_trans h3 h2)
      dsimp only
      revert h4
      cases applyEntry t.dict m v (.ofEl x) with
      | ok v' r => exact fun h4 => grown_ok (Nat.le_of_lt h1) (Nat.le_trans h4 (Nat.add_le_add_left h5 _))
      | err v' e =>
        refine fun h4 => grown_err (Nat.le_trans h4 (Nat.add_le_add_left (Nat.le_trans h5 ?_) _))
        exact Nat.mul_le_mul_left _ (Nat.sub_le _ _)

/-- C74. A value's encoding has at most 24 bytes per object or string byte. -/
theorem C74_encoded (t : Ty) (ht : t.WF) (m : Mode) (μ : Mem) (v : t.El) (hw : Writable t v)
    (hv : 24 * weight t v < 2 ^ 32) : ∃ bytes, t.dict.toBytesFrom m μ v = .ok bytes ∧ bytes.length ≤ 24 * weight t v := by
  have h := encode_le t v hv
  exact ⟨_, toBytes_eq t ht m μ v hw (by omega), by omega⟩

end Steit
