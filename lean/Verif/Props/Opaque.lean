import Verif.Lemmas.Opaque
import Verif.Model.Opaque
import Verif.Props.CSharp
import Verif.Props.Fields
import Verif.Props.RoundTrip
import Verif.Props.RevisionLog
import Verif.Props.CSharpRevision

/-!
# Opaque parts: property C81

`Veil` (`Verif/Spec/Opaque.lean`) is any type together with the same type with `Bytes` in some places, at any depth.
-/

namespace Steit
open Spec Prog

/-! ## C81 -/

/-- C81: a program that has `Bytes` where it does not care what there is reads every message, gets what it knows and the encodings
of the rest, and what it writes then is what it read, byte by byte. Build modes and the contents of size caches are arbitrary.
Nothing is asked of what is hidden, except that it could be written in the first place. (A `HashMap` that is not hidden may in Rust be
written in an order other than it was read in; `C82_relayed` allows for that.) -/
theorem C81_relay (r : Veil) (hf : r.Fair) (hs : r.src.WF) (hr : r.relay.WF) (m m' m'' : Mode) (μ μ' : Mem) (v : r.src.El)
    (hw : Writable r.src v) (hc : Carried r.relay (r.seen v)) (hlen : (encode r.src v).length < 2 ^ 32) :
    ∃ bytes w, r.src.dict.toBytesFrom m μ v = .ok bytes ∧ r.relay.dict.deserialize m' bytes = .ok (w, []) ∧
      Same r.relay w (r.seen v) ∧ r.relay.dict.toBytesFrom m'' μ' w = .ok bytes := by
  have he := r.encode hf v
  obtain ⟨bytes, w, h1, h2, h3, -⟩ := C11_roundtrip r.relay hr m m' μ (r.seen v) hc (by rw [he]; exact hlen)
  have hb : bytes = encode r.src v := by
    have := toBytes_eq r.relay hr m μ (r.seen v) (carried_writable _ _ hc) (by rw [he]; exact hlen)
    rw [this, he] at h1
    exact (Except.ok.inj h1).symm
  have hew : encode r.relay w = bytes := by rw [encode_same h3, he, hb]
  refine ⟨bytes, w, by rw [hb]; exact toBytes_eq r.src hs m μ v hw hlen, h2, h3, ?_⟩
  rw [← hew]
  refine toBytes_eq r.relay hr m'' μ' w ?_ (by rw [hew, hb]; exact hlen)
  exact (writable_same h3).2 (carried_writable _ _ hc)

/-- C81, from end to end: what comes out at a program that knows all of the type is the value that went in, however many parts
were opaque to the program in between. -/
theorem C81_end_to_end (r : Veil) (hf : r.Fair) (hs : r.src.WF) (hr : r.relay.WF) (m m' m'' m''' : Mode) (μ μ' : Mem) (v : r.src.El)
    (hc : Carried r.src v) (hlen : (encode r.src v).length < 2 ^ 32) :
    ∃ bytes w bytes' v', r.src.dict.toBytesFrom m μ v = .ok bytes ∧ r.relay.dict.deserialize m' bytes = .ok (w, []) ∧
      r.relay.dict.toBytesFrom m'' μ' w = .ok bytes' ∧ r.src.dict.deserialize m''' bytes' = .ok (v', []) ∧ Same r.src v' v := by
  obtain ⟨bytes, w, h1, h2, _, h4⟩ := C81_relay r hf hs hr m m' m'' μ μ' v (carried_writable _ _ hc) (r.carried v hc) hlen
  obtain ⟨b, v', g1, g2, g3, -⟩ := C11_roundtrip r.src hs m m''' μ v hc hlen
  cases h1.symm.trans g1
  exact ⟨bytes, w, bytes, v', h1, h2, h4, g2, g3⟩

/-- What one program makes of bytes it passes on: read, write. -/
def forward (u : Ty) (m m' : Mode) (μ : Mem) (bytes : Bytes) : Except Err Bytes :=
  match u.dict.deserialize m bytes with
  | .error e => .error e
  | .ok (w, _) => u.dict.toBytesFrom m' μ w

/-- C81 for any number of programs in a row, each with its own idea of what is opaque: the bytes stay as they are (as long as they have
no `HashMap` of their own, see `C82_relayed`). -/
theorem C81_chain (bytes : Bytes) (hlen : bytes.length < 2 ^ 32) : ∀ (rs : List (Veil × Mode × Mode × Mem)),
    (∀ r ∈ rs, r.1.Fair ∧ r.1.src.WF ∧ r.1.relay.WF ∧ ∃ v, encode r.1.src v = bytes ∧ Writable r.1.src v ∧
      Carried r.1.relay (r.1.seen v)) →
    rs.foldlM (fun bytes r => forward r.1.relay r.2.1 r.2.2.1 r.2.2.2 bytes) bytes = .ok bytes
  | [], _ => rfl
  | (r, m, m', μ) :: rs, h => by
    obtain ⟨hf, hs, hr, v, he, hw, hc⟩ := h _ List.mem_cons_self
    obtain ⟨b, w, h1, h2, _, h4⟩ := C81_relay r hf hs hr m m m' μ μ v hw hc (by rw [he]; exact hlen)
    have hb : b = bytes := by
      rw [toBytes_eq r.src hs m μ v hw (by rw [he]; exact hlen), he] at h1
      exact (Except.ok.inj h1).symm
    subst hb
    have hfw : forward r.relay m m' μ b = .ok b := by
      simp only [forward, h2, h4]
    rw [List.foldlM_cons, hfw]
    exact C81_chain b hlen rs (fun r hr => h r (List.mem_cons_of_mem _ hr))

/-- C81: `Bytes::from_value` of a value is a stand-in for it: in a field, an item or alone it is written as the value itself, and
it is left out when the value is. -/
theorem C81_from_value (t : Ty) (ht : t.WF) (hw2 : wireOf t = 2) (m m' m'' : Mode) (μ μ' μ'' : Mem) (v : t.El) (hw : Writable t v)
    (fieldNumber : Option U32) (hfn : ∀ n ∈ fieldNumber, n.toNat < 2 ^ 29) (omissible : Bool)
    (hlen : (encode t v).length + 10 < 2 ^ 32) :
    ∃ b, bytesFromValueNow t.dict m μ v = .ok b ∧
      Ty.bytes.dict.writeNestedFrom m' μ' b fieldNumber omissible = t.dict.writeNestedFrom m'' μ'' v fieldNumber omissible ∧
      Ty.bytes.dict.toBytesFrom m' μ' b = t.dict.toBytesFrom m'' μ'' v := by
  have h5 := leb_length_le 4 (encode t v).length (by omega)
  have h4 := leb_length_le 4 (8 * 2 ^ 29) (by decide)
  have hl2 : (leb (8 * 2 ^ 29) ++ framed 2 (encode t v)).length < 2 ^ 32 := by
    simp only [framed, if_neg (show ¬ (2 : Nat) = 0 by decide), List.length_append]; omega
  have hb : bytesFromValueNow t.dict m μ v = .ok (encode t v) := toBytes_eq t ht m μ v hw (by omega)
  refine ⟨_, hb, ?_, ?_⟩
  · rw [writeNested_eq t ht m'' μ'' v fieldNumber omissible hw hfn hl2,
      writeNested_eq .bytes trivial m' μ' (encode t v) fieldNumber omissible trivial hfn hl2, hw2, leftOut_sized hw2]
    rfl
  · rw [toBytes_eq t ht m'' μ'' v hw (by omega)]
    exact toBytes_eq .bytes trivial m' μ' (encode t v) trivial (by simp only [encode]; omega)

/-- Not vacuous: a struct in a field, and a struct that is left out. -/
example : ∀ m, let t : Ty := .struct true true (.cons 0#32 {} .bool .nil)
    let μ : Mem := fun _ => 7
    wireOf t = 2 ∧ bytesFromValueNow t.dict m μ ⟨Rt.dflt, (true, ())⟩ = .ok [0#8, 1#8] ∧
    t.dict.writeNestedFrom m μ ⟨Rt.dflt, (true, ())⟩ (some 3#32) true = .ok [26#8, 2#8, 0#8, 1#8] ∧
    Ty.bytes.dict.writeNestedFrom m μ [0#8, 1#8] (some 3#32) true = .ok [26#8, 2#8, 0#8, 1#8] ∧
    t.dict.writeNestedFrom m μ ⟨Rt.dflt, (false, ())⟩ (some 3#32) true = .ok [] := by
  intro m; cases m <;> decide +kernel

/-- C81: and what `into_raw` gives is the value again, for those who know its type, varints included. -/
theorem C81_into_raw (t : Ty) (ht : t.WF) (m m' : Mode) (μ : Mem) (v : t.El) (hc : Carried t v)
    (hlen : (encode t v).length < 2 ^ 32) :
    ∃ b v', bytesFromValueNow t.dict m μ v = .ok b ∧ t.dict.deserialize m' (bytesIntoRaw b) = .ok (v', []) ∧ Same t v' v := by
  obtain ⟨b, v', h1, h2, h3, -⟩ := C11_roundtrip t ht m m' μ v hc hlen
  exact ⟨b, v', h1, h2, h3⟩

/-- C81 is false for integers and bools: `Bytes::from_value(&300u32)` in a field is not what `300u32` in the field is, and a program
that expects the number does not see it. -/
theorem C81_false_for_varints : ∀ m,
    (Ty.struct false false (.cons 1#32 {} .bytes .nil)).dict.toBytesFrom m (fun _ => 0) ⟨Rt.dflt, ([0xac#8, 0x02#8], ())⟩ =
      .ok [10#8, 2#8, 0xac#8, 0x02#8] ∧
    bytesFromValueNow (Ty.uint .w32).dict m (fun _ => 0) 300#32 = .ok [0xac#8, 0x02#8] ∧
    (Ty.struct false false (.cons 1#32 {} (.uint .w32) .nil)).dict.toBytesFrom m (fun _ => 0) ⟨Rt.dflt, (300#32, ())⟩ =
      .ok [8#8, 0xac#8, 0x02#8] ∧
    (Ty.struct false false (.cons 1#32 {} (.uint .w32) .nil)).dict.deserialize m [10#8, 2#8, 0xac#8, 0x02#8] =
      .ok (⟨Rt.dflt, (0#32, ())⟩, []) := by
  intro m; cases m <;> decide +kernel

/-- C81: a `Bytes` that was merged into holds one encoding after the other; those who know the type get out of it what they had got
by merging one after the other themselves. -/
theorem C81_merged (t : Ty) (ht : t.WF) (m m' : Mode) (v : t.El) (a b : Bytes) (ha : Boundary t a) :
    ∃ c, Ty.bytes.dict.merge m (bytesFromRaw a) b = .ok c [] ∧
      t.dict.merge m' v (bytesIntoRaw c) =
        match t.dict.merge m' v a with
        | .ok v' _ => t.dict.merge m' v' b
        | .err v' e => .err v' e :=
  ⟨a ++ b, rfl, C16_sequential t ht m' v a b ha⟩

/-- C81 does not extend to messages in which a field occurs twice, where what is hidden is a string: a program that knows the type
takes the last of them, after a program to which the field is opaque there is one string made of both. -/
theorem C81_false_repeated_string : ∀ m,
    let known : Ty := .struct false false (.cons 1#32 {} .string .nil)
    let relay : Ty := .struct false false (.cons 1#32 {} .bytes .nil)
    known.dict.deserialize m [10#8, 1#8, 97#8, 10#8, 1#8, 98#8] = .ok (⟨Rt.dflt, (⟨[98#8], rfl⟩, ())⟩, []) ∧
    forward relay m m (fun _ => 0) [10#8, 1#8, 97#8, 10#8, 1#8, 98#8] = .ok [10#8, 2#8, 97#8, 98#8] ∧
    known.dict.deserialize m [10#8, 2#8, 97#8, 98#8] = .ok (⟨Rt.dflt, (⟨[97#8, 98#8], rfl⟩, ())⟩, []) := by
  intro m; cases m <;> decide +kernel

/-- C81 for C# clients generated from the type with the opaque parts: the object shows what the Rust program in between has. -/
theorem C81_client_partial (r : Veil) (hf : r.Fair) (hs : r.src.WF) (hr : r.relay.WF) (hm : Mirrored r.relay) (hroot : Rooted r.relay)
    (ρ : Bytes → Str) (m : Mode) (μ : Mem) (v : r.src.El) (hw : Writable r.src v) (hl : Legible r.relay (r.seen v))
    (hlen : (encode r.src v).length < 2 ^ 31) :
    ∃ bytes c, r.src.dict.toBytesFrom m μ v = .ok bytes ∧ r.relay.csDeserializeRoot ρ bytes = .ok (c, []) ∧
      Shows r.relay (r.seen v) c := by
  have he := r.encode hf v
  obtain ⟨bytes, c, h1, h2, h3⟩ := C45_decodes_partial r.relay hr hm hroot ρ m μ (r.seen v) hl (by rw [he]; exact hlen)
  refine ⟨bytes, c, ?_, h2, h3⟩
  have hwr := toBytes_eq r.relay hr m μ (r.seen v) (legible_writable _ hm _ hl) (by rw [he]; omega)
  rw [hwr, he] at h1
  rw [toBytes_eq r.src hs m μ v hw (by omega)]
  exact h1

/-- C81: a `&str` is written as the `String` with the same characters. -/
theorem C81_str (s : Str) (m m' : Mode) (μ μ' : Mem) (fieldNumber : Option U32) (hfn : ∀ n ∈ fieldNumber, n.toNat < 2 ^ 29)
    (omissible : Bool) (hlen : s.bytes.length + 10 < 2 ^ 32) :
    strDict.toBytesFrom m μ s = .ok s.bytes ∧
      strDict.writeNestedFrom m μ s fieldNumber omissible = Ty.string.dict.writeNestedFrom m' μ' s fieldNumber omissible := by
  have hd : strDict = Ty.string.dict := by
    have hb : ∀ s : Str, decide (s = ⟨[], rfl⟩) = s.bytes.isEmpty := by
      intro s
      rw [Bool.eq_iff_iff, decide_eq_true_iff, List.isEmpty_iff]
      exact ⟨fun h => by rw [h], fun h => by cases s; cases h; rfl⟩
    show strDict = stringDict
    unfold strDict stringDict
    simp only [hb]
  have h5 := leb_length_le 4 (encode .string s).length (by simp only [encode]; omega)
  have h4 := leb_length_le 4 (8 * 2 ^ 29) (by decide)
  have hl2 : (leb (8 * 2 ^ 29) ++ framed 2 (encode .string s)).length < 2 ^ 32 := by
    simp only [framed, if_neg (show ¬ (2 : Nat) = 0 by decide), List.length_append]
    have : (encode .string s).length = s.bytes.length := rfl
    omega
  refine ⟨?_, ?_⟩
  · rw [hd]; exact toBytes_eq .string trivial m μ s trivial (by simp only [encode]; omega)
  · rw [hd, writeNested_eq .string trivial m μ s fieldNumber omissible trivial hfn hl2,
      writeNested_eq .string trivial m' μ' s fieldNumber omissible trivial hfn hl2]

/-! ## A case -/

/-- A message with routing information and two parts that do not concern a router: the items of a vector (an enum), and an
optional struct. -/
def exVeil : Veil :=
  .struct false true false false
    (.cons 1#32 {} {} (.same (.uint .w32))
      (.cons 2#32 {} {} (.vec (.hide (.enum false true (.cons 0#32 {} (.uint .w8) .nil) (.cons 1#32 true (.cons 3#32 {} .string .nil) .nil))))
        (.cons 3#32 {} {} (.option (.hide (.struct true true (.cons 0#32 {} (.sint .w8) .nil)))) .nil)))

/-- A value of it; 127 is outside of what C04 carries, which does not matter to the router. -/
def exVeilVal : exVeil.src.El :=
  ⟨Rt.dflt, (7#32, [⟨Rt.dflt, .inr (.inl (⟨[0x68#8, 0x69#8], rfl⟩, ()))⟩, ⟨Rt.dflt, .inl (0#8, ())⟩], some ⟨Rt.dflt, (127#8, ())⟩, ())⟩

theorem exVeil_carried : Carried exVeil.relay (exVeil.seen exVeilVal) := by
  refine ⟨trivial, ?_, ?_, trivial⟩
  · intro x _; trivial
  · intro x _; trivial

/-- Not vacuous: hypotheses of `C81_relay` for it, and what the router gets. -/
example : exVeil.Fair ∧ exVeil.src.WF ∧ exVeil.relay.WF ∧ Writable exVeil.src exVeilVal ∧
    Carried exVeil.relay (exVeil.seen exVeilVal) ∧ exVeil.relay.dict.deserialize .debug
      [8#8, 7#8, 18#8, 8#8, 5#8, 1#8, 26#8, 2#8, 0x68#8, 0x69#8, 1#8, 0#8, 26#8, 4#8, 3#8, 0#8, 0xfe#8, 1#8] =
      .ok (⟨Rt.dflt, (7#32, [[1#8, 26#8, 2#8, 0x68#8, 0x69#8], [0#8]], some [0#8, 0xfe#8, 1#8], ())⟩, []) ∧
    exVeil.src.dict.toBytesFrom .release (fun _ => 0) exVeilVal =
      .ok [8#8, 7#8, 18#8, 8#8, 5#8, 1#8, 26#8, 2#8, 0x68#8, 0x69#8, 1#8, 0#8, 26#8, 4#8, 3#8, 0#8, 0xfe#8, 1#8] := by
  refine ⟨?_, ?_, ?_, ?_, exVeil_carried, by rfl, by decide +kernel⟩
  · simp only [exVeil, Veil.Fair, VeilFields.Fair, wireOf]; decide
  · simp only [exVeil, Ty.WF, Fields.WF, Variants.WF, Fields.tags, Variants.tags, Ty.isState]; decide
  · simp only [exVeil, Ty.WF, Fields.WF, Variants.WF, Fields.tags, Variants.tags, Ty.isState]; decide
  · simp [exVeil, exVeilVal, Writable, WritableFields, WritableVariant]

end Steit
