import Verif.Lemmas.Carried
import Verif.Props.Serialization

/-!
# Round trips: properties C11, C12, C13

`Carried t v` (`Verif/Spec/Encoding.lean`) excludes only what cannot survive: signed integers outside the range of C04,
map keys outside their key type or above the largest field number, and hash maps listing a key twice (which the
standard library rules out).
-/

namespace Steit
open Spec Prog

/-! ## C11 -/

/-- C11: for every type and value, `deserialize(to_bytes(v))` succeeds, consumes all bytes and returns `v` up to runtimes;
in particular the result is `== v`. The build modes of writer and reader and the contents of the size caches are arbitrary. -/
theorem C11_roundtrip (t : Ty) (ht : t.WF) (m m' : Mode) (μ : Mem) (v : t.El) (hc : Carried t v)
    (hlen : (encode t v).length < 2 ^ 32) :
    ∃ bytes v', t.dict.toBytesFrom m μ v = .ok bytes ∧ t.dict.deserialize m' bytes = .ok (v', []) ∧ Same t v' v ∧
      t.eq v' v = true := by
  obtain ⟨v', h1, h2⟩ := (decLaw t ht).round m' Rt.dflt v [] hc hlen (fun _ => rfl)
  refine ⟨encode t v, v', toBytes_eq t ht m μ v (carried_writable t v hc) hlen, ?_, h2, eq_of_same h2 hc⟩
  unfold Dict.deserialize
  rw [(decLaw t ht).dflt_eq]
  rw [List.append_nil] at h1
  rw [h1]

/-- Without the condition on signed integers C11 is false (see C04): `Some(127i8)` comes back as `Some(-1)`. -/
theorem C11_roundtrip_needs_range :
    ∃ bytes, (Ty.option (.sint .w8)).dict.toBytesFrom .release (fun _ => 0) (some 127#8) = .ok bytes ∧
      (Ty.option (.sint .w8)).dict.deserialize .release bytes = .ok (some (BitVec.ofInt 8 (-1)), []) :=
  ⟨[0xfe#8, 0x01#8], by decide, by decide⟩

theorem exVal_carried : Carried exTy exVal := by
  simp only [exTy, exVal, Carried, CarriedFields, CarriedVariant, List.mem_cons, List.not_mem_nil, or_false]
  refine ⟨?_, trivial, trivial⟩
  rintro x (rfl | rfl)
  · exact ⟨trivial, trivial⟩
  · refine ⟨⟨?_, by decide⟩, trivial⟩
    intro e he
    rw [List.mem_singleton.1 he]
    exact ⟨by decide, by decide, by decide⟩

theorem exVal_length : (encode exTy exVal).length = 17 := by
  simp only [exTy, exVal, encode, encodeFields, encodeVariant, framed, leb_eq_lebF]; decide

/-- Not vacuous. -/
example : exTy.WF ∧ Carried exTy exVal ∧ (encode exTy exVal).length < 2 ^ 32 :=
  ⟨exTy_wf, exVal_carried, by rw [exVal_length]; decide⟩

/-! ## C12 -/

theorem writeNested_eq (t : Ty) (ht : t.WF) (m : Mode) (μ : Mem) (v : t.El) (fieldNumber : Option U32)
    (omissible : Bool) (hw : Writable t v) (hfn : ∀ n ∈ fieldNumber, n.toNat < 2 ^ 29)
    (hlen : (leb (8 * 2 ^ 29) ++ framed 2 (encode t v)).length < 2 ^ 32) :
    t.dict.writeNestedFrom m μ v fieldNumber omissible = .ok (match fieldNumber with
        | none => framed (wireOf t) (encode t v)
        | some n => if omissible && leftOut t v (encode t v) then []
          else leb (n.toNat * 8 + wireOf t) ++ framed (wireOf t) (encode t v)) := by
  obtain ⟨size, bytes, μ', h1, h2, h3, h4⟩ := C08_nested_size_exact t ht m μ [] v fieldNumber omissible hw hfn hlen
  unfold Dict.writeNestedFrom
  rw [Prog.run_bind, h1]
  simp only
  rw [h2, h4]
  cases fieldNumber <;> rfl

/-- C12: `deserialize_nested` reads back what `serialize_nested` wrote, whatever follows, and leaves exactly what follows. -/
theorem C12_nested_roundtrip (t : Ty) (ht : t.WF) (m m' : Mode) (μ : Mem) (v : t.El) (rest : Bytes) (hc : Carried t v)
    (hlen : (encode t v).length + 10 < 2 ^ 32) :
    ∃ bytes v', t.dict.writeNestedFrom m μ v none false = .ok bytes ∧
      t.dict.deserializeNested m' t.dict.wire (bytes ++ rest) = .ok (v', rest) ∧ Same t v' v ∧ t.eq v' v = true := by
  have h5 := leb_length_le 4 (encode t v).length (by omega)
  have h4 := leb_length_le 4 (8 * 2 ^ 29) (by decide)
  have hl : (framed (wireOf t) (encode t v)).length < 2 ^ 32 := by
    unfold framed; split
    · omega
    · simp only [List.length_append]; omega
  have hl2 : (leb (8 * 2 ^ 29) ++ framed 2 (encode t v)).length < 2 ^ 32 := by
    simp only [framed, if_neg (show ¬ (2 : Nat) = 0 by decide), List.length_append]; omega
  obtain ⟨v', h1, h2⟩ := (decLaw t ht).deserNested m' v rest hc hl
  exact ⟨_, v', writeNested_eq t ht m μ v none false (carried_writable t v hc) (by simp) hl2, h1, h2, eq_of_same h2 hc⟩

/-- Read `n` nested values one after the other. -/
def readMany {α : Type} (d : Dict α) (m : Mode) : Nat → Bytes → Except Err (List α × Bytes)
  | 0, bs => .ok ([], bs)
  | n + 1, bs =>
    match d.deserializeNested m d.wire bs with
    | .error e => .error e
    | .ok (x, rest) =>
      match readMany d m n rest with
      | .error e => .error e
      | .ok (xs, rest) => .ok (x :: xs, rest)

/-- Write nested values one after the other. -/
def writeMany {α : Type} (d : Dict α) (m : Mode) (μ : Mem) : List α → Except Err Bytes
  | [] => .ok []
  | x :: xs =>
    match d.writeNestedFrom m μ x none false, writeMany d m μ xs with
    | .ok a, .ok b => .ok (a ++ b)
    | .error e, _ => .error e
    | _, .error e => .error e

/-- C12 for sequences: any number of nested values written one after the other are read back one by one; so two sequences
written as the same bytes are the same. -/
theorem C12_sequences (t : Ty) (ht : t.WF) (m m' : Mode) (μ : Mem) (vs : List t.El) (rest : Bytes)
    (hc : ∀ v ∈ vs, Carried t v ∧ (encode t v).length + 10 < 2 ^ 32) :
    ∃ bytes vs', writeMany t.dict m μ vs = .ok bytes ∧
      readMany t.dict m' vs.length (bytes ++ rest) = .ok (vs', rest) ∧ vs'.map (strip t) = vs.map (strip t) := by
  induction vs with
  | nil => exact ⟨[], [], rfl, rfl, rfl⟩
  | cons v vs ih =>
    obtain ⟨b2, ws, h1, h2, h3⟩ := ih (fun x hx => hc x (by simp [hx]))
    obtain ⟨b1, w, g1, g2, g3, _⟩ := C12_nested_roundtrip t ht m m' μ v (b2 ++ rest) (hc v (by simp)).1 (hc v (by simp)).2
    refine ⟨b1 ++ b2, w :: ws, ?_, ?_, ?_⟩
    · simp only [writeMany, g1, h1]
    · simp only [readMany, List.length_cons, List.append_assoc, g2, h2]
    · simp only [List.map_cons, h3, show strip t w = strip t v from g3]

/-- C12, unique parsing: if two sequences of the same length are written as byte strings of which one continues the other,
they agree up to runtimes and the byte strings are equal. -/
theorem C12_unique_parsing (t : Ty) (ht : t.WF) (m : Mode) (μ : Mem) (vs ws : List t.El) (r r' b b' : Bytes)
    (hv : ∀ v ∈ vs, Carried t v ∧ (encode t v).length + 10 < 2 ^ 32)
    (hw : ∀ v ∈ ws, Carried t v ∧ (encode t v).length + 10 < 2 ^ 32) (hl : vs.length = ws.length)
    (h : writeMany t.dict m μ vs = .ok b) (h' : writeMany t.dict m μ ws = .ok b') (he : b ++ r = b' ++ r') :
    vs.map (strip t) = ws.map (strip t) ∧ r = r' := by
  obtain ⟨c, xs, h1, h2, h3⟩ := C12_sequences t ht m .release μ vs r hv
  obtain ⟨c', ys, g1, g2, g3⟩ := C12_sequences t ht m .release μ ws r' hw
  cases h.symm.trans h1
  cases h'.symm.trans g1
  rw [he, hl, g2] at h2
  cases h2
  exact ⟨h3.symm.trans g3, rfl⟩

/-- Not vacuous. -/
example : exTy.WF ∧ Carried exTy exVal ∧ (encode exTy exVal).length + 10 < 2 ^ 32 :=
  ⟨exTy_wf, exVal_carried, by rw [exVal_length]; decide⟩

/-! ## C13 -/

/-- C13: if the generated code leaves a field out then the field's value is its type's default up to runtimes, hence what a
missing field decodes to; the value need not satisfy the conditions of C11. -/
theorem C13_omitted_is_default (t : Ty) (ht : t.WF) (m : Mode) (μ : Mem) (v : t.El) (tag : U32) (hw : Writable t v)
    (htag : tag.toNat < 2 ^ 29) (hlen : (encode t v).length + 10 < 2 ^ 32)
    (h : t.dict.writeNestedFrom m μ v (some tag) true = .ok []) :
    Same t v t.dict.dflt ∧ ∀ rt, Same t v (t.dict.withRuntime rt) := by
  have h5 := leb_length_le 4 (encode t v).length (by omega)
  have h4 := leb_length_le 4 (8 * 2 ^ 29) (by decide)
  have hl2 : (leb (8 * 2 ^ 29) ++ framed 2 (encode t v)).length < 2 ^ 32 := by
    simp only [framed, if_neg (show ¬ (2 : Nat) = 0 by decide), List.length_append]; omega
  rw [writeNested_eq t ht m μ v (some tag) true hw (by rintro n ⟨⟩; exact htag) hl2] at h
  simp only [Bool.true_and, Except.ok.injEq] at h
  have hs : Same t v t.dict.dflt := by
    apply leftOut_default t ht
    split at h
    · assumption
    · simp only [List.append_eq_nil_iff] at h
      exact absurd h.1 (leb_ne_nil _)
  exact ⟨hs, fun rt => hs.trans (withRuntime_same t ht rt).symm⟩

/-- C13, the other direction for the value: a field whose value differs from the default is written, with its key, framed. -/
theorem C13_nondefault_is_written (t : Ty) (ht : t.WF) (m : Mode) (μ : Mem) (v : t.El) (tag : U32) (hw : Writable t v)
    (htag : tag.toNat < 2 ^ 29) (hlen : (encode t v).length + 10 < 2 ^ 32) (hne : ¬ Same t v t.dict.dflt) :
    t.dict.writeNestedFrom m μ v (some tag) true =
      .ok (leb (tag.toNat * 8 + wireOf t) ++ framed (wireOf t) (encode t v)) := by
  have h5 := leb_length_le 4 (encode t v).length (by omega)
  have h4 := leb_length_le 4 (8 * 2 ^ 29) (by decide)
  have hl2 : (leb (8 * 2 ^ 29) ++ framed 2 (encode t v)).length < 2 ^ 32 := by
    simp only [framed, if_neg (show ¬ (2 : Nat) = 0 by decide), List.length_append]; omega
  rw [writeNested_eq t ht m μ v (some tag) true hw (by rintro n ⟨⟩; exact htag) hl2]
  have : leftOut t v (encode t v) = false := by
    rw [Bool.eq_false_iff]
    exact fun h => hne (leftOut_default t ht v h)
  simp [this]

/-- Default integers, bools, texts, vectors, options, maps, lists and structs are in fact left out (so nothing above is
vacuous); the default of an enum or array is written although it need not be. -/
example : ((Ty.vec .bool).dict.writeNestedFrom .debug (fun _ => 0) [] (some 3#32) true = .ok []) ∧
    exTy.dict.writeNestedFrom .debug (fun _ => 7) exTy.dict.dflt (some 3#32) true = .ok [] ∧
    (Ty.array 2 .bool).dict.writeNestedFrom .debug (fun _ => 0) ⟨[false, false], rfl⟩ (some 3#32) true
      = .ok [0x1a#8, 2#8, 0#8, 0#8] := ⟨by decide, by decide, by decide⟩

example : ¬ Same exTy exVal exTy.dict.dflt := by
  intro h
  have h1 := congrArg (fun v : exTy.El => v.fields.1.items.length) h
  revert h1
  decide

end Steit
