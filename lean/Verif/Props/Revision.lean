import Verif.Lemmas.Revision
import Verif.Props.RoundTrip

/-!
# Reading data written with another revision of the type: property C55

`Rev` (`Verif/Spec/Revision.lean`) is any pair of types related by the permitted changes, at any depth; `see` is what the reader
should make of a value. C17 is the special case of fields added at the top level of one struct.
-/

namespace Steit
open Spec Prog

/-! ## C55 -/

/-- C55: whatever a program wrote with one revision of a type, a program with another revision reads completely, and gets
everything both of them know, defaults for what only the reader knows, and nothing else. Build modes of both programs and the
contents of size caches are arbitrary; `Seen` excludes variants the reader does not know and, for readers in debug builds,
unknown varints of more than two bytes. -/
theorem C55_other_revision_partial (r : Rev) (hw : r.wr.WF) (hr : r.rd.WF) (hrules : r.Rules) (m m' : Mode) (μ : Mem)
    (v : r.wr.El) (hv : Writable r.wr v) (hs : Seen m' r v) (hlen : (encode r.wr v).length < 2 ^ 32) :
    ∃ bytes v', r.wr.dict.toBytesFrom m μ v = .ok bytes ∧ r.rd.dict.deserialize m' bytes = .ok (v', []) ∧
      strip r.rd v' = see r v := by
  have h := readLaw r hw hr hrules
  obtain ⟨v', h1, h2⟩ := h.round m' Rt.dflt v [] hs hlen (fun _ => rfl)
  refine ⟨encode r.wr v, v', toBytes_eq r.wr hw m μ v hv hlen, ?_, h2⟩
  unfold Dict.deserialize
  rw [List.append_nil] at h1
  rw [h.dflt_eq, h1]

/-- C55 for nested values, whatever follows: the reader stops exactly where the writer stopped. -/
theorem C55_other_revision_nested_partial (r : Rev) (hw : r.wr.WF) (hr : r.rd.WF) (hrules : r.Rules) (m m' : Mode) (μ : Mem)
    (v : r.wr.El) (rest : Bytes) (hv : Writable r.wr v) (hs : Seen m' r v) (hlen : (encode r.wr v).length + 10 < 2 ^ 32) :
    ∃ bytes v', r.wr.dict.writeNestedFrom m μ v none false = .ok bytes ∧
      r.rd.dict.deserializeNested m' r.rd.dict.wire (bytes ++ rest) = .ok (v', rest) ∧ strip r.rd v' = see r v := by
  have h5 := leb_length_le 4 (encode r.wr v).length (by omega)
  have h4 := leb_length_le 4 (8 * 2 ^ 29) (by decide)
  have hl : (framed (wireOf r.wr) (encode r.wr v)).length < 2 ^ 32 := by
    unfold framed; split
    · omega
    · simp only [List.length_append]; omega
  have hl2 : (leb (8 * 2 ^ 29) ++ framed 2 (encode r.wr v)).length < 2 ^ 32 := by
    simp only [framed, if_neg (show ¬ (2 : Nat) = 0 by decide), List.length_append]; omega
  obtain ⟨v', h1, h2⟩ := (readLaw r hw hr hrules).deserNested m' v rest hs hl
  exact ⟨_, v', writeNested_eq r.wr hw m μ v none false hv (by simp) hl2, h1, h2⟩

/-- A change in several places: inside the items of a `Vec` that became a `List`, a field was added (`String`), another one
(`bool`) was dropped, one was widened, one was retyped; the enum around them got another variant. -/
def exRev : Rev :=
  .enum false true true true .nil
    (.drop 7#32 true .nil
      (.keep 1#32 true true
        (.keep 1#32 { noState := true } {}
          (.vecList (.struct false true true true
            (.keep 2#32 {} {} (.uint .w8 .w32)
              (.add 3#32 { noState := true } .string
                (.add 6#32 {} (.uint .w32)
                  (.drop 4#32 {} .bool
                    (.retype 5#32 {} {} .bool (.list .bool) .nil)))))))
          .nil)
        (.add 9#32 true .nil .nil)))

/-- A value of it. -/
def exRevVal : exRev.wr.El :=
  ⟨Rt.dflt, .inr (.inl ([⟨Rt.dflt, (200#8, ⟨[0x68#8, 0x69#8], rfl⟩, 300#32, true, ())⟩,
    ⟨Rt.dflt, (0#8, ⟨[], rfl⟩, 0#32, false, ())⟩], ()))⟩

theorem exRev_wr : exRev.wr.WF := by
  simp only [exRev, Ty.WF, Fields.WF, Variants.WF, Fields.tags, Variants.tags, Ty.isState]
  decide

theorem exRev_rd : exRev.rd.WF := by
  simp only [exRev, Ty.WF, Fields.WF, Variants.WF, Fields.tags, Variants.tags, Ty.isState]
  decide

theorem exRev_rules : exRev.Rules := by
  simp only [exRev, Rev.Rules, RevFields.Rules, RevVariants.Rules, RevFields.tags, wireOf]
  decide

theorem exRev_seen (m : Mode) : Seen m exRev exRevVal := by
  simp only [exRev, exRevVal, Seen, SeenVariant, SeenFields, List.mem_cons, List.not_mem_nil, or_false, and_true]
  rintro x (rfl | rfl)
  · refine ⟨trivial, .inr (.inr (.inl (by decide))), .inr (.inr (.inr ?_)), .inr (.inr (.inr ?_))⟩
    · simp only [encode, leb_eq_lebF]; decide
    · simp only [encode, leb_eq_lebF]; decide
  · exact ⟨trivial, .inl rfl, .inl rfl, .inl rfl⟩

/-- Not vacuous: the reader sees the widened numbers, its own fields at their defaults, nothing of the added ones. -/
example : exRev.wr.WF ∧ exRev.rd.WF ∧ exRev.Rules ∧ Seen .debug exRev exRevVal ∧
    see exRev exRevVal = ⟨Rt.dflt, .inr (.inr (.inl (⟨Rt.dflt,
      [⟨Rt.dflt, (200#32, false, ⟨Rt.dflt, []⟩, ())⟩, ⟨Rt.dflt, (0#32, false, ⟨Rt.dflt, []⟩, ())⟩]⟩, ())))⟩ :=
  ⟨exRev_wr, exRev_rd, exRev_rules, exRev_seen _, rfl⟩

/-- A vector of enums that became a vector of `Bytes`, in a message that is widened elsewhere. -/
def exHide : Rev :=
  .struct false true true true
    (.keep 1#32 {} { noState := true } (.vec (.hide (.enum false true .nil (.cons 4#32 true (.cons 2#32 {} .bool .nil) .nil))))
      (.keep 2#32 {} {} (.uint .w8 .w32) .nil))

/-- A value of it. -/
def exHideVal : exHide.wr.El := ⟨Rt.dflt, ([⟨Rt.dflt, .inr (.inl (true, ()))⟩, ⟨Rt.dflt, .inl ()⟩], 9#8, ())⟩

/-- Not vacuous with opaque parts: the reader sees the encodings of the enums. -/
example : exHide.wr.WF ∧ exHide.rd.WF ∧ exHide.Rules ∧ Seen .debug exHide exHideVal ∧
    see exHide exHideVal = ⟨Rt.dflt, ([[4#8, 16#8, 1#8], [0#8]], 9#32, ())⟩ := by
  refine ⟨?_, ?_, ?_, ?_, ?_⟩
  · simp only [exHide, Ty.WF, Fields.WF, Variants.WF, Fields.tags, Variants.tags, Ty.isState]; decide
  · simp only [exHide, Ty.WF, Fields.WF, Fields.tags, Ty.isState]; decide
  · simp only [exHide, Rev.Rules, RevFields.Rules, RevFields.tags, wireOf]; decide
  · exact ⟨fun _ _ => trivial, trivial, trivial⟩
  · simp only [exHide, exHideVal, see, seeFields, List.map_cons, List.map_nil, encode, encodeVariant, encodeFields, leftOut, framed, wireOf, leb_eq_lebF]; rfl

/-- C55 is false without the condition on unknown varints: a field added to the messages in a `Vec` makes old debug builds
panic. -/
theorem C55_false_debug :
    let r : Rev := .vec (.struct false false false false (.add 1#32 {} (.uint .w32) .nil))
    r.wr.WF ∧ r.rd.WF ∧ r.Rules ∧ Seen .release r [⟨Rt.dflt, (16384#32, ())⟩] ∧
      ∃ bytes, r.wr.dict.toBytesFrom .release (fun _ => 0) [⟨Rt.dflt, (16384#32, ())⟩] = .ok bytes ∧
        r.rd.dict.deserialize .debug bytes = .error .panic ∧
        r.rd.dict.deserialize .release bytes = .ok ([⟨Rt.dflt, ()⟩], []) := by
  refine ⟨?_, ?_, ?_, ?_, [4#8, 8#8, 0x80#8, 0x80#8, 0x01#8], by decide, by decide, by decide⟩
  · simp only [Ty.WF, Fields.WF, Fields.tags]; decide
  · simp only [Ty.WF, Fields.WF, Fields.tags]; decide
  · simp only [Rev.Rules, RevFields.Rules, RevFields.tags]; decide
  · intro x hx
    rw [List.mem_singleton.1 hx]
    exact ⟨.inr (.inl rfl), trivial⟩

/-- The rule on widths is needed: a reader with a narrower integer type reads numbers modulo 2^bits without an error. -/
theorem C55_narrower_truncates : ∀ m,
    (Ty.struct false false (.cons 1#32 {} (.uint .w32) .nil)).dict.toBytesFrom m (fun _ => 0) ⟨Rt.dflt, (300#32, ())⟩ =
      .ok [8#8, 0xac#8, 0x02#8] ∧
    (Ty.struct false false (.cons 1#32 {} (.uint .w8) .nil)).dict.deserialize m [8#8, 0xac#8, 0x02#8] =
      .ok (⟨Rt.dflt, (44#8, ())⟩, []) := by
  intro m; cases m <;> decide

/-- Variants the reader does not know are errors, in every build, whatever they contain: nothing is made up. -/
theorem C55_unknown_variant (ds cached : Bool) (fs : Fields) (vs : Variants) (hwf : (Ty.enum ds cached fs vs).WF) (m : Mode)
    (tag : U32) (hn : tag ∉ 0#32 :: vs.tags) (payload : Bytes) :
    (Ty.enum ds cached fs vs).dict.deserialize m (leb tag.toNat ++ payload) = .error .invalidData := by
  have hn' : (Variants.cons 0#32 cached fs vs).tags.Nodup := List.nodup_cons.2 ⟨hwf.2.2.2.1, hwf.2.2.1⟩
  have hv := variantsDec (.cons 0#32 cached fs vs) ds hn' ⟨by decide, hwf.1, hwf.2.1, hwf.2.2.2.2⟩
  have h0 : tag ≠ 0#32 := fun h => hn (h ▸ List.mem_cons_self)
  have hg := getVarint_leb m (w := 32) tag.toNat payload tag.isLt (by decide)
  have hc : ∀ rt, ((Variants.cons 0#32 cached fs vs).dict ds).ctor tag rt = none := fun rt => hv.ctor_none tag rt hn
  have hd : ∃ rt val, (Ty.enum ds cached fs vs).dict.dflt = ⟨rt, .inl val⟩ := by
    cases ds
    · exact ⟨_, _, rfl⟩
    · exact ⟨_, _, rfl⟩
  obtain ⟨rt, val, hd⟩ := hd
  have hm : (Ty.enum ds cached fs vs).dict.merge m (Ty.enum ds cached fs vs).dict.dflt (leb tag.toNat ++ payload) =
      enumMerge ds ((Variants.cons 0#32 cached fs vs).dict ds) m ⟨rt, .inl val⟩ (leb tag.toNat ++ payload) := by
    rw [hd]; cases ds <;> rfl
  have he : ∃ v, enumMerge ds ((Variants.cons 0#32 cached fs vs).dict ds) m ⟨rt, .inl val⟩ (leb tag.toNat ++ payload) =
      .err v .invalidData := by
    unfold enumMerge
    rw [hg]
    simp only [BitVec.ofNat_toNat, BitVec.setWidth_eq]
    rw [if_neg (show ¬ tag = ((Variants.cons 0#32 cached fs vs).dict ds).tagOf (.inl val) from h0)]
    simp only [hc]
    cases ds with
    | false => exact ⟨_, rfl⟩
    | true =>
      simp only [if_true]
      cases rt.parent with
      | error e => exact ⟨_, rfl⟩
      | ok p => exact ⟨_, rfl⟩
  obtain ⟨v, he⟩ := he
  unfold Dict.deserialize
  rw [hm, he]

/-- Not vacuous: the variant only the writer of `exRev` knows. -/
example : exRev.wr.dict.toBytesFrom .debug (fun _ => 0) ⟨Rt.dflt, .inr (.inr (.inl ()))⟩ = .ok [9#8] ∧
    9#32 ∉ [0#32, 7#32, 1#32] ∧ exRev.rd.dict.deserialize .release [9#8] = .error .invalidData :=
  ⟨by decide, by decide, rfl⟩

end Steit
