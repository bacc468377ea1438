import Verif.Lemmas.Evolve
import Verif.Props.RoundTrip

/-!
# Messages as sequences of fields: properties C14, C15, C16, C17 and part of C19

The input is any sequence of well-formed fields (`WField.OK`): numbers up to 2^29 - 1 in any order and any multiplicity,
keys and lengths in any varint encoding, arbitrary payloads.
-/

namespace Steit
open Spec Prog

theorem struct_merge_fields (ds cached : Bool) (fs : Fields) (hwf : fs.WF ds) (m : Mode) (v : StructV fs.El)
    (ws : List WField) (hw : ∀ w ∈ ws, w.OK) :
    (Ty.struct ds cached fs).dict.merge m v (wireBytes ws) =
      (feeds fs m v.fields ws).map (fun fields => ⟨v.rt, fields⟩) := by
  have hm : (Ty.struct ds cached fs).dict.merge m v (wireBytes ws) =
      ((fs.dict ds).merge m v.fields (wireBytes ws)).map (fun fields => ⟨v.rt, fields⟩) := by cases ds <;> rfl
  rw [hm, merge_feeds fs ds hwf m v.fields ws hw]

theorem mem_filter_ok {ws : List WField} {p : WField → Bool} (hw : ∀ w ∈ ws, w.OK) : ∀ w ∈ ws.filter p, w.OK :=
  fun w h => hw w (List.mem_filter.1 h).1

/-! ## C14 -/

/-- C14 as one would like it: fields with unknown numbers do not matter. -/
def C14Statement (m : Mode) : Prop :=
  ∀ (ds cached : Bool) (fs : Fields), (Ty.struct ds cached fs).WF → ∀ (v : (Ty.struct ds cached fs).El)
    (ws : List WField), (∀ w ∈ ws, w.OK) →
    (Ty.struct ds cached fs).dict.merge m v (wireBytes ws) =
      (Ty.struct ds cached fs).dict.merge m v (wireBytes (ws.filter (fun w => w.num ∈ fs.tags)))

/-- C14 is false in debug builds: an unknown varint field of three bytes panics (it is skipped by reading it as a `u8`). -/
theorem C14_false_debug : ¬ C14Statement .debug := by
  intro h
  have := h false false .nil ⟨List.nodup_nil, trivial⟩ ⟨Rt.dflt, ()⟩ [⟨1#32, .varint, [8#8], [0x80#8, 0x80#8, 0x01#8]⟩]
    (by
      intro w hw
      rw [List.mem_singleton.1 hw]
      refine ⟨by decide, ⟨[], 8#8, rfl, by simp, by decide⟩, by decide, by decide, ?_⟩
      exact ⟨[0x80#8, 0x80#8], 0x01#8, rfl, by decide, by decide⟩)
  have h2 : (Ty.struct false false .nil).dict.merge .debug ⟨Rt.dflt, ()⟩
      (wireBytes [⟨1#32, .varint, [8#8], [0x80#8, 0x80#8, 0x01#8]⟩]) = .err ⟨Rt.dflt, ()⟩ .panic := by decide
  rw [h2] at this
  have h3 : (Ty.struct false false .nil).dict.merge .debug ⟨Rt.dflt, ()⟩ [] = .ok ⟨Rt.dflt, ()⟩ [] := by decide
  rw [show wireBytes (List.filter (fun w : WField => decide (w.num ∈ Fields.nil.tags))
    [⟨1#32, .varint, [8#8], [0x80#8, 0x80#8, 0x01#8]⟩]) = [] by decide, h3] at this
  cases this

/-- C14: merging a sequence of fields into a struct gives exactly the same outcome (value, runtimes, error) as merging only
those with known numbers, if the unknown ones can be skipped by the build: varints of at most two bytes in debug builds, any
varint in release builds, payloads below 2^63 bytes. -/
theorem C14_unknown_skipped_partial (ds cached : Bool) (fs : Fields) (hwf : (Ty.struct ds cached fs).WF) (m : Mode)
    (v : (Ty.struct ds cached fs).El) (ws : List WField) (hw : ∀ w ∈ ws, w.OK)
    (hs : ∀ w ∈ ws, w.num ∉ fs.tags → w.Skippable m) :
    (Ty.struct ds cached fs).dict.merge m v (wireBytes ws) =
      (Ty.struct ds cached fs).dict.merge m v (wireBytes (ws.filter (fun w => w.num ∈ fs.tags))) := by
  rw [struct_merge_fields ds cached fs hwf.2 m v ws hw,
    struct_merge_fields ds cached fs hwf.2 m v _ (mem_filter_ok hw), feeds_unknown fs m ws v.fields hw hs]

/-- C14 in release builds has no exceptions below payloads of 2^63 bytes. -/
theorem C14_unknown_skipped_release (ds cached : Bool) (fs : Fields) (hwf : (Ty.struct ds cached fs).WF)
    (v : (Ty.struct ds cached fs).El) (ws : List WField) (hw : ∀ w ∈ ws, w.OK) (hs : ∀ w ∈ ws, w.body.length < 2 ^ 63) :
    (Ty.struct ds cached fs).dict.merge .release v (wireBytes ws) =
      (Ty.struct ds cached fs).dict.merge .release v (wireBytes (ws.filter (fun w => w.num ∈ fs.tags))) := by
  refine C14_unknown_skipped_partial ds cached fs hwf .release v ws hw (fun w h _ => ?_)
  unfold WField.Skippable
  cases w.wire with
  | varint => exact .inl rfl
  | sized => exact hs w h

/-- C14 for values: whatever skippable fields with unknown numbers are strewn between the fields of a written struct, the
decoded value is the written one. -/
theorem C14_inserted_skipped_partial (ds cached : Bool) (fs : Fields) (hwf : (Ty.struct ds cached fs).WF) (m : Mode)
    (v : (Ty.struct ds cached fs).El) (hc : Carried (.struct ds cached fs) v)
    (hlen : (encode (.struct ds cached fs) v).length < 2 ^ 32) (ws : List WField) (hw : ∀ w ∈ ws, w.OK)
    (hs : ∀ w ∈ ws, w.num ∉ fs.tags → w.Skippable m)
    (hk : ws.filter (fun w => w.num ∈ fs.tags) = fieldsOf fs v.fields) :
    ∃ v', (Ty.struct ds cached fs).dict.deserialize m (wireBytes ws) = .ok (v', []) ∧ Same (.struct ds cached fs) v' v := by
  obtain ⟨bytes, v', h1, h2, h3, _⟩ := C11_roundtrip (.struct ds cached fs) hwf m m (fun _ => 0) v hc hlen
  have hb := toBytes_eq (.struct ds cached fs) hwf m (fun _ => 0) v (carried_writable _ v hc) hlen
  rw [hb] at h1
  cases h1
  refine ⟨v', ?_, h3⟩
  unfold Dict.deserialize at h2 ⊢
  rw [C14_unknown_skipped_partial ds cached fs hwf m _ ws hw hs, hk]
  have : encode (.struct ds cached fs) v = wireBytes (fieldsOf fs v.fields) :=
    (fieldsOf_ok fs ds hwf.2 v.fields (by have := hlen; simp only [encode] at this; omega)).2
  rw [← this]
  exact h2

theorem variants_unknown : (vs : Variants) → (ds : Bool) → vs.tags.Nodup → vs.WF ds → (m : Mode) → (x : vs.El) →
    (ws : List WField) → (∀ w ∈ ws, w.OK) →
    (∀ w ∈ ws, w.num ∉ fieldTagsOf vs ((vs.dict ds).tagOf x) → w.Skippable m) →
    (vs.dict ds).mergeFields m x (wireBytes ws) =
      (vs.dict ds).mergeFields m x (wireBytes (ws.filter (fun w => w.num ∈ fieldTagsOf vs ((vs.dict ds).tagOf x))))
  | .nil, _, _, _, _, x, _, _, _ => nomatch x
  | .cons tag cached fs vs, ds, hn, hwf, m, .inl x, ws, hw, hs => by
    have ht : ((Variants.cons tag cached fs vs).dict ds).tagOf (.inl x) = tag := rfl
    simp only [ht, fieldTagsOf, if_true] at hs ⊢
    show ((fs.dict ds).merge m x _).map Sum.inl = ((fs.dict ds).merge m x _).map Sum.inl
    rw [merge_feeds fs ds hwf.2.2.1 m x ws hw, merge_feeds fs ds hwf.2.2.1 m x _ (mem_filter_ok hw),
      feeds_unknown fs m ws x hw hs]
  | .cons tag cached fs vs, ds, hn, hwf, m, .inr x, ws, hw, hs => by
    have hn := List.nodup_cons.1 hn
    have ht : ((Variants.cons tag cached fs vs).dict ds).tagOf (.inr x) = (vs.dict ds).tagOf x := rfl
    have hne : (vs.dict ds).tagOf x ≠ tag := fun h => hn.1 (h ▸ (variantsDec vs ds hn.2 hwf.2.2.2).tag_mem x)
    simp only [ht, fieldTagsOf, if_neg hne] at hs ⊢
    show ((vs.dict ds).mergeFields m x _).map Sum.inr = ((vs.dict ds).mergeFields m x _).map Sum.inr
    rw [variants_unknown vs ds hn.2 hwf.2.2.2 m x ws hw hs]

/-- C14 for enums: after the tag of the variant (in any varint encoding of at most five bytes), fields the variant does not
have are skipped. -/
theorem C14_unknown_skipped_enum_partial (ds cached : Bool) (fs : Fields) (vs : Variants)
    (hwf : (Ty.enum ds cached fs vs).WF) (m : Mode) (v : (Ty.enum ds cached fs vs).El) (head : Bytes) (tag : U32)
    (hh : IsVarint head) (hh5 : head.length ≤ 5) (ht : lebValue head = tag.toNat) (ws : List WField) (hw : ∀ w ∈ ws, w.OK)
    (hs : ∀ w ∈ ws, w.num ∉ fieldTagsOf (.cons 0#32 cached fs vs) tag → w.Skippable m) :
    (Ty.enum ds cached fs vs).dict.merge m v (head ++ wireBytes ws) =
      (Ty.enum ds cached fs vs).dict.merge m v
        (head ++ wireBytes (ws.filter (fun w => w.num ∈ fieldTagsOf (.cons 0#32 cached fs vs) tag))) := by
  have hn : (Variants.cons 0#32 cached fs vs).tags.Nodup := List.nodup_cons.2 ⟨hwf.2.2.2.1, hwf.2.2.1⟩
  have hwf' : (Variants.cons 0#32 cached fs vs).WF ds := ⟨by decide, hwf.1, hwf.2.1, hwf.2.2.2.2⟩
  have hm : ∀ bs, (Ty.enum ds cached fs vs).dict.merge m v bs =
      enumMerge ds ((Variants.cons 0#32 cached fs vs).dict ds) m v bs := by intro bs; cases ds <;> rfl
  rw [hm, hm]
  have hg : ∀ y, getVarint m 32 (head ++ y) = .ok (tag, y) := by
    intro y
    rw [getVarint_varint m head y hh (by omega), ht]
    simp
  have key : ∀ x : (Variants.cons 0#32 cached fs vs).El, ((Variants.cons 0#32 cached fs vs).dict ds).tagOf x = tag →
      ((Variants.cons 0#32 cached fs vs).dict ds).mergeFields m x (wireBytes ws) =
      ((Variants.cons 0#32 cached fs vs).dict ds).mergeFields m x
        (wireBytes (ws.filter (fun w => w.num ∈ fieldTagsOf (.cons 0#32 cached fs vs) tag))) := by
    intro x hx
    have := variants_unknown (.cons 0#32 cached fs vs) ds hn hwf' m x ws hw (by rw [hx]; exact hs)
    rw [hx] at this
    exact this
  have hv := variantsDec (.cons 0#32 cached fs vs) ds hn hwf'
  unfold enumMerge
  rw [hg, hg]
  simp only
  split
  · next h => rw [key v.val h.symm]
  · split
    · split
      · rfl
      · split
        · rfl
        · next x hx => rw [key x (hv.ctor_some _ _ _ hx)]
    · split
      · rfl
      · next x hx => rw [key x (hv.ctor_some _ _ _ hx)]

/-- Not vacuous: a known field, an unknown varint and an unknown payload. -/
example : ∃ ws : List WField, (∀ w ∈ ws, w.OK) ∧ ws.length = 3 ∧
    (∀ w ∈ ws, w.num ∉ (Fields.cons 1#32 {} .bool .nil).tags → w.Skippable .debug) ∧
    (Ty.struct true true (.cons 1#32 {} .bool .nil)).dict.merge .debug ⟨Rt.dflt, (false, ())⟩ (wireBytes ws) =
      .ok ⟨Rt.dflt, (true, ())⟩ [] := by
  refine ⟨[⟨2#32, .varint, [16#8], [0xff#8, 0x7f#8]⟩, ⟨1#32, .varint, [8#8], [1#8]⟩, ⟨3#32, .sized, [26#8], [2#8, 7#8, 7#8]⟩],
    ?_, rfl, ?_, by decide⟩
  · intro w hw
    simp only [List.mem_cons, List.not_mem_nil, or_false] at hw
    rcases hw with rfl | rfl | rfl
    · exact ⟨by decide, ⟨[], 16#8, rfl, by simp, by decide⟩, by decide, by decide, ⟨[0xff#8], 0x7f#8, rfl, by decide, by decide⟩⟩
    · exact ⟨by decide, ⟨[], 8#8, rfl, by simp, by decide⟩, by decide, by decide, ⟨[], 1#8, rfl, by decide, by decide⟩⟩
    · exact ⟨by decide, ⟨[], 26#8, rfl, by simp, by decide⟩, by decide, by decide,
        ⟨[2#8], [7#8, 7#8], rfl, ⟨[], 2#8, rfl, by simp, by decide⟩, by decide, by decide, by decide⟩⟩
  · intro w hw
    simp only [List.mem_cons, List.not_mem_nil, or_false] at hw
    rcases hw with rfl | rfl | rfl
    · intro _; exact .inr (by decide)
    · intro h; exact absurd (by decide) h
    · intro _; show List.length _ < 2 ^ 63; decide

/-! ## C15 -/

/-- C15: whether and how a sequence of fields decodes depends only on the fields of each number in their relative order; how
fields of different numbers are interleaved does not matter. Unknown fields included, any build mode, any target. -/
theorem C15_order_irrelevant (ds cached : Bool) (fs : Fields) (hwf : (Ty.struct ds cached fs).WF) (m : Mode)
    (v v' : (Ty.struct ds cached fs).El) (ws ws' : List WField) (hw : ∀ w ∈ ws, w.OK)
    (hf : ∀ n, ws.filter (fun w => w.num = n) = ws'.filter (fun w => w.num = n))
    (h : (Ty.struct ds cached fs).dict.merge m v (wireBytes ws) = .ok v' []) :
    (Ty.struct ds cached fs).dict.merge m v (wireBytes ws') = .ok v' [] := by
  have hw' : ∀ w ∈ ws', w.OK := by
    intro w h
    have : w ∈ ws'.filter (fun x => x.num = w.num) := List.mem_filter.2 ⟨h, by simp⟩
    rw [← hf] at this
    exact hw w (List.mem_filter.1 this).1
  rw [struct_merge_fields ds cached fs hwf.2 m v ws hw] at h
  rw [struct_merge_fields ds cached fs hwf.2 m v ws' hw']
  cases hx : feeds fs m v.fields ws with
  | err x e => rw [hx] at h; cases h
  | ok x r =>
    rw [hx] at h
    cases h
    obtain ⟨r', hr'⟩ := feeds_order fs m ws ws' v.fields x hf ⟨_, hx⟩
    rw [feeds_ok_nil.1 ⟨_, hr'⟩]
    rfl

/-- C15 for written values: the fields of a struct in any other order decode to the same value. -/
theorem C15_permuted (ds cached : Bool) (fs : Fields) (hwf : (Ty.struct ds cached fs).WF) (m : Mode)
    (v : (Ty.struct ds cached fs).El) (hc : Carried (.struct ds cached fs) v)
    (hlen : (encode (.struct ds cached fs) v).length < 2 ^ 32) (ws : List WField) (hp : (fieldsOf fs v.fields).Perm ws) :
    ∃ v', (Ty.struct ds cached fs).dict.deserialize m (wireBytes ws) = .ok (v', []) ∧
      (Ty.struct ds cached fs).dict.deserialize m (encode (.struct ds cached fs) v) = .ok (v', []) ∧
      Same (.struct ds cached fs) v' v := by
  obtain ⟨bytes, v', h1, h2, h3, _⟩ := C11_roundtrip (.struct ds cached fs) hwf m m (fun _ => 0) v hc hlen
  have hb := toBytes_eq (.struct ds cached fs) hwf m (fun _ => 0) v (carried_writable _ v hc) hlen
  rw [hb] at h1
  cases h1
  refine ⟨v', ?_, h2, h3⟩
  obtain ⟨g1, g2⟩ := fieldsOf_ok fs ds hwf.2 v.fields (by have := hlen; simp only [encode] at this; omega)
  have he : encode (.struct ds cached fs) v = wireBytes (fieldsOf fs v.fields) := g2
  unfold Dict.deserialize at h2 ⊢
  rw [he] at h2
  have hd : (fieldsOf fs v.fields).map WField.num |>.Nodup := (fieldsOf_nums fs v.fields).nodup hwf.1
  cases hm : (Ty.struct ds cached fs).dict.merge m (Ty.struct ds cached fs).dict.dflt (wireBytes (fieldsOf fs v.fields)) with
  | err x e => rw [hm] at h2; cases h2
  | ok x r =>
    rw [hm] at h2
    cases h2
    rw [C15_order_irrelevant ds cached fs hwf m _ _ _ ws (fun w h => (g1 w h).1) (filter_num_perm hp hd) hm]

/-- Not vacuous: a struct with three written fields, reversed. -/
example : ∃ (fs : Fields) (v : fs.El), (Ty.struct true true fs).WF ∧ (fieldsOf fs v).length = 3 ∧
    (fieldsOf fs v).Perm (fieldsOf fs v).reverse ∧ (fieldsOf fs v) ≠ (fieldsOf fs v).reverse := by
  refine ⟨.cons 1#32 {} (.uint .w16) (.cons 9#32 {} .bool (.cons 4#32 {} (.list .bool) .nil)),
    (300#16, true, ⟨Rt.dflt, [true]⟩, ()), ⟨by decide, ?_⟩, ?_, (List.reverse_perm _).symm, ?_⟩
  · exact ⟨by decide, fun _ => rfl, trivial, by decide, fun _ => rfl, trivial, by decide, fun _ => rfl, ⟨rfl, trivial⟩, trivial⟩
  · simp [fieldsOf, leftOut, encode, framed, leb_eq_lebF]
    decide
  · simp [fieldsOf, leftOut, encode, framed, leb_eq_lebF]
    decide

/-! ## C16 -/

/-- C16: for every type whose `merge` is a loop (structs, lists, maps, `Vec`, `Option`, hash maps, `Bytes`, boxes of these),
merging `x ++ y`, where `x` is made of whole fields, items or entries, is merging `x` and then merging `y` into the result;
`y` is arbitrary, `x` may hold anything well-formed, errors included. -/
theorem C16_sequential (t : Ty) (ht : t.WF) (m : Mode) (v : t.El) (x y : Bytes) (hx : Boundary t x) :
    t.dict.merge m v (x ++ y) =
      match t.dict.merge m v x with
      | .ok v' _ => t.dict.merge m v' y
      | .err v' e => .err v' e := by
  rw [merge_boundary t ht m v x y hx]
  unfold Res.andThen
  cases t.dict.merge m v x <;> rfl

/-- The types C16 is about. -/
def LoopStyle : Ty → Bool
  | .vec _ | .option _ | .list _ | .hashMap _ _ | .map _ _ | .struct _ _ _ | .bytes => true
  | _ => false

/-- C16 for written values: decoding `enc a ++ bs` is decoding `enc a`, which gives `a`, and merging `bs` into it. -/
theorem C16_after_value (t : Ty) (ht : t.WF) (hl : LoopStyle t = true) (m : Mode) (a : t.El) (hc : Carried t a)
    (hlen : (encode t a).length < 2 ^ 32) (bs : Bytes) :
    ∃ a', Same t a' a ∧ t.dict.merge m t.dict.dflt (encode t a ++ bs) = t.dict.merge m a' bs := by
  obtain ⟨a', h1, h2⟩ := (decLaw t ht).round m Rt.dflt a [] hc hlen (fun _ => rfl)
  have hb : Boundary t (encode t a) := by
    refine encode_boundary t ht a (carried_writable t a hc) (by omega) ?_
    cases t <;> first | trivial | cases hl
  refine ⟨a', h2, ?_⟩
  rw [C16_sequential t ht m _ _ bs hb, (decLaw t ht).dflt_eq]
  rw [List.append_nil] at h1
  rw [h1]

/-- C16 read as a law about vectors and lists: concatenated encodings decode to the concatenation. -/
theorem C16_vec_append (t : Ty) (ht : t.WF) (m : Mode) (a b : List t.El) (ha : ∀ x ∈ a ++ b, Carried t x)
    (hlen : (encode (.vec t) a ++ encode (.vec t) b).length < 2 ^ 32) :
    ∃ c, (Ty.vec t).dict.deserialize m (encode (.vec t) a ++ encode (.vec t) b) = .ok (c, []) ∧ Same (.vec t) c (a ++ b) := by
  have he : encode (.vec t) a ++ encode (.vec t) b = encode (.vec t) (a ++ b) := by
    simp only [encode, List.flatMap_append]
  rw [he] at hlen ⊢
  obtain ⟨c, h1, h2⟩ := (decLaw (.vec t) ht).round m Rt.dflt (a ++ b) [] ha hlen (fun _ => rfl)
  rw [List.append_nil] at h1
  refine ⟨c, ?_, h2⟩
  unfold Dict.deserialize
  rw [(decLaw (.vec t) ht).dflt_eq, h1]

/-- The same for `List`: items of `b` are appended behind those of `a` (and get addresses of their own, see C25). -/
theorem C16_list_append (t : Ty) (ht : (Ty.list t).WF) (m : Mode) (a b : List t.El) (ha : ∀ x ∈ a ++ b, Carried t x)
    (hlen : (encode (.vec t) a ++ encode (.vec t) b).length < 2 ^ 32) :
    ∃ c, (Ty.list t).dict.deserialize m (encode (.list t) ⟨Rt.dflt, a⟩ ++ encode (.list t) ⟨Rt.dflt, b⟩) = .ok (c, []) ∧
      Same (.list t) c ⟨Rt.dflt, a ++ b⟩ := by
  have he : encode (.list t) ⟨Rt.dflt, a⟩ ++ encode (.list t) ⟨Rt.dflt, b⟩ = encode (.list t) ⟨Rt.dflt, a ++ b⟩ := by
    simp only [encode, List.flatMap_append]
  have hlen : (encode (.list t) ⟨Rt.dflt, a ++ b⟩).length < 2 ^ 32 := by
    rw [← he]; simpa only [encode] using hlen
  rw [he]
  obtain ⟨c, h1, h2⟩ := (decLaw (.list t) ht).round m Rt.dflt ⟨Rt.dflt, a ++ b⟩ [] ha hlen (fun _ => rfl)
  rw [List.append_nil] at h1
  refine ⟨c, ?_, h2⟩
  unfold Dict.deserialize
  rw [(decLaw (.list t) ht).dflt_eq, h1]

/-- Not vacuous: `exTy` is a struct, and its written value ends at a boundary. -/
example : exTy.WF ∧ LoopStyle exTy = true ∧ Carried exTy exVal ∧ Boundary exTy (encode exTy exVal) :=
  ⟨exTy_wf, rfl, exVal_carried,
    encode_boundary exTy exTy_wf exVal (carried_writable _ _ exVal_carried) (by rw [exVal_length]; decide) trivial⟩

/-- Tuples and arrays are not loops: a second tuple behind the first is ignored. -/
example : (Ty.tuple (.cons .bool (.cons .bool .nil))).dict.merge .debug (false, false, ()) ([1#8, 1#8] ++ [0#8, 0#8])
    = .ok (true, true, ()) [] := by decide

/-! ## C17 -/

/-- C17, old programs: a program that does not know the added fields reads new data as the part it knows, provided its build
can skip the added fields (always in release builds). -/
theorem C17_old_reads_new_partial (ds cached : Bool) (e : Evo) (hwf : (Ty.struct ds cached e.new).WF) (m : Mode) (v : e.new.El)
    (hc : CarriedFields e.new v) (hlen : (encodeFields e.new v).length < 2 ^ 32)
    (hs : ∀ w ∈ fieldsOf e.new v, w.num ∉ e.old.tags → w.Skippable m) :
    ∃ v' : StructV e.old.El, (Ty.struct ds cached e.old).dict.deserialize m (encodeFields e.new v) = .ok (v', []) ∧
      stripFields e.old v'.fields = stripFields e.old (e.narrow v) := by
  obtain ⟨g1, g2⟩ := fieldsOf_ok e.new ds hwf.2 v (by omega)
  have hold : (Ty.struct ds cached e.old).WF := ⟨e.old_sub.nodup hwf.1, e.old_wf ds hwf.2⟩
  have hk := e.filter_old e.old.tags hwf.1 (fun _ _ => Iff.rfl) v
  obtain ⟨v', h1, h2⟩ := C14_inserted_skipped_partial ds cached e.old hold m ⟨Rt.dflt, e.narrow v⟩ (e.narrow_carried v hc)
    (by have := e.narrow_length v; simp only [encode]; omega) (fieldsOf e.new v) (fun w h => (g1 w h).1) hs hk
  rw [g2]
  refine ⟨v', h1, ?_⟩
  exact congrArg StructV.fields h2

/-- C17, old programs in release builds: no exceptions. -/
theorem C17_old_reads_new_release (ds cached : Bool) (e : Evo) (hwf : (Ty.struct ds cached e.new).WF) (v : e.new.El)
    (hc : CarriedFields e.new v) (hlen : (encodeFields e.new v).length < 2 ^ 32) :
    ∃ v' : StructV e.old.El, (Ty.struct ds cached e.old).dict.deserialize .release (encodeFields e.new v) = .ok (v', []) ∧
      stripFields e.old v'.fields = stripFields e.old (e.narrow v) := by
  refine C17_old_reads_new_partial ds cached e hwf .release v hc hlen ?_
  intro w hw _
  have hl : w.body.length ≤ (encodeFields e.new v).length := by
    rw [(fieldsOf_ok e.new ds hwf.2 v (by omega)).2]
    have := mem_flatMap_length (f := WField.bytes) hw
    unfold wireBytes
    simp only [WField.bytes, List.length_append] at this ⊢
    omega
  unfold WField.Skippable
  cases w.wire with
  | varint => exact .inl rfl
  | sized => show w.body.length < 2 ^ 63; omega

/-- C17 is false for old programs in debug builds: adding a `u32` field makes an old debug build panic on new data in which
the field needs three bytes. -/
theorem C17_old_reads_new_false_debug :
    let e : Evo := .add 1#32 {} (.uint .w32) .nil
    (Ty.struct true true e.new).WF ∧ CarriedFields e.new (16384#32, ()) ∧
      (Ty.struct true true e.old).dict.deserialize .debug (encodeFields e.new (16384#32, ())) = .error .panic := by
  refine ⟨⟨by decide, by decide, fun _ => rfl, trivial, trivial⟩, ⟨trivial, trivial⟩, ?_⟩
  have : encodeFields (Evo.add 1#32 {} (.uint .w32) .nil).new (16384#32, ()) = [8#8, 0x80#8, 0x80#8, 0x01#8] := by
    simp only [encodeFields, encode, leftOut, framed, wireOf, leb_eq_lebF]; decide
  rw [this]
  decide

/-- C17, new programs: they read old data as the old value with the added fields at their defaults. -/
theorem C17_new_reads_old (ds cached : Bool) (e : Evo) (hwf : (Ty.struct ds cached e.new).WF) (m : Mode) (w : e.old.El)
    (hc : CarriedFields e.old w) (hlen : (encodeFields e.old w).length < 2 ^ 32) :
    ∃ v' : StructV e.new.El, (Ty.struct ds cached e.new).dict.deserialize m (encodeFields e.old w) = .ok (v', []) ∧
      stripFields e.new v'.fields = stripFields e.new (e.widen w) := by
  obtain ⟨g1, g2⟩ := fieldsOf_ok e.old ds (e.old_wf ds hwf.2) w (by omega)
  have hd : ∃ rt rt', (Ty.struct ds cached e.new).dict.dflt = ⟨rt, (e.new.dict ds).init rt'⟩ := by
    cases ds
    · exact ⟨Rt.dflt, none, rfl⟩
    · exact ⟨Rt.dflt, some Rt.dflt, rfl⟩
  obtain ⟨rt, rt', hd⟩ := hd
  obtain ⟨v', h1, h2⟩ := e.feeds_old ds m rt' hwf.1 hwf.2 w hc hlen
  refine ⟨⟨rt, v'⟩, ?_, h2⟩
  unfold Dict.deserialize
  rw [g2, hd, struct_merge_fields ds cached e.new hwf.2 m _ _ (fun w h => (g1 w h).1), h1]
  rfl

/-- Not vacuous: one kept field between two added ones. -/
example : let e : Evo := .add 3#32 {} (.list .bool) (.keep 1#32 {} (.uint .w32) (.add 2#32 { noState := true } .string .nil))
    (Ty.struct true true e.new).WF ∧ e.old.tags = [1#32] ∧ e.new.tags = [3#32, 1#32, 2#32] :=
  ⟨⟨by decide, by decide, fun _ => rfl, ⟨rfl, trivial⟩, by decide, fun _ => rfl, trivial, by decide, by simp, trivial, trivial⟩,
    rfl, rfl⟩

/-! ## C19, fields -/

/-- C19 for messages: whatever a field holds, if the rest of the message decodes with and without it, all other fields come out
the same. -/
theorem C19_field_isolated (ds cached : Bool) (fs : Fields) (hwf : (Ty.struct ds cached fs).WF) (m : Mode)
    (v v1 v2 : (Ty.struct ds cached fs).El) (w : WField) (ws : List WField) (hw : ∀ x ∈ w :: ws, x.OK)
    (h1 : (Ty.struct ds cached fs).dict.merge m v (w.bytes ++ wireBytes ws) = .ok v1 [])
    (h2 : (Ty.struct ds cached fs).dict.merge m v (wireBytes ws) = .ok v2 []) :
    v1.rt = v2.rt ∧ AgreeExcept fs w.num v1.fields v2.fields := by
  have hb : w.bytes ++ wireBytes ws = wireBytes (w :: ws) := by simp [wireBytes]
  rw [hb, struct_merge_fields ds cached fs hwf.2 m v (w :: ws) hw] at h1
  rw [struct_merge_fields ds cached fs hwf.2 m v ws (fun x h => hw x (by simp [h]))] at h2
  cases h3 : feeds fs m v.fields (w :: ws) with
  | err x e => rw [h3] at h1; cases h1
  | ok x r =>
    cases h4 : feeds fs m v.fields ws with
    | err x e => rw [h4] at h2; cases h2
    | ok y r' =>
      rw [h3] at h1
      rw [h4] at h2
      cases h1
      cases h2
      exact ⟨rfl, feeds_other fs m w ws v.fields x y h3 h4⟩

end Steit
