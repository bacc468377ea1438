import Verif.Lemmas.Chunks

/-! # Merging whole items one after the other -/

namespace Steit
open Spec

theorem dict_wire : (t : Ty) → t.dict.wire = wireTypeOf t
  | .uint _ => rfl
  | .sint _ => rfl
  | .bool => rfl
  | .string => rfl
  | .bytes => rfl
  | .vec _ => rfl
  | .array _ _ => rfl
  | .tuple _ => rfl
  | .option _ => rfl
  | .box t => dict_wire t
  | .hashMap _ _ => rfl
  | .list _ => rfl
  | .map _ _ => rfl
  | .struct ds _ _ => by cases ds <;> rfl
  | .enum ds _ _ _ => by cases ds <;> rfl

/-- Then: run `k` on the target of a success. -/
def Res.andThen {α : Type} (r : Res α) (k : α → Res α) : Res α :=
  match r with
  | .ok v _ => k v
  | .err v e => .err v e

theorem untilEof_cut {α : Type} {step : α → Bytes → Res α} {P : Bytes → Prop}
    (hs : ∀ v bs v' rest, step v bs = .ok v' rest → rest.length < bs.length)
    (hc : ∀ v c, P c → c ≠ [] ∧ (step v c).Whole ∧ ∀ rest, step v (c ++ rest) = (step v c).putBack rest)
    (x y : Bytes) (v : α) (hx : ∃ cs : List Bytes, x = cs.flatten ∧ ∀ c ∈ cs, P c) :
    untilEof step (x ++ y).length v (x ++ y) =
      (untilEof step x.length v x).andThen (fun v' => untilEof step y.length v' y) := by
  obtain ⟨cs, rfl, h⟩ := hx
  rw [untilEof_chunks hs hc cs v y h]
  unfold Res.andThen
  cases untilEof step cs.flatten.length v cs.flatten <;> rfl

theorem deser_chunk {α : Type} {d : Dict α} {st : Bool} {At : Rt → α → Prop} (h : AnyLaw d st At) (m : Mode)
    (c : Bytes) (hc : Chunk d.wire c) :
    (∃ x, ∀ rest, d.deserializeNested m d.wire (c ++ rest) = .ok (x, rest)) ∨
    (∃ e, ∀ rest, d.deserializeNested m d.wire (c ++ rest) = .error e) := by
  obtain ⟨h1, h2⟩ := h.chunk m d.dflt d.wire c hc
  unfold Dict.deserializeNested
  cases hm : d.mergeNested m d.dflt d.wire c with
  | ok x r =>
    have := h1 _ _ hm
    subst this
    rw [hm] at h2
    exact .inl ⟨x, fun rest => by rw [h2]; rfl⟩
  | err x e =>
    rw [hm] at h2
    exact .inr ⟨e, fun rest => by rw [h2]; rfl⟩

theorem deser_shrink {α : Type} {d : Dict α} {st : Bool} {At : Rt → α → Prop} (h : AnyLaw d st At) {m : Mode}
    {x : α} {wire : WireType} {bs rest : Bytes} (hm : d.deserializeNested m wire bs = .ok (x, rest)) :
    rest.length < bs.length := by
  unfold Dict.deserializeNested at hm
  cases hh : d.mergeNested m d.dflt wire bs with
  | ok y r => rw [hh] at hm; cases hm; exact (mergeNested_shrink h hh).2
  | err y e => rw [hh] at hm; cases hm

theorem whole_ok {α : Type} {v : α} : (Res.ok v []).Whole := fun _ _ h => by cases h; rfl

theorem whole_err {α : Type} {v : α} {e : Err} : (Res.err v e).Whole := fun _ _ h => by cases h

/-- A step that is determined by the chunk it reads. -/
theorem localStep {α : Type} {step : α → Bytes → Res α} {v : α} {c : Bytes}
    (h : (∃ v', ∀ rest, step v (c ++ rest) = .ok v' rest) ∨ (∃ v' e, ∀ rest, step v (c ++ rest) = .err v' e)) :
    (step v c).Whole ∧ ∀ rest, step v (c ++ rest) = (step v c).putBack rest := by
  rcases h with ⟨v', h⟩ | ⟨v', e, h⟩
  · have h0 := h []
    rw [List.append_nil] at h0
    rw [h0]
    exact ⟨whole_ok, h⟩
  · have h0 := h []
    rw [List.append_nil] at h0
    rw [h0]
    exact ⟨whole_err, h⟩

theorem nested_chunk {α : Type} {d : Dict α} {st : Bool} {At : Rt → α → Prop} (h : AnyLaw d st At) (m : Mode) (v : α)
    (c : Bytes) (hc : Chunk d.wire c) :
    (∃ x, ∀ rest, d.mergeNested m v d.wire (c ++ rest) = .ok x rest) ∨
    (∃ x e, ∀ rest, d.mergeNested m v d.wire (c ++ rest) = .err x e) := by
  obtain ⟨h1, h2⟩ := h.chunk m v d.wire c hc
  cases hm : d.mergeNested m v d.wire c with
  | ok x r =>
    have := h1 _ _ hm
    subst this
    rw [hm] at h2
    exact .inl ⟨x, h2⟩
  | err x e =>
    rw [hm] at h2
    exact .inr ⟨x, e, h2⟩

section
variable {α : Type} {d : Dict α} {st : Bool} {At : Rt → α → Prop}

theorem vec_cut (h : AnyLaw d st At) (m : Mode) (v : List α) (x y : Bytes)
    (hx : ∃ cs : List Bytes, x = cs.flatten ∧ ∀ c ∈ cs, Chunk d.wire c) :
    (vecDict d).merge m v (x ++ y) = ((vecDict d).merge m v x).andThen (fun v' => (vecDict d).merge m v' y) := by
  refine untilEof_cut (step := vecStep d m) ?_ ?_ x y v hx
  · intro v bs v' rest hs
    unfold vecStep at hs
    cases hd : d.deserializeNested m d.wire bs with
    | ok xr => obtain ⟨x, r⟩ := xr; rw [hd] at hs; cases hs; exact deser_shrink h hd
    | error e => rw [hd] at hs; cases hs
  · intro v c hc
    refine ⟨hc.ne_nil, localStep ?_⟩
    rcases deser_chunk h m c hc with ⟨x, hx⟩ | ⟨e, hx⟩
    · exact .inl ⟨v ++ [x], fun rest => by unfold vecStep; rw [hx]⟩
    · exact .inr ⟨v, e, fun rest => by unfold vecStep; rw [hx]⟩

theorem option_cut (h : AnyLaw d st At) (m : Mode) (v : Option α) (x y : Bytes)
    (hx : ∃ cs : List Bytes, x = cs.flatten ∧ ∀ c ∈ cs, Chunk d.wire c) :
    (optionDict d).merge m v (x ++ y) = ((optionDict d).merge m v x).andThen (fun v' => (optionDict d).merge m v' y) := by
  refine untilEof_cut (step := optionStep d m) ?_ ?_ x y v hx
  · intro v bs v' rest hs
    unfold optionStep at hs
    cases hd : d.mergeNested m (v.getD d.dflt) d.wire bs with
    | ok x r => rw [hd] at hs; cases hs; exact (mergeNested_shrink h hd).2
    | err x e => rw [hd] at hs; cases hs
  · intro v c hc
    refine ⟨hc.ne_nil, localStep ?_⟩
    rcases nested_chunk h m (v.getD d.dflt) c hc with ⟨x, hx⟩ | ⟨x, e, hx⟩
    · exact .inl ⟨some x, fun rest => by unfold optionStep; rw [hx]; rfl⟩
    · exact .inr ⟨some x, e, fun rest => by unfold optionStep; rw [hx]; rfl⟩

theorem list_cut (h : AnyLaw d st At) (m : Mode) (v : ListV α) (x y : Bytes)
    (hx : ∃ cs : List Bytes, x = cs.flatten ∧ ∀ c ∈ cs, Chunk d.wire c) :
    (listDict d).merge m v (x ++ y) = ((listDict d).merge m v x).andThen (fun v' => (listDict d).merge m v' y) := by
  refine untilEof_cut (step := listStep d m) ?_ ?_ x y v hx
  · intro v bs v' rest hs
    unfold listStep at hs
    cases hd : d.mergeNested m (d.withRuntime (v.rt.nested (fieldNo v.items.length))) d.wire bs with
    | ok x r => simp only [hd] at hs; cases hs; exact (mergeNested_shrink h hd).2
    | err x e => simp only [hd] at hs; cases hs
  · intro v c hc
    refine ⟨hc.ne_nil, localStep ?_⟩
    rcases nested_chunk h m (d.withRuntime (v.rt.nested (fieldNo v.items.length))) c hc with ⟨x, hx⟩ | ⟨x, e, hx⟩
    · exact .inl ⟨⟨v.rt, v.items ++ [x]⟩, fun rest => by unfold listStep; simp only [hx]⟩
    · exact .inr ⟨v, e, fun rest => by unfold listStep; simp only [hx]⟩

theorem readMapKey_field (m : Mode) (kt : KeyTy) (w : WField) (hw : w.OK) (rest : Bytes) :
    readMapKey m kt (w.key ++ rest) = if w.num.toNat ≤ kt.max then .ok (w.num, rest) else .error .invalidData := by
  obtain ⟨h1, h2, h3, h4, _⟩ := hw
  unfold readMapKey
  rw [getVarint_varint m w.key rest h2 (by omega)]
  have hnum := w.wire.num_le
  have hv : (BitVec.ofNat 32 (lebValue w.key)).toNat = w.num.toNat * 8 + w.wire.num := by
    rw [BitVec.toNat_ofNat, h4, Nat.mod_eq_of_lt (by omega)]
  simp only [bind, Except.bind, parseTag_ok _ w.num w.wire hv, validate_ok h1, KeyTy.tryFromFieldNumber]
  by_cases hk : w.num.toNat ≤ kt.max
  · simp only [if_pos hk]
  · simp only [if_neg hk]

theorem map_cut (kt : KeyTy) (h : AnyLaw d st At) (m : Mode) (v : MapV α) (x y : Bytes)
    (hx : ∃ ws : List WField, x = wireBytes ws ∧ ∀ w ∈ ws, w.OK ∧ w.wire = d.wire) :
    (mapDict kt d).merge m v (x ++ y) = ((mapDict kt d).merge m v x).andThen (fun v' => (mapDict kt d).merge m v' y) := by
  refine untilEof_cut (step := mapStep kt d m) (P := fun c => ∃ w : WField, c = w.bytes ∧ w.OK ∧ w.wire = d.wire)
    ?_ ?_ x y v ?_
  · intro v bs v' rest hs
    unfold mapStep at hs
    cases hk : readMapKey m kt bs with
    | error e => rw [hk] at hs; cases hs
    | ok kr =>
      obtain ⟨k, r⟩ := kr
      obtain ⟨c, rfl, hc⟩ := readMapKey_ok' hk
      have hpos := hc.length_pos
      rw [hk] at hs
      simp only at hs
      have key : rest.length < r.length → rest.length < (c ++ r).length := by
        simp only [List.length_append]; omega
      cases hg : entriesGet k v.entries with
      | some z =>
        simp only [hg] at hs
        cases hd : d.mergeNested m z d.wire r with
        | ok x r' => rw [hd] at hs; cases hs; exact key (mergeNested_shrink h hd).2
        | err x e => rw [hd] at hs; cases hs
      | none =>
        simp only [hg] at hs
        cases hd : d.mergeNested m (d.withRuntime (v.rt.nested k)) d.wire r with
        | ok x r' => rw [hd] at hs; cases hs; exact key (mergeNested_shrink h hd).2
        | err x e => rw [hd] at hs; cases hs
  · rintro v c ⟨w, rfl, hw, hwt⟩
    refine ⟨hw.bytes_ne, localStep ?_⟩
    have hk : ∀ rest, readMapKey m kt (w.bytes ++ rest) = if w.num.toNat ≤ kt.max then .ok (w.num, w.body ++ rest)
        else .error .invalidData := by
      intro rest
      rw [WField.bytes, List.append_assoc]
      exact readMapKey_field m kt w hw _
    by_cases hkt : w.num.toNat ≤ kt.max
    · simp only [if_pos hkt] at hk
      have hc : Chunk d.wire w.body := hwt ▸ hw.2.2.2.2
      cases hg : entriesGet w.num v.entries with
      | some z =>
        rcases nested_chunk h m z w.body hc with ⟨x, hx⟩ | ⟨x, e, hx⟩
        · exact .inl ⟨⟨v.rt, entriesInsert w.num x v.entries⟩, fun rest => by
            unfold mapStep; rw [hk]; simp only [hg, hx]; rfl⟩
        · exact .inr ⟨⟨v.rt, entriesInsert w.num x v.entries⟩, e, fun rest => by
            unfold mapStep; rw [hk]; simp only [hg, hx]; rfl⟩
      | none =>
        rcases nested_chunk h m (d.withRuntime (v.rt.nested w.num)) w.body hc with ⟨x, hx⟩ | ⟨x, e, hx⟩
        · exact .inl ⟨⟨v.rt, entriesInsert w.num x v.entries⟩, fun rest => by
            unfold mapStep; rw [hk]; simp only [hg, hx]⟩
        · exact .inr ⟨v, e, fun rest => by
            unfold mapStep; rw [hk]; simp only [hg, hx]⟩
    · simp only [if_neg hkt] at hk
      exact .inr ⟨v, .invalidData, fun rest => by unfold mapStep; rw [hk]⟩
  · obtain ⟨ws, rfl, hw⟩ := hx
    refine ⟨ws.map WField.bytes, wireBytes_eq ws, ?_⟩
    intro c hc
    obtain ⟨w, hw', rfl⟩ := List.mem_map.1 hc
    exact ⟨w, rfl, hw w hw'⟩

theorem hashMap_cut {κ : Type} {dk : Dict κ} {stk : Bool} {Atk : Rt → κ → Prop} (eq : κ → κ → Bool)
    (hk : AnyLaw dk stk Atk) (h : AnyLaw d st At) (m : Mode) (v : List (κ × α)) (x y : Bytes)
    (hx : ∃ cs : List (Bytes × Bytes), x = cs.flatMap (fun c => c.1 ++ c.2) ∧
      ∀ c ∈ cs, Chunk dk.wire c.1 ∧ Chunk d.wire c.2) :
    (hashMapDict eq dk d).merge m v (x ++ y) =
      ((hashMapDict eq dk d).merge m v x).andThen (fun v' => (hashMapDict eq dk d).merge m v' y) := by
  refine untilEof_cut (step := hashMapStep eq dk d m)
    (P := fun c => ∃ a b, c = a ++ b ∧ Chunk dk.wire a ∧ Chunk d.wire b) ?_ ?_ x y v ?_
  · intro v bs v' rest hs
    unfold hashMapStep at hs
    cases hd : dk.deserializeNested m dk.wire bs with
    | error e => rw [hd] at hs; cases hs
    | ok xr =>
      obtain ⟨x, r⟩ := xr
      rw [hd] at hs
      simp only at hs
      cases hd' : d.deserializeNested m d.wire r with
      | error e => rw [hd'] at hs; cases hs
      | ok xr =>
        obtain ⟨y, r'⟩ := xr
        rw [hd'] at hs
        cases hs
        have := deser_shrink hk hd
        have := deser_shrink h hd'
        omega
  · rintro v c ⟨a, b, rfl, ha, hb⟩
    refine ⟨?_, localStep ?_⟩
    · have := ha.ne_nil; simp [this]
    · rcases deser_chunk hk m a ha with ⟨x, hx⟩ | ⟨e, hx⟩
      · rcases deser_chunk h m b hb with ⟨y, hy⟩ | ⟨e, hy⟩
        · exact .inl ⟨hashInsert eq x y v, fun rest => by
            unfold hashMapStep; rw [List.append_assoc, hx]; simp only [hy]⟩
        · exact .inr ⟨v, e, fun rest => by unfold hashMapStep; rw [List.append_assoc, hx]; simp only [hy]⟩
      · exact .inr ⟨v, e, fun rest => by unfold hashMapStep; rw [List.append_assoc, hx]⟩
  · obtain ⟨cs, rfl, hc⟩ := hx
    refine ⟨cs.map (fun c => c.1 ++ c.2), by rw [List.flatMap_def], ?_⟩
    intro c hc'
    obtain ⟨p, hp, rfl⟩ := List.mem_map.1 hc'
    exact ⟨p.1, p.2, rfl, hc p hp⟩

end

theorem struct_cut (ds cached : Bool) (fs : Fields) (hwf : fs.WF ds) (m : Mode) (v : StructV fs.El) (x y : Bytes)
    (hx : ∃ ws : List WField, x = wireBytes ws ∧ ∀ w ∈ ws, w.OK) :
    (Ty.struct ds cached fs).dict.merge m v (x ++ y) =
      ((Ty.struct ds cached fs).dict.merge m v x).andThen (fun v' => (Ty.struct ds cached fs).dict.merge m v' y) := by
  obtain ⟨ws, rfl, hw⟩ := hx
  have hm : ∀ (v : StructV fs.El) bs, (Ty.struct ds cached fs).dict.merge m v bs =
      ((fs.dict ds).merge m v.fields bs).map (fun fields => ⟨v.rt, fields⟩) := by
    intro v bs; cases ds <;> rfl
  rw [hm, hm, merge_fields fs ds hwf m v.fields ws hw y, merge_feeds fs ds hwf m v.fields ws hw]
  cases feeds fs m v.fields ws with
  | ok v' r =>
    simp only [Res.map, Res.andThen]
    rw [hm]
    cases (fs.dict ds).merge m v' y <;> rfl
  | err v' e => rfl

theorem merge_boundary : (t : Ty) → t.WF → (m : Mode) → (v : t.El) → (x y : Bytes) → Boundary t x →
    t.dict.merge m v (x ++ y) = (t.dict.merge m v x).andThen (fun v' => t.dict.merge m v' y)
  | .vec t, h, m, v, x, y, hb => vec_cut (anyLaw t h) m v x y (by rw [dict_wire]; exact hb)
  | .option t, h, m, v, x, y, hb => option_cut (anyLaw t h) m v x y (by rw [dict_wire]; exact hb)
  | .list t, h, m, v, x, y, hb => list_cut (anyLaw t h.2) m v x y (by rw [dict_wire]; exact hb)
  | .hashMap k w, h, m, v, x, y, hb =>
    hashMap_cut k.eq (anyLaw k h.1) (anyLaw w h.2) m v x y (by rw [dict_wire, dict_wire]; exact hb)
  | .map kt t, h, m, v, x, y, hb => map_cut kt (anyLaw t h.2) m v x y (by rw [dict_wire]; exact hb)
  | .struct ds cached fs, h, m, v, x, y, hb => struct_cut ds cached fs h.2 m v x y hb
  | .bytes, _, m, v, x, y, _ => by
    show Res.ok (v ++ (x ++ y)) [] = Res.ok (v ++ x ++ y) []
    rw [List.append_assoc]
  | .box t, h, m, v, x, y, hb => merge_boundary t h m v x y hb
  | .uint _, _, _, _, _, _, hb => nomatch hb
  | .sint _, _, _, _, _, _, hb => nomatch hb
  | .bool, _, _, _, _, _, hb => nomatch hb
  | .string, _, _, _, _, _, hb => nomatch hb
  | .array _ _, _, _, _, _, _, hb => nomatch hb
  | .tuple _, _, _, _, _, _, hb => nomatch hb
  | .enum _ _ _ _, _, _, _, _, _, hb => nomatch hb

/-! ### What the encoder writes is made of whole fields -/

theorem encode_varint : (t : Ty) → (v : t.El) → wireOf t = 0 → IsVarint (encode t v)
  | .uint _, v, _ => leb_isVarint _
  | .sint _, v, _ => leb_isVarint _
  | .bool, v, _ => leb_isVarint _
  | .box t, v, h => encode_varint t v h
  | .string, _, h => nomatch h
  | .bytes, _, h => nomatch h
  | .vec _, _, h => nomatch h
  | .array _ _, _, h => nomatch h
  | .tuple _, _, h => nomatch h
  | .option _, _, h => nomatch h
  | .hashMap _ _, _, h => nomatch h
  | .list _, _, h => nomatch h
  | .map _ _, _, h => nomatch h
  | .struct _ _ _, _, h => nomatch h
  | .enum _ _ _ _, _, h => nomatch h

theorem wireOf_cases : (t : Ty) → wireOf t = 0 ∨ wireOf t = 2
  | .uint _ => .inl rfl
  | .sint _ => .inl rfl
  | .bool => .inl rfl
  | .box t => wireOf_cases t
  | .string => .inr rfl
  | .bytes => .inr rfl
  | .vec _ => .inr rfl
  | .array _ _ => .inr rfl
  | .tuple _ => .inr rfl
  | .option _ => .inr rfl
  | .hashMap _ _ => .inr rfl
  | .list _ => .inr rfl
  | .map _ _ => .inr rfl
  | .struct _ _ _ => .inr rfl
  | .enum _ _ _ _ => .inr rfl

theorem wireTypeOf_num (t : Ty) : (wireTypeOf t).num = wireOf t := by
  unfold wireTypeOf
  rcases wireOf_cases t with h | h <;> rw [h] <;> rfl

theorem framed_chunk (t : Ty) (v : t.El) (h : (framed (wireOf t) (encode t v)).length < 2 ^ 64) :
    Chunk (wireTypeOf t) (framed (wireOf t) (encode t v)) := by
  unfold wireTypeOf
  rcases wireOf_cases t with hw | hw
  · simp only [hw, if_true, framed, Chunk]
    exact encode_varint t v hw
  · simp only [hw, framed] at h ⊢
    simp only [show ¬ (2 : Nat) = 0 by decide, if_false, List.length_append] at h ⊢
    have hlt : (encode t v).length < 2 ^ 64 := by omega
    refine ⟨_, _, rfl, leb_isVarint _, leb_length_le 9 _ ?_, lebValue_leb _, hlt⟩
    exact Nat.lt_of_lt_of_le hlt (by decide)

theorem key_ok (tag : U32) (t : Ty) (htag : tag.toNat < 2 ^ 29) :
    IsVarint (leb (tag.toNat * 8 + wireOf t)) ∧ (leb (tag.toNat * 8 + wireOf t)).length ≤ 5 ∧
      lebValue (leb (tag.toNat * 8 + wireOf t)) = tag.toNat * 8 + (wireTypeOf t).num := by
  have hn : wireOf t ≤ 2 := by rcases wireOf_cases t with h | h <;> omega
  exact ⟨leb_isVarint _, leb_length_le 4 _ (by omega), by rw [lebValue_leb, wireTypeOf_num]⟩

theorem fieldsOf_ok : (fs : Fields) → (ds : Bool) → fs.WF ds → (v : fs.El) → (encodeFields fs v).length < 2 ^ 64 →
    (∀ w ∈ fieldsOf fs v, w.OK ∧ w.num ∈ fs.tags) ∧ encodeFields fs v = wireBytes (fieldsOf fs v)
  | .nil, _, _, _, _ => ⟨by simp [fieldsOf], rfl⟩
  | .cons tag attrs t fs, ds, h, v, hl => by
    simp only [encodeFields, List.length_append] at hl
    obtain ⟨h1, h2⟩ := fieldsOf_ok fs ds h.2.2.2 v.2 (by omega)
    simp only [fieldsOf, encodeFields, Fields.tags]
    split
    · refine ⟨?_, by simpa using h2⟩
      intro w hw
      obtain ⟨g1, g2⟩ := h1 w (by simpa using hw)
      exact ⟨g1, by simp [g2]⟩
    · next hlo =>
      rw [if_neg hlo] at hl
      simp only [List.length_append] at hl
      have htag := tag_lt h.1
      obtain ⟨k1, k2, k3⟩ := key_ok tag t htag
      refine ⟨?_, ?_⟩
      · intro w hw
        simp only [List.cons_append, List.nil_append, List.mem_cons] at hw
        rcases hw with rfl | hw
        · exact ⟨⟨htag, k1, k2, k3, framed_chunk t v.1 (by omega)⟩, by simp⟩
        · obtain ⟨g1, g2⟩ := h1 w hw
          exact ⟨g1, by simp [g2]⟩
      · rw [h2]
        simp [wireBytes, WField.bytes]

/-- What the encoder writes ends at a boundary. -/
theorem encode_boundary : (t : Ty) → t.WF → (v : t.El) → Writable t v → (encode t v).length < 2 ^ 64 →
    (match t with
      | .vec _ | .option _ | .list _ | .hashMap _ _ | .map _ _ | .struct _ _ _ | .bytes => True
      | _ => False) → Boundary t (encode t v)
  | .vec t, h, v, _, hl, _ => items_boundary t v hl
  | .option t, h, v, _, hl, _ => items_boundary t v.toList hl
  | .list t, h, v, _, hl, _ => items_boundary t v.items hl
  | .hashMap k w, h, v, _, hl, _ => by
    refine ⟨v.map (fun e => (framed (wireOf k) (encode k e.1), framed (wireOf w) (encode w e.2))), ?_, ?_⟩
    · simp only [encode, List.flatMap_map]
    · intro c hc
      obtain ⟨e, he, rfl⟩ := List.mem_map.1 hc
      have := flatMap_length_le (fun e => framed (wireOf k) (encode k e.1) ++ framed (wireOf w) (encode w e.2)) v e he
      simp only [encode] at hl
      simp only [List.length_append] at this hl
      exact ⟨framed_chunk k e.1 (by omega), framed_chunk w e.2 (by omega)⟩
  | .map kt t, h, v, hw, hl, _ => by
    refine ⟨v.entries.map (fun e => ⟨e.1, wireTypeOf t, leb (e.1.toNat * 8 + wireOf t),
      framed (wireOf t) (encode t e.2)⟩), ?_, ?_⟩
    · simp only [encode, wireBytes, List.flatMap_map, WField.bytes]
    · intro w hw'
      obtain ⟨e, he, rfl⟩ := List.mem_map.1 hw'
      have := flatMap_length_le (fun e : U32 × t.El => leb (e.1.toNat * 8 + wireOf t) ++ framed (wireOf t) (encode t e.2))
        v.entries e he
      simp only [encode] at hl
      simp only [List.length_append] at this hl
      obtain ⟨k1, k2, k3⟩ := key_ok e.1 t (hw e he).1
      exact ⟨⟨(hw e he).1, k1, k2, k3, framed_chunk t e.2 (by omega)⟩, rfl⟩
  | .struct ds cached fs, h, v, _, hl, _ => by
    obtain ⟨h1, h2⟩ := fieldsOf_ok fs ds h.2 v.fields hl
    exact ⟨fieldsOf fs v.fields, h2, fun w hw => (h1 w hw).1⟩
  | .bytes, _, _, _, _, _ => trivial
where
  flatMap_length_le {α : Type} (f : α → Bytes) (l : List α) (x : α) (hx : x ∈ l) :
      (f x).length ≤ (l.flatMap f).length := by
    induction l with
    | nil => cases hx
    | cons y l ih =>
      simp only [List.flatMap_cons, List.length_append]
      rcases List.mem_cons.1 hx with rfl | hx
      · omega
      · have := ih hx; omega
  items_boundary (t : Ty) (xs : List t.El)
      (hl : (xs.flatMap (fun x => framed (wireOf t) (encode t x))).length < 2 ^ 64) :
      ∃ cs : List Bytes, xs.flatMap (fun x => framed (wireOf t) (encode t x)) = cs.flatten ∧
        ∀ c ∈ cs, Chunk (wireTypeOf t) c := by
    refine ⟨xs.map (fun x => framed (wireOf t) (encode t x)), by rw [List.flatMap_def], ?_⟩
    intro c hc
    obtain ⟨x, hx, rfl⟩ := List.mem_map.1 hc
    have := flatMap_length_le (fun x => framed (wireOf t) (encode t x)) xs x hx
    exact framed_chunk t x (by omega)

end Steit
