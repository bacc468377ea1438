import Verif.Lemmas.AnyTy
import Verif.Spec.Chunks

/-! # Reading a message field by field -/

namespace Steit
open Spec

theorem Spec.Chunk.ne_nil {wire : WireType} {c : Bytes} (h : Chunk wire c) : c ≠ [] := by
  cases wire with
  | varint => exact IsVarint.ne_nil h
  | sized =>
    obtain ⟨len, payload, rfl, h1, _⟩ := h
    have := h1.ne_nil
    simp [this]

/-- Result with unread input put back in front of `rest`. -/
def Res.putBack {α : Type} (rest : Bytes) : Res α → Res α
  | .ok v r => .ok v (r ++ rest)
  | .err v e => .err v e

theorem Res.putBack_map {α β : Type} (f : α → β) (rest : Bytes) (r : Res α) :
    (r.map f).putBack rest = (r.putBack rest).map f := by cases r <;> rfl

/-- `r` consumed everything or failed. -/
def Res.Whole {α : Type} (r : Res α) : Prop := ∀ v rest, r = .ok v rest → rest = []

theorem Res.Whole.map {α β : Type} {r : Res α} (f : α → β) (h : r.Whole) : (r.map f).Whole := by
  intro v rest hr
  cases r with
  | ok v' r' => cases hr; exact h v' _ rfl
  | err v' e => cases hr

theorem skipField_chunk (m : Mode) (wire : WireType) (c : Bytes) (hc : Chunk wire c) :
    (∀ rest, skipField m wire (c ++ rest) = .ok rest) ∨ (∀ rest, skipField m wire (c ++ rest) = .error .panic) := by
  cases wire with
  | varint =>
    rcases (readsVarint_uint m (w := 8) (by decide)).conf hc with ⟨x, hx⟩ | hx
    · left; intro rest; simp only [skipField, hx, bind, Except.bind]
    · right; intro rest; simp only [skipField, hx, bind, Except.bind]
  | sized =>
    obtain ⟨len, payload, rfl, h1, h2, h3, h4⟩ := hc
    have hg : ∀ rest, getVarint m 64 (len ++ payload ++ rest) = .ok (BitVec.ofNat 64 (lebValue len), payload ++ rest) := by
      intro rest
      rw [List.append_assoc]
      exact getVarint_varint m len _ h1 (by omega)
    by_cases hs : 2 ^ 63 ≤ payload.length
    · right; intro rest
      simp only [skipField, hg, bind, Except.bind, BitVec.toNat_ofNat, h3, Nat.mod_eq_of_lt h4, if_pos hs]
    · left; intro rest
      simp only [skipField, hg, bind, Except.bind, BitVec.toNat_ofNat, h3, Nat.mod_eq_of_lt h4, if_neg hs, List.drop_left]

theorem skipField_skippable (m : Mode) (w : WField) (hw : w.OK) (hs : w.Skippable m) :
    ∀ rest, skipField m w.wire (w.body ++ rest) = .ok rest := by
  obtain ⟨num, wire, key, body⟩ := w
  have hc := hw.2.2.2.2
  cases wire with
  | varint =>
    intro rest
    rcases hs with rfl | hs
    · obtain ⟨x, hx⟩ := (readsVarint_uint .release (w := 8) (by decide)).rel rfl hc
      simp only [skipField, hx, bind, Except.bind]
    · have := getVarint_varint m (w := 8) body rest hc (by simp only at hs; omega)
      simp only [skipField, this, bind, Except.bind]
  | sized =>
    rcases skipField_chunk m .sized body hc with h | h
    · exact h
    · exfalso
      obtain ⟨len, payload, he, h1, h2, h3, h4⟩ := hc
      simp only at he
      subst he
      have hs : (len ++ payload).length < 2 ^ 63 := hs
      simp only [List.length_append] at hs
      have h := h []
      rw [List.append_nil] at h
      simp only [skipField, getVarint_varint m (w := 64) len payload h1 (by omega), bind, Except.bind, BitVec.toNat_ofNat, h3,
        Nat.mod_eq_of_lt h4, if_neg (show ¬ 2 ^ 63 ≤ payload.length by omega)] at h
      cases h

theorem AnyLaw.chunk {α : Type} {d : Dict α} {st : Bool} {At : Rt → α → Prop} (h : AnyLaw d st At) (m : Mode) (v : α)
    (wire : WireType) (c : Bytes) (hc : Chunk wire c) :
    (d.mergeNested m v wire c).Whole ∧
      ∀ rest, d.mergeNested m v wire (c ++ rest) = (d.mergeNested m v wire c).putBack rest := by
  suffices h : (∃ v', ∀ rest, d.mergeNested m v wire (c ++ rest) = .ok v' rest) ∨
      (∃ v' e, ∀ rest, d.mergeNested m v wire (c ++ rest) = .err v' e) by
    rcases h with ⟨v', h⟩ | ⟨v', e, h⟩
    · have h0 := h []
      rw [List.append_nil] at h0
      rw [h0]
      exact ⟨fun _ _ hr => (by cases hr; rfl), h⟩
    · have h0 := h []
      rw [List.append_nil] at h0
      rw [h0]
      exact ⟨fun _ _ hr => (by cases hr), h⟩
  by_cases hw : wire = d.wire
  · cases wire with
    | varint =>
      obtain ⟨get, hg, hm⟩ := h.varint hw.symm m
      have : ∀ rest, d.mergeNested m v .varint (c ++ rest) = d.merge m v (c ++ rest) := by
        intro rest; unfold Dict.mergeNested; rw [← hw]; rfl
      rcases hg.conf hc with ⟨x, hx⟩ | hx
      · exact .inl ⟨x, fun rest => by rw [this, hm, hx]⟩
      · exact .inr ⟨v, .panic, fun rest => by rw [this, hm, hx]⟩
    | sized =>
      obtain ⟨len, payload, rfl, h1, h2, h3, h4⟩ := hc
      have : ∀ rest, d.mergeNested m v .sized (len ++ payload ++ rest) =
          match d.merge m v payload with
          | .ok v' unread => .ok v' (unread ++ rest)
          | .err v' e => .err v' e := by
        intro rest
        unfold Dict.mergeNested
        rw [← hw]
        simp only [ne_eq, not_true_eq_false, if_false, withNested]
        rw [List.append_assoc, getVarint_varint m len _ h1 (by omega)]
        simp only [BitVec.toNat_ofNat, h3, Nat.mod_eq_of_lt h4, List.take_left, List.drop_left]
        cases d.merge m v payload <;> rfl
      cases hm : d.merge m v payload with
      | ok v' r =>
        have hr := h.sized_all hw.symm _ _ _ _ _ hm
        subst hr
        exact .inl ⟨v', fun rest => by rw [this, hm]; rfl⟩
      | err v' e => exact .inr ⟨v', e, fun rest => by rw [this, hm]⟩
  · have : ∀ rest, d.mergeNested m v wire (c ++ rest) = match skipField m wire (c ++ rest) with
        | .ok rest => .ok v rest
        | .error e => .err v e := by
      intro rest; unfold Dict.mergeNested; rw [if_pos hw]; cases skipField m wire (c ++ rest) <;> rfl
    rcases skipField_chunk m wire c hc with hs | hs
    · exact .inl ⟨v, fun rest => by rw [this, hs]⟩
    · exact .inr ⟨v, .panic, fun rest => by rw [this, hs]⟩

/-! ### One field -/

/-- What a message does with one field. -/
def feed : (fs : Fields) → Mode → fs.El → WField → Res fs.El
  | .nil, m, v, w =>
    match skipField m w.wire w.body with
    | .ok rest => .ok v rest
    | .error e => .err v e
  | .cons tag _ t fs, m, v, w =>
    if w.num = tag then (t.dict.mergeNested m v.1 w.wire w.body).map (fun x => (x, v.2))
    else (feed fs m v.2 w).map (fun y => (v.1, y))

/-- What the arms of the generated `match` do, with unread input. -/
def armOf (fs : Fields) (ds : Bool) (m : Mode) (n : U32) (wire : WireType) (v : fs.El) (bs : Bytes) : Res fs.El :=
  match (fs.dict ds).mergeField m n wire v bs with
  | some r => r
  | none =>
    match skipField m wire bs with
    | .ok rest => .ok v rest
    | .error e => .err v e

theorem armOf_cons (tag : U32) (attrs : FieldAttrs) (t : Ty) (fs : Fields) (ds : Bool) (m : Mode) (n : U32)
    (wire : WireType) (v : (Fields.cons tag attrs t fs).El) (bs : Bytes) :
    armOf (.cons tag attrs t fs) ds m n wire v bs =
      if n = tag then (t.dict.mergeNested m v.1 wire bs).map (fun x => (x, v.2))
      else (armOf fs ds m n wire v.2 bs).map (fun y => (v.1, y)) := by
  have he : ((Fields.cons tag attrs t fs).dict ds).mergeField m n wire v bs =
      if n = tag then some ((t.dict.mergeNested m v.1 wire bs).map (fun x => (x, v.2)))
      else ((fs.dict ds).mergeField m n wire v.2 bs).map (fun r => r.map (fun y => (v.1, y))) := rfl
  unfold armOf
  rw [he]
  by_cases hn : n = tag
  · simp only [hn, if_true]
  · simp only [if_neg hn]
    cases (fs.dict ds).mergeField m n wire v.2 bs with
    | some r => rfl
    | none =>
      simp only [Option.map_none]
      cases skipField m wire bs <;> rfl

theorem armOf_feed : (fs : Fields) → (ds : Bool) → fs.WF ds → (m : Mode) → (v : fs.El) → (w : WField) →
    Chunk w.wire w.body → (feed fs m v w).Whole ∧
      ∀ rest, armOf fs ds m w.num w.wire v (w.body ++ rest) = (feed fs m v w).putBack rest
  | .nil, ds, _, m, v, w, hc => by
    rcases skipField_chunk m w.wire w.body hc with hs | hs
    · have h0 := hs []
      rw [List.append_nil] at h0
      refine ⟨?_, ?_⟩
      · intro v' r hr
        simp only [feed, h0] at hr
        cases hr; rfl
      · intro rest
        simp only [feed, h0, armOf, Fields.dict, fieldsNil, hs, Res.putBack, List.nil_append]
    · have h0 := hs []
      rw [List.append_nil] at h0
      refine ⟨?_, ?_⟩
      · intro v' r hr
        simp only [feed, h0] at hr
        cases hr
      · intro rest
        simp only [feed, h0, armOf, Fields.dict, fieldsNil, hs, Res.putBack]
  | .cons tag attrs t fs, ds, hwf, m, v, w, hc => by
    simp only [armOf_cons, feed]
    by_cases hn : w.num = tag
    · simp only [hn, if_true]
      obtain ⟨h1, h2⟩ := (anyLaw t hwf.2.2.1).chunk m v.1 w.wire w.body hc
      refine ⟨h1.map _, fun rest => ?_⟩
      rw [h2 rest, Res.putBack_map]
    · simp only [if_neg hn]
      obtain ⟨h1, h2⟩ := armOf_feed fs ds hwf.2.2.2 m v.2 w hc
      refine ⟨h1.map _, fun rest => ?_⟩
      rw [h2 rest, Res.putBack_map]

theorem readTag_field (m : Mode) (w : WField) (hw : w.OK) (rest : Bytes) :
    readTag m (w.key ++ rest) = .ok ((w.num, w.wire), rest) := by
  obtain ⟨h1, h2, h3, h4, _⟩ := hw
  unfold readTag
  rw [getVarint_varint m w.key rest h2 (by omega)]
  have hnum := w.wire.num_le
  have hv : (BitVec.ofNat 32 (lebValue w.key)).toNat = w.num.toNat * 8 + w.wire.num := by
    rw [BitVec.toNat_ofNat, h4, Nat.mod_eq_of_lt (by omega)]
  simp only [bind, Except.bind, parseTag_ok _ w.num w.wire hv]

theorem mergeStep_eq_armOf (fs : Fields) (ds : Bool) (m : Mode) (v : fs.El) (w : WField) (hw : w.OK) (rest : Bytes) :
    (fs.dict ds).mergeStep m v (w.key ++ rest) = armOf fs ds m w.num w.wire v rest := by
  unfold FieldsD.mergeStep
  rw [readTag_field m w hw]
  simp only [armOf]
  cases (fs.dict ds).mergeField m w.num w.wire v rest with
  | some r => rfl
  | none => cases skipField m w.wire rest <;> rfl

theorem mergeStep_feed (fs : Fields) (ds : Bool) (hwf : fs.WF ds) (m : Mode) (v : fs.El) (w : WField) (hw : w.OK)
    (rest : Bytes) : (fs.dict ds).mergeStep m v (w.bytes ++ rest) = (feed fs m v w).putBack rest := by
  unfold WField.bytes
  rw [List.append_assoc, mergeStep_eq_armOf fs ds m v w hw]
  exact (armOf_feed fs ds hwf m v w hw.2.2.2.2).2 rest

theorem Spec.WField.OK.bytes_ne {w : WField} (hw : w.OK) : w.bytes ≠ [] := by
  have := hw.2.1.ne_nil
  simp [WField.bytes, this]

/-! ### Many fields -/

/-- What a message does with a sequence of fields. -/
def feeds (fs : Fields) (m : Mode) : fs.El → List WField → Res fs.El
  | v, [] => .ok v []
  | v, w :: ws =>
    match feed fs m v w with
    | .ok v' _ => feeds fs m v' ws
    | .err v' e => .err v' e

theorem feeds_whole (fs : Fields) (m : Mode) : ∀ (ws : List WField) (v v' : fs.El) (r : Bytes),
    feeds fs m v ws = .ok v' r → r = [] := by
  intro ws
  induction ws with
  | nil => intro v v' r h; cases h; rfl
  | cons w ws ih =>
    intro v v' r h
    simp only [feeds] at h
    split at h
    · exact ih _ _ _ h
    · cases h

/-! ### Fuel does not matter once there is enough -/

theorem untilEof_fuel {α : Type} {step : α → Bytes → Res α}
    (hs : ∀ v bs v' rest, step v bs = .ok v' rest → rest.length < bs.length) :
    ∀ (n k : Nat) (v : α) (bs : Bytes), bs.length ≤ n → bs.length ≤ k → untilEof step n v bs = untilEof step k v bs := by
  intro n
  induction n with
  | zero =>
    intro k v bs hn hk
    have : bs = [] := List.length_eq_zero_iff.1 (by omega)
    subst this
    rw [untilEof_nil, untilEof_nil]
  | succ n ih =>
    intro k v bs hn hk
    cases bs with
    | nil => rw [untilEof_nil, untilEof_nil]
    | cons b bs =>
      cases k with
      | zero => simp at hk
      | succ k =>
        simp only [untilEof]
        cases hr : step v (b :: bs) with
        | err v' e => rfl
        | ok v' rest =>
          have := hs _ _ _ _ hr
          simp only [List.length_cons] at *
          exact ih k v' rest (by omega) (by omega)

/-- A loop whose step reads one chunk at a time can be cut at chunk boundaries. -/
theorem untilEof_chunks {α : Type} {step : α → Bytes → Res α} {P : Bytes → Prop}
    (hs : ∀ v bs v' rest, step v bs = .ok v' rest → rest.length < bs.length)
    (hc : ∀ v c, P c → c ≠ [] ∧ (step v c).Whole ∧ ∀ rest, step v (c ++ rest) = (step v c).putBack rest) :
    ∀ (cs : List Bytes) (v : α) (y : Bytes), (∀ c ∈ cs, P c) →
      untilEof step (cs.flatten ++ y).length v (cs.flatten ++ y) =
        match untilEof step cs.flatten.length v cs.flatten with
        | .ok v' _ => untilEof step y.length v' y
        | .err v' e => .err v' e := by
  intro cs
  induction cs with
  | nil => intro v y _; simp [untilEof_nil]
  | cons c cs ih =>
    intro v y hP
    obtain ⟨h1, h2, h3⟩ := hc v c (hP c (by simp))
    obtain ⟨b, c', rfl⟩ := List.exists_cons_of_ne_nil h1
    have hx : ∀ z : Bytes, untilEof step (b :: c' ++ z).length v (b :: c' ++ z) =
        match step v (b :: c') with
        | .ok v' _ => untilEof step z.length v' z
        | .err v' e => .err v' e := by
      intro z
      have h3 := h3 z
      simp only [List.cons_append, List.length_cons] at h3 ⊢
      simp only [untilEof, h3]
      cases hr : step v (b :: c') with
      | err v' e => rfl
      | ok v' r =>
        have := h2 _ _ hr
        subst this
        simp only [Res.putBack, List.nil_append]
        exact untilEof_fuel hs _ _ _ _ (by simp) (Nat.le_refl _)
    rw [List.flatten_cons, List.append_assoc, hx, hx]
    cases hr : step v (b :: c') with
    | err v' e => rfl
    | ok v' r =>
      simp only
      exact ih v' y (fun c hc => hP c (by simp [hc]))

theorem mergeNested_shrink {α : Type} {d : Dict α} {st : Bool} {At : Rt → α → Prop} (h : AnyLaw d st At) {m : Mode}
    {v v' : α} {wire : WireType} {bs rest : Bytes} (hm : d.mergeNested m v wire bs = .ok v' rest) :
    rest <:+ bs ∧ rest.length < bs.length := by
  unfold Dict.mergeNested at hm
  split at hm
  · cases hs : skipField m wire bs with
    | ok r => rw [hs] at hm; cases hm; exact skipField_ok hs
    | error e => rw [hs] at hm; cases hm
  · next hw =>
    have hw : wire = d.wire := Decidable.of_not_not hw
    cases wire with
    | varint =>
      obtain ⟨get, hg, hmm⟩ := h.varint hw.symm m
      simp only [hmm] at hm
      cases hgb : get bs with
      | error e => rw [hgb] at hm; cases hm
      | ok xr =>
        rw [hgb] at hm
        obtain ⟨c, rfl, hc⟩ := hg.ok (rest := xr.2) (x := xr.1) hgb
        cases hm
        exact ⟨List.suffix_append _ _, by have := hc.length_pos; simp only [List.length_append]; omega⟩
    | sized =>
      simp only [withNested] at hm
      cases hg : getVarint m 64 bs with
      | error e => rw [hg] at hm; cases hm
      | ok xr =>
        obtain ⟨x, r⟩ := xr
        obtain ⟨c, rfl, hc⟩ := (readsVarint_uint m (by decide)).ok hg
        rw [hg] at hm
        simp only at hm
        cases hmm : d.merge m v (r.take x.toNat) with
        | err v'' e => rw [hmm] at hm; cases hm
        | ok v'' u =>
          have := h.sized_all hw.symm _ _ _ _ _ hmm
          subst this
          rw [hmm] at hm
          cases hm
          refine ⟨(List.drop_suffix _ _).trans (List.suffix_append _ _), ?_⟩
          have := hc.length_pos
          simp only [List.length_append, List.length_drop, List.nil_append]; omega

theorem mergeField_shrink : (fs : Fields) → (ds : Bool) → fs.WF ds → ∀ {m : Mode} {n : U32} {wire : WireType}
    {v v' : fs.El} {bs rest : Bytes}, (fs.dict ds).mergeField m n wire v bs = some (.ok v' rest) →
    rest.length < bs.length
  | .nil, _, _, _, _, _, _, _, _, _, h => by cases h
  | .cons tag attrs t fs, ds, hwf, m, n, wire, v, v', bs, rest, h => by
    simp only [Fields.dict, fieldsCons] at h
    split at h
    · cases hm : t.dict.mergeNested m v.1 wire bs with
      | ok x r =>
        rw [hm] at h; cases h
        exact (mergeNested_shrink (anyLaw t hwf.2.2.1) hm).2
      | err x e => rw [hm] at h; cases h
    · cases hm : (fs.dict ds).mergeField m n wire v.2 bs with
      | none => rw [hm] at h; cases h
      | some r =>
        rw [hm] at h
        cases r with
        | ok y r => cases h; exact mergeField_shrink fs ds hwf.2.2.2 hm
        | err y e => cases h

theorem mergeStep_shrink (fs : Fields) (ds : Bool) (hwf : fs.WF ds) {m : Mode} {v v' : fs.El} {bs rest : Bytes}
    (h : (fs.dict ds).mergeStep m v bs = .ok v' rest) : rest.length < bs.length := by
  unfold FieldsD.mergeStep at h
  cases ht : readTag m bs with
  | error e => rw [ht] at h; cases h
  | ok tr =>
    obtain ⟨⟨n, wire⟩, r⟩ := tr
    obtain ⟨c, rfl, hc⟩ := readTag_ok ht
    have hpos := hc.length_pos
    rw [ht] at h
    simp only at h
    split at h
    · next r' hr =>
      subst h
      have := mergeField_shrink fs ds hwf hr
      simp only [List.length_append]; omega
    · split at h
      · next r' hr =>
        cases h
        have := (skipField_ok hr).2
        simp only [List.length_append]; omega
      · cases h

theorem wireBytes_eq (ws : List WField) : wireBytes ws = (ws.map WField.bytes).flatten := by
  unfold wireBytes; rw [List.flatMap_def]

/-- Reading a sequence of fields, then `y`. -/
theorem merge_fields (fs : Fields) (ds : Bool) (hwf : fs.WF ds) (m : Mode) (v : fs.El) (ws : List WField)
    (hw : ∀ w ∈ ws, w.OK) (y : Bytes) :
    (fs.dict ds).merge m v (wireBytes ws ++ y) =
      match feeds fs m v ws with
      | .ok v' _ => (fs.dict ds).merge m v' y
      | .err v' e => .err v' e := by
  induction ws generalizing v with
  | nil => rfl
  | cons w ws ih =>
    have hok := hw w (by simp)
    have hb : wireBytes (w :: ws) ++ y = w.bytes ++ (wireBytes ws ++ y) := by
      simp [wireBytes]
    rw [hb]
    unfold FieldsD.merge
    obtain ⟨b, bs, hbs⟩ := List.exists_cons_of_ne_nil hok.bytes_ne
    have hstep := mergeStep_feed fs ds hwf m v w hok (wireBytes ws ++ y)
    rw [hbs] at hstep ⊢
    simp only [List.cons_append, List.length_cons] at hstep ⊢
    simp only [untilEof, hstep, feeds]
    cases hf : feed fs m v w with
    | err v' e => rfl
    | ok v' r =>
      have := (armOf_feed fs ds hwf m v w hok.2.2.2.2).1 _ _ hf
      subst this
      simp only [Res.putBack, List.nil_append]
      rw [untilEof_fuel (fun v bs v' rest h => mergeStep_shrink fs ds hwf h) _ (wireBytes ws ++ y).length _ _ (by simp)
        (Nat.le_refl _)]
      exact ih v' (fun w hw' => hw w (by simp [hw']))

theorem merge_feeds (fs : Fields) (ds : Bool) (hwf : fs.WF ds) (m : Mode) (v : fs.El) (ws : List WField)
    (hw : ∀ w ∈ ws, w.OK) : (fs.dict ds).merge m v (wireBytes ws) = feeds fs m v ws := by
  have := merge_fields fs ds hwf m v ws hw []
  rw [List.append_nil] at this
  rw [this]
  cases hf : feeds fs m v ws with
  | err v' e => rfl
  | ok v' r =>
    have := feeds_whole fs m ws v v' r hf
    subst this
    simp only [FieldsD.merge, untilEof_nil]

/-! ### Field by field -/

/-- What a value does with a sequence of its own fields. -/
def items {α : Type} (d : Dict α) (m : Mode) : α → List WField → Res α
  | v, [] => .ok v []
  | v, w :: ws =>
    match d.mergeNested m v w.wire w.body with
    | .ok v' _ => items d m v' ws
    | .err v' e => .err v' e

/-- Success is decided field by field. -/
theorem feeds_cons (tag : U32) (attrs : FieldAttrs) (t : Ty) (fs : Fields) (m : Mode) : ∀ (ws : List WField)
    (v v' : (Fields.cons tag attrs t fs).El),
    (∃ r, feeds (.cons tag attrs t fs) m v ws = .ok v' r) ↔
      (∃ r, items t.dict m v.1 (ws.filter (fun w => w.num = tag)) = .ok v'.1 r) ∧
      (∃ r, feeds fs m v.2 (ws.filter (fun w => w.num ≠ tag)) = .ok v'.2 r) := by
  intro ws
  induction ws with
  | nil =>
    intro v v'
    simp only [feeds, items, List.filter_nil, Res.ok.injEq, exists_eq_right]
    constructor
    · rintro ⟨r, rfl, _⟩; exact ⟨⟨_, rfl, rfl⟩, ⟨_, rfl, rfl⟩⟩
    · rintro ⟨⟨_, h1, _⟩, ⟨_, h2, _⟩⟩; exact ⟨_, Prod.ext h1 h2, rfl⟩
  | cons w ws ih =>
    intro v v'
    simp only [feeds, feed]
    by_cases hn : w.num = tag
    · simp only [hn, if_true, List.filter_cons, decide_true, not_true_eq_false, decide_false, Bool.false_eq_true,
        if_false, ne_eq, items]
      cases hm : t.dict.mergeNested m v.1 w.wire w.body with
      | ok x r => exact ih (x, v.2) v'
      | err x e => simp [Res.map]
    · simp only [hn, if_false, List.filter_cons, decide_false, Bool.false_eq_true, ne_eq, not_false_eq_true, decide_true,
        if_true, feeds]
      cases hm : feed fs m v.2 w with
      | ok y r => exact ih (v.1, y) v'
      | err y e => simp [Res.map]

end Steit
