import Verif.Spec.RevisionLog
import Verif.Lemmas.Revision
import Verif.Lemmas.Follow

/-! # A replica with another revision of the type does what entries say -/

namespace Steit
open Spec

/-! ### What entries lead to can be carried -/

mutual
theorem inside_carried : (t : Ty) → ∀ {v v' : t.El} {e : Entry}, Inside t v e v' → Carried t v → Carried t v'
  | .uint _, _, _, _, h, _ => nomatch h
  | .sint _, _, _, _, h, _ => nomatch h
  | .bool, _, _, _, h, _ => nomatch h
  | .string, _, _, _, h, _ => nomatch h
  | .bytes, _, _, _, h, _ => nomatch h
  | .vec _, _, _, _, h, _ => nomatch h
  | .array _ _, _, _, _, h, _ => nomatch h
  | .tuple _, _, _, _, h, _ => nomatch h
  | .option _, _, _, _, h, _ => nomatch h
  | .hashMap _ _, _, _, _, h, _ => nomatch h
  | .struct false _ _, _, _, _, h, _ => nomatch h
  | .enum false _ _ _, _, _, _, h, _ => nomatch h
  | .box t, v, v', e, h, hc => inside_carried t (v := v) (v' := v') h hc
  | .list t, v, v', e, h, hc => by
    show ∀ x ∈ v'.items, Carried t x
    intro y hy
    rcases h with ⟨x, hx, _, hv⟩ | ⟨_, _, hv⟩ | ⟨i, x, e', x', _, hx, hm, _, hv⟩
    · rw [hv, List.mem_append, List.mem_singleton] at hy
      rcases hy with hy | rfl
      · exact hc y hy
      · exact hx.1
    · rw [hv] at hy
      exact hc y (List.dropLast_subset _ hy)
    · rw [hv] at hy
      rcases List.mem_or_eq_of_mem_set hy with hy | rfl
      · exact hc y hy
      · rcases hm with ⟨_, hx'⟩ | hm
        · exact hx'.1
        · exact inside_carried t hm (hc x (List.mem_of_getElem? hx))
  | .map kt t, v, v', e, h, hc => by
    rcases h with ⟨k, x, hk, hk', hx, _, hv⟩ | ⟨k, _, _, _, hv⟩ | ⟨k, x, e', x', hx, hm, _, hv⟩
    · show (∀ e ∈ v'.entries, e.1.toNat ≤ kt.max ∧ e.1.toNat < 2 ^ 29 ∧ Carried t e.2) ∧ (v'.entries.map (·.1)).Nodup
      rw [hv]
      refine ⟨fun e he => ?_, entriesInsert_nodup _ _ _ hc.2⟩
      rcases entriesInsert_mem he with he | rfl
      · exact hc.1 e he
      · exact ⟨hk, hk', hx.1⟩
    · show (∀ e ∈ v'.entries, e.1.toNat ≤ kt.max ∧ e.1.toNat < 2 ^ 29 ∧ Carried t e.2) ∧ (v'.entries.map (·.1)).Nodup
      rw [hv]
      exact ⟨fun e he => hc.1 e (entriesRemove_mem he), entriesRemove_nodup _ _ hc.2⟩
    · show (∀ e ∈ v'.entries, e.1.toNat ≤ kt.max ∧ e.1.toNat < 2 ^ 29 ∧ Carried t e.2) ∧ (v'.entries.map (·.1)).Nodup
      rw [hv]
      have h0 := hc.1 _ (entriesGet_mem hx)
      refine ⟨fun e he => ?_, entriesInsert_nodup _ _ _ hc.2⟩
      rcases entriesInsert_mem he with he | rfl
      · exact hc.1 e he
      · refine ⟨h0.1, h0.2.1, ?_⟩
        rcases hm with ⟨_, hx'⟩ | hm
        · exact hx'.1
        · exact inside_carried t hm h0.2.2
  | .struct true _ fs, _, _, _, h, hc => insideFields_carried fs h hc
  | .enum true _ fs vs, ⟨_, .inl _⟩, ⟨_, .inl _⟩, _, ⟨_, _, h⟩, hc => insideFields_carried fs h hc
  | .enum true _ fs vs, ⟨_, .inr _⟩, ⟨_, .inr _⟩, _, h, hc => insideVariant_carried vs h hc
  | .enum true _ _ _, ⟨_, .inl _⟩, ⟨_, .inr _⟩, _, h, _ => nomatch h
  | .enum true _ _ _, ⟨_, .inr _⟩, ⟨_, .inl _⟩, _, h, _ => nomatch h

theorem insideFields_carried : (fs : Fields) → ∀ {v v' : fs.El} {e : Entry}, InsideFields fs v e v' → CarriedFields fs v →
    CarriedFields fs v'
  | .nil, _, _, _, h, _ => nomatch h
  | .cons _ _ t fs, v, v', e, h, hc => by
    rcases h with ⟨_, h2, e', hm, _⟩ | ⟨h1, hm⟩
    · refine ⟨?_, ?_⟩
      · rcases hm with ⟨_, hx⟩ | hm
        · exact hx.1
        · exact inside_carried t hm hc.1
      · rw [h2]; exact hc.2
    · refine ⟨?_, insideFields_carried fs hm hc.2⟩
      rw [h1]; exact hc.1

theorem insideVariant_carried : (vs : Variants) → ∀ {v v' : vs.El} {e : Entry}, InsideVariant vs v e v' → CarriedVariant vs v →
    CarriedVariant vs v'
  | .nil, _, _, _, h, _ => nomatch h
  | .cons _ _ fs _, .inl _, .inl _, _, ⟨_, _, h⟩, hc => insideFields_carried fs h hc
  | .cons _ _ _ vs, .inr _, .inr _, _, h, hc => insideVariant_carried vs h hc
  | .cons _ _ _ _, .inl _, .inr _, _, h, _ => nomatch h
  | .cons _ _ _ _, .inr _, .inl _, _, h, _ => nomatch h
end

theorem means_carried {t : Ty} {v v' : t.El} {e : Entry} (h : Means t v e v') (hc : Carried t v) : Carried t v' := by
  rcases h with ⟨_, hx⟩ | h
  · exact hx.1
  · exact inside_carried t h hc

/-! ### `Total` revisions -/

mutual
theorem seen_of_carried {m : Mode} : (r : Rev) → r.Rules → r.Total m → ∀ v, Carried r.wr v → Seen m r v
  | .same _, _, _, _, h => h
  | .uint _ _, _, _, _, _ => trivial
  | .sint w w', hr, _, v, h => by
    have hb : w.bits - 2 ≤ w'.bits - 2 := Nat.sub_le_sub_right hr 2
    have hp : (2 ^ (w.bits - 2) : Int) ≤ 2 ^ (w'.bits - 2) := by
      have := Nat.pow_le_pow_right (show 0 < 2 by decide) hb
      exact_mod_cast this
    exact ⟨by have := h.1; omega, by have := h.2; omega⟩
  | .flag _, _, _, _, _ => trivial
  | .hide _, _, _, _, _ => trivial
  | .vec r, hr, ht, _, h => fun x hx => seen_of_carried r hr ht x (h x hx)
  | .array _ r, hr, ht, _, h => fun x hx => seen_of_carried r hr ht x (h x hx)
  | .tuple rs, hr, ht, v, h => seenTuple_of_carried rs hr ht v h
  | .option r, hr, ht, _, h => fun x hx => seen_of_carried r hr ht x (h x hx)
  | .box r, hr, ht, v, h => seen_of_carried r hr ht v h
  | .hashMap _ r, hr, ht, _, h => ⟨fun e he => ⟨(h.1 e he).1, seen_of_carried r hr ht e.2 (h.1 e he).2⟩, h.2⟩
  | .list r, hr, ht, _, h => fun x hx => seen_of_carried r hr ht x (h x hx)
  | .map _ _ r, hr, ht, _, h =>
    ⟨fun e he => ⟨(h.1 e he).1, (h.1 e he).2.1, seen_of_carried r hr.2 ht e.2 (h.1 e he).2.2⟩, h.2⟩
  | .vecList r, hr, ht, _, h => fun x hx => seen_of_carried r hr ht x (h x hx)
  | .listVec r, hr, ht, _, h => fun x hx => seen_of_carried r hr ht x (h x hx)
  | .optionVec r, hr, ht, _, h => fun x hx => seen_of_carried r hr ht x (h x hx)
  | .boxed r, hr, ht, v, h => seen_of_carried r hr ht v h
  | .unboxed r, hr, ht, v, h => seen_of_carried r hr ht v h
  | .struct _ _ _ _ fs, hr, ht, v, h => seenFields_of_carried fs hr.2 ht v.fields h
  | .enum _ _ _ _ fs _, hr, ht, ⟨_, .inl x⟩, h => seenFields_of_carried fs hr.2.1 ht.1 x h
  | .enum _ _ _ _ _ vs, hr, ht, ⟨_, .inr x⟩, h => seenVariant_of_carried vs hr.2.2 ht.2 x h

theorem seenTuple_of_carried {m : Mode} : (rs : RevTuple) → rs.Rules → rs.Total m → ∀ v, CarriedTuple rs.wr v → SeenTuple m rs v
  | .nil, _, _, _, _ => trivial
  | .cons r rs, hr, ht, v, h => ⟨seen_of_carried r hr.1 ht.1 v.1 h.1, seenTuple_of_carried rs hr.2 ht.2 v.2 h.2⟩

theorem seenFields_of_carried {m : Mode} : (fs : RevFields) → fs.Rules → fs.Total m → ∀ v, CarriedFields fs.wr v → SeenFields m fs v
  | .nil, _, _, _, _ => trivial
  | .keep _ _ _ r fs, hr, ht, v, h => ⟨seen_of_carried r hr.1 ht.1 v.1 h.1, seenFields_of_carried fs hr.2 ht.2 v.2 h.2⟩
  | .add _ _ _ fs, hr, ht, v, h => ⟨.inr (ht.1.imp id .inl), seenFields_of_carried fs hr ht.2 v.2 h.2⟩
  | .drop _ _ _ fs, hr, ht, v, h => seenFields_of_carried fs hr ht v h
  | .retype _ _ _ _ _ fs, hr, ht, v, h => ⟨.inr (ht.1.imp id .inl), seenFields_of_carried fs hr.2 ht.2 v.2 h.2⟩

theorem seenVariant_of_carried {m : Mode} : (vs : RevVariants) → vs.Rules → vs.Total m → ∀ v, CarriedVariant vs.wr v →
    SeenVariant m vs v
  | .nil, _, _, v, _ => nomatch v
  | .keep _ _ _ fs _, hr, ht, .inl x, h => seenFields_of_carried fs hr.2.1 ht.1 x h
  | .keep _ _ _ _ vs, hr, ht, .inr x, h => seenVariant_of_carried vs hr.2.2 ht.2 x h
  | .add _ _ _ _, _, ht, _, _ => nomatch ht
  | .drop _ _ _ vs, hr, ht, v, h => seenVariant_of_carried vs hr ht v h
end

/-! ### Following -/

theorem address_under (k : U32) (e : Entry) : address (under [k] e) = k :: address e := by
  cases e <;> rfl

/-- Applying an entry of the writer to any object that is what the reader sees of the object before makes it what the reader
sees of the object after. -/
def FollowsRev (m : Mode) (r : Rev) : Prop :=
  ∀ v e v', Means r.wr v e v' → r.knows (address e) = true → Seen m r v' → ∀ x rt, At r.rd rt x → strip r.rd x = see r v →
    ∃ x', Applies (r.rd.dict.handle m) x [e] x' ∧ strip r.rd x' = see r v'

/-- An update replaces any value. -/
theorem rev_update {r : Rev} (hw : r.wr.WF) (hr : r.rd.WF) (hrules : r.Rules) (hs : r.rd.isState = true) {m : Mode} {rt : Rt}
    {x : r.rd.El} {v : r.wr.El} (hx : At r.rd rt x) (hv : Sendable r.wr v) (hseen : Seen m r v) (key : Option U32) :
    ∃ x' rest, r.rd.dict.handle m x [] .update key (encode r.wr v) = .ok x' rest ∧ strip r.rd x' = see r v := by
  obtain ⟨x', h1, h2⟩ := (readLaw r hw hr hrules).round m rt v [] hseen hv.2 (fun _ => rfl)
  rw [List.append_nil] at h1
  exact ⟨x', [], handle_update_at r.rd hr hs m rt x key (encode r.wr v) x' [] hx h1, h2⟩

/-- A payload read into a fresh object. -/
theorem rev_fresh {r : Rev} (hw : r.wr.WF) (hr : r.rd.WF) (hrules : r.Rules) {m : Mode} (rt : Rt) {v : r.wr.El}
    (hv : Sendable r.wr v) (hseen : Seen m r v) :
    ∃ x' rest, r.rd.dict.merge m (r.rd.dict.withRuntime rt) (encode r.wr v) = .ok x' rest ∧ strip r.rd x' = see r v := by
  obtain ⟨x', h1, h2⟩ := (readLaw r hw hr hrules).round m rt v [] hseen hv.2 (fun _ => rfl)
  rw [List.append_nil] at h1
  exact ⟨x', [], h1, h2⟩

/-- Only what is inside matters: an entry for the whole object is always followed. -/
theorem followsRev_of {m : Mode} {r : Rev} (hw : r.wr.WF) (hr : r.rd.WF) (hrules : r.Rules) (hs : r.rd.isState = true)
    (h : ∀ v e v', Inside r.wr v e v' → r.knows (address e) = true → Seen m r v' → ∀ x rt, At r.rd rt x →
      strip r.rd x = see r v → ∃ x', Applies (r.rd.dict.handle m) x [e] x' ∧ strip r.rd x' = see r v') : FollowsRev m r := by
  intro v e v' hm hk hseen x rt hx hsame
  rcases hm with ⟨rfl, hv⟩ | hm
  · obtain ⟨x', rest, h1, h2⟩ := rev_update hw hr hrules hs hx hv hseen none
    exact ⟨x', .one (rest := rest) h1, h2⟩
  · exact h v e v' hm hk hseen x rt hx hsame

theorem getElem?_see {α β γ : Type} {f : α → γ} {g : β → γ} {xs : List α} {ys : List β} (h : xs.map f = ys.map g) {i : Nat} {y : β}
    (hy : ys[i]? = some y) : ∃ x, xs[i]? = some x ∧ f x = g y := by
  have h1 : (xs.map f)[i]? = (ys.map g)[i]? := by rw [h]
  rw [List.getElem?_map, List.getElem?_map, hy] at h1
  obtain ⟨x, hx, he⟩ := Option.map_eq_some_iff.1 h1
  exact ⟨x, hx, he⟩

theorem list_seen {r : Rev} {x : r.list.rd.El} {v : r.list.wr.El} :
    strip r.list.rd x = see r.list v ↔ x.items.map (strip r.rd) = v.items.map (see r) := by
  constructor
  · intro h; exact congrArg ListV.items h
  · intro h; exact congrArg (ListV.mk Rt.dflt) h

theorem followsRev_list {m : Mode} {r : Rev} (hw : r.list.wr.WF) (hr : r.list.rd.WF) (hrules : r.list.Rules)
    (ih : FollowsRev m r) : FollowsRev m r.list := by
  refine followsRev_of hw hr hrules rfl ?_
  intro v e v' hm hk hseen x rt hx hs
  rw [list_seen] at hs
  have hseen' : ∀ y ∈ v'.items, Seen m r y := hseen
  rcases hm with ⟨y, hy, rfl, hv⟩ | ⟨hne, rfl, hv⟩ | ⟨i, y, e', y', hi, hy, hm, rfl, hv⟩
  · obtain ⟨z, rest, h3, h4⟩ := rev_fresh hw.2 hr.2 hrules (m := m) (x.rt.nested (fieldNo x.items.length)) hy
      (hseen' y (by rw [hv]; simp))
    refine ⟨{ x with items := x.items ++ [z] }, .one (rest := rest) ?_, ?_⟩
    · show listHandle r.rd.dict m x [] .listPush none (encode r.wr y) = _
      simp only [listHandle, h3]
    · rw [list_seen, hv]
      simp only [List.map_append, hs, List.map_cons, List.map_nil, h4]
  · have hne' : x.items ≠ [] := by
      intro h0
      rw [h0] at hs
      exact hne (List.map_eq_nil_iff.1 hs.symm)
    refine ⟨{ x with items := x.items.dropLast }, .one (rest := []) ?_, ?_⟩
    · show listHandle r.rd.dict m x [] .listPop none [] = _
      simp only [listHandle, if_neg hne']
    · rw [list_seen, hv]
      simp only [List.map_dropLast, hs]
  · obtain ⟨z, hz, hzy⟩ := getElem?_see hs hy
    rw [address_under] at hk
    have hlt : i < v.items.length := (List.getElem?_eq_some_iff.1 hy).1
    obtain ⟨z', h5, h6⟩ := ih y e' y' hm hk (hseen' y' (by rw [hv]; exact List.mem_set hlt y')) z _ (hx.2 i z hz) hzy
    refine ⟨_, list_below hi hz h5, ?_⟩
    rw [list_seen, hv]
    simp only [List.map_set, hs, h6]

theorem map_seen {k k' : KeyTy} {r : Rev} {x : (r.map k k').rd.El} {v : (r.map k k').wr.El} :
    strip (r.map k k').rd x = see (r.map k k') v ↔
      x.entries.map (fun e => (e.1, strip r.rd e.2)) = v.entries.map (fun e => (e.1, see r e.2)) := by
  constructor
  · intro h; exact congrArg MapV.entries h
  · intro h; exact congrArg (MapV.mk Rt.dflt) h

theorem followsRev_map {m : Mode} {k k' : KeyTy} {r : Rev} (hw : (r.map k k').wr.WF) (hr : (r.map k k').rd.WF)
    (hrules : (r.map k k').Rules) (ih : FollowsRev m r) : FollowsRev m (r.map k k') := by
  refine followsRev_of hw hr hrules rfl ?_
  intro v e v' hm hk hseen x rt hx hs
  rw [map_seen] at hs
  have hseen' : ∀ e ∈ v'.entries, Seen m r e.2 := fun e he => (hseen.1 e he).2.2
  have hget : ∀ k, (entriesGet k x.entries).map (strip r.rd) = (entriesGet k v.entries).map (see r) := by
    intro k
    rw [← entriesGet_map, hs, entriesGet_map]
  rcases hm with ⟨k, y, hk1, hk2, hy, rfl, hv⟩ | ⟨k, hk1, _, rfl, hv⟩ | ⟨k, y, e', y', hy, hm, rfl, hv⟩
  · have hys : Seen m r y := hseen' (k, y) (by rw [hv]; exact entriesGet_mem (entriesGet_insert k y v.entries))
    cases hz : entriesGet k x.entries with
    | some z =>
      obtain ⟨z', rest, h2, h3⟩ := rev_update hw.2 hr.2 hrules.2 hr.1 (hx.2.2 _ (entriesGet_mem hz)) hy hys none
      refine ⟨{ x with entries := entriesInsert k z' x.entries }, .one (rest := rest) ?_, ?_⟩
      · show mapHandle k' r.rd.dict m x [k] .update none (encode r.wr y) = _
        simp only [mapHandle, hz, h2, Res.map]
      · rw [map_seen, hv]
        simp only [entriesInsert_map, hs, h3]
    | none =>
      obtain ⟨z', rest, h2, h3⟩ := rev_fresh hw.2 hr.2 hrules.2 (m := m) (x.rt.nested k) hy hys
      refine ⟨{ x with entries := entriesInsert k z' x.entries }, .one (rest := rest) ?_, ?_⟩
      · show mapHandle k' r.rd.dict m x [k] .update none (encode r.wr y) = _
        simp [mapHandle, hz, h2]
      · rw [map_seen, hv]
        simp only [entriesInsert_map, hs, h3]
  · obtain ⟨y, hy⟩ := entriesGet_some_of_mem hk1
    have hg := hget k
    rw [hy] at hg
    obtain ⟨z, hz, _⟩ := Option.map_eq_some_iff.1 hg
    refine ⟨{ x with entries := entriesRemove k x.entries }, .one (rest := []) ?_, ?_⟩
    · show mapHandle k' r.rd.dict m x [] .mapRemove (some k) [] = _
      simp only [mapHandle, hz]
    · rw [map_seen, hv]
      simp only [entriesRemove_map, hs]
  · have hg := hget k
    rw [hy] at hg
    obtain ⟨z, hz, hzy⟩ := Option.map_eq_some_iff.1 hg
    rw [address_under] at hk
    obtain ⟨z', h5, h6⟩ := ih y e' y' hm hk
      (hseen' (k, y') (by rw [hv]; exact entriesGet_mem (entriesGet_insert k y' v.entries))) z _ (hx.2.2 _ (entriesGet_mem hz)) hzy
    refine ⟨_, map_below hz h5, ?_⟩
    rw [map_seen, hv]
    simp only [entriesInsert_map, hs, h6]

/-! ### Fields -/

/-- As `FollowsRev`, for the fields of a message. -/
def FollowsRevFields (m : Mode) (fs : RevFields) : Prop :=
  ∀ v e v', InsideFields fs.wr v e v' → ∀ tag p, address e = tag :: p → fs.knows tag p = true → SeenFields m fs v' →
    ∀ x rt, AtFields fs.rd true rt x → stripFields fs.rd x = seeFields fs v →
      ∃ x', Applies (variantHandle (fs.rd.dict true) m) x [e] x' ∧ stripFields fs.rd x' = seeFields fs v' ∧ tag ∈ fs.rd.tags

theorem wr_tags_sub : (fs : RevFields) → ∀ tag ∈ fs.wr.tags, tag ∈ fs.tags
  | .nil, _, h => nomatch h
  | .keep tag _ _ _ fs, t, h => by
    rcases List.mem_cons.1 h with rfl | h
    · exact List.mem_cons_self
    · exact List.mem_cons_of_mem _ (wr_tags_sub fs t h)
  | .add tag _ _ fs, t, h => by
    rcases List.mem_cons.1 h with rfl | h
    · exact List.mem_cons_self
    · exact List.mem_cons_of_mem _ (wr_tags_sub fs t h)
  | .drop _ _ _ fs, t, h => List.mem_cons_of_mem _ (wr_tags_sub fs t h)
  | .retype tag _ _ _ _ fs, t, h => by
    rcases List.mem_cons.1 h with rfl | h
    · exact List.mem_cons_self
    · exact List.mem_cons_of_mem _ (wr_tags_sub fs t h)

theorem rd_tags_sub : (fs : RevFields) → ∀ tag ∈ fs.rd.tags, tag ∈ fs.tags
  | .nil, _, h => nomatch h
  | .keep tag _ _ _ fs, t, h => by
    rcases List.mem_cons.1 h with rfl | h
    · exact List.mem_cons_self
    · exact List.mem_cons_of_mem _ (rd_tags_sub fs t h)
  | .add _ _ _ fs, t, h => List.mem_cons_of_mem _ (rd_tags_sub fs t h)
  | .drop tag _ _ fs, t, h => by
    rcases List.mem_cons.1 h with rfl | h
    · exact List.mem_cons_self
    · exact List.mem_cons_of_mem _ (rd_tags_sub fs t h)
  | .retype tag _ _ _ _ fs, t, h => by
    rcases List.mem_cons.1 h with rfl | h
    · exact List.mem_cons_self
    · exact List.mem_cons_of_mem _ (rd_tags_sub fs t h)

section fields
variable {m : Mode} {tag : U32} {attrs attrs' : FieldAttrs} {fs : RevFields}

theorem inside_tag {fs : RevFields} {v v' : fs.wr.El} {e : Entry} {tag' : U32} {p : List U32} (hm : InsideFields fs.wr v e v')
    (he : address e = tag' :: p) : tag' ∈ fs.tags := by
  obtain ⟨t, h1, q, h2⟩ := headed_inside fs.wr hm
  rw [he] at h2
  cases h2
  exact wr_tags_sub fs _ h1

theorem rev_tail {t : Ty} {x : (Fields.cons tag attrs t fs.rd).El} {y' : fs.rd.El} {e : Entry} {tag' : U32} {p : List U32}
    (hnew : tag ∉ fs.tags) (he : address e = tag' :: p) (hmem : tag' ∈ fs.rd.tags)
    (ha : Applies (variantHandle (fs.rd.dict true) m) x.2 [e] y') :
    Applies (variantHandle ((Fields.cons tag attrs t fs.rd).dict true) m) x [e] (x.1, y') := by
  refine fields_tail (fun h => hnew (rd_tags_sub fs _ h)) ?_ ha
  intro e' he'
  rw [List.mem_singleton] at he'
  subst he'
  exact ⟨tag', hmem, p, he⟩

theorem followsRev_keep {r : Rev} (hnew : tag ∉ fs.tags) (iht : attrs'.noState = false → FollowsRev m r)
    (ihf : FollowsRevFields m fs) : FollowsRevFields m (.keep tag attrs attrs' r fs) := by
  intro v e v' hm tag' p he hk hseen x rt hx hs
  rcases hm with ⟨_, h2, e', hm, rfl⟩ | ⟨h1, hm⟩
  · rw [address_under] at he
    cases he
    simp only [RevFields.knows, if_true, Bool.and_eq_true, Bool.not_eq_true'] at hk
    have hx1 : At r.rd (rt.nested tag) x.1 := by
      have := hx.1
      simpa [hk.1] using this
    obtain ⟨y', h5, h6⟩ := iht hk.1 v.1 e' v'.1 hm hk.2 hseen.1 x.1 _ hx1 (congrArg Prod.fst hs)
    refine ⟨(y', x.2), field_below (es := [e']) hk.1 h5, Prod.ext h6 ?_, List.mem_cons_self⟩
    rw [show seeFields (.keep tag attrs attrs' r fs) v' = (see r v'.1, seeFields fs v'.2) from rfl, h2]
    exact (congrArg Prod.snd hs : stripFields fs.rd x.2 = seeFields fs v.2)
  · have hmem := inside_tag hm he
    have hne : tag' ≠ tag := fun h => hnew (h ▸ hmem)
    simp only [RevFields.knows, if_neg hne] at hk
    obtain ⟨y', h6, h7, h8⟩ := ihf v.2 e v'.2 hm tag' p he hk hseen.2 x.2 rt hx.2 (congrArg Prod.snd hs)
    refine ⟨(x.1, y'), rev_tail hnew he h8 h6, Prod.ext ?_ h7, List.mem_cons_of_mem _ h8⟩
    rw [show seeFields (.keep tag attrs attrs' r fs) v' = (see r v'.1, seeFields fs v'.2) from rfl, h1]
    exact (congrArg Prod.fst hs : strip r.rd x.1 = see r v.1)

theorem followsRev_add {t : Ty} (ihf : FollowsRevFields m fs) : FollowsRevFields m (.add tag attrs t fs) := by
  intro v e v' hm tag' p he hk hseen x rt hx hs
  simp only [RevFields.knows, Bool.and_eq_true, decide_eq_true_eq] at hk
  rcases hm with ⟨_, _, e', _, rfl⟩ | ⟨_, hm⟩
  · rw [address_under] at he
    cases he
    exact absurd rfl hk.1
  · exact ihf v.2 e v'.2 hm tag' p he hk.2 hseen.2 x rt hx hs

theorem followsRev_drop {t : Ty} (hnew : tag ∉ fs.tags) (ihf : FollowsRevFields m fs) :
    FollowsRevFields m (.drop tag attrs t fs) := by
  intro v e v' hm tag' p he hk hseen x rt hx hs
  obtain ⟨y', h6, h7, h8⟩ := ihf v e v' hm tag' p he hk hseen x.2 rt hx.2 (congrArg Prod.snd hs)
  exact ⟨(x.1, y'), rev_tail hnew he h8 h6, Prod.ext (congrArg Prod.fst hs : strip t x.1 = _) h7, List.mem_cons_of_mem _ h8⟩

theorem followsRev_retype {t t' : Ty} (hnew : tag ∉ fs.tags) (ihf : FollowsRevFields m fs) :
    FollowsRevFields m (.retype tag attrs attrs' t t' fs) := by
  intro v e v' hm tag' p he hk hseen x rt hx hs
  simp only [RevFields.knows, Bool.and_eq_true, decide_eq_true_eq] at hk
  rcases hm with ⟨_, _, e', _, rfl⟩ | ⟨_, hm⟩
  · rw [address_under] at he
    cases he
    exact absurd rfl hk.1
  · obtain ⟨y', h6, h7, h8⟩ := ihf v.2 e v'.2 hm tag' p he hk.2 hseen.2 x.2 rt hx.2 (congrArg Prod.snd hs)
    exact ⟨(x.1, y'), rev_tail hnew he h8 h6, Prod.ext (congrArg Prod.fst hs : strip t' x.1 = _) h7, List.mem_cons_of_mem _ h8⟩

end fields

theorem followsRev_struct {m : Mode} {cached cached' : Bool} {fs : RevFields} (hw : (Rev.struct true cached true cached' fs).wr.WF)
    (hr : (Rev.struct true cached true cached' fs).rd.WF) (hrules : (Rev.struct true cached true cached' fs).Rules)
    (ih : FollowsRevFields m fs) : FollowsRev m (.struct true cached true cached' fs) := by
  refine followsRev_of hw hr hrules rfl ?_
  intro v e v' hm hk hseen x rt hx hs
  obtain ⟨tag, _, p, he⟩ := headed_inside fs.wr hm
  rw [he] at hk
  obtain ⟨y', h6, h7, h8⟩ := ih v.fields e v'.fields hm tag p he hk hseen x.fields rt hx.2 (congrArg StructV.fields hs)
  refine ⟨{ x with fields := y' }, ?_, congrArg (StructV.mk Rt.dflt) h7⟩
  have key := Applies.lift (H := (Ty.struct true cached' fs.rd).dict.handle m)
    (fun z => ({ x with fields := z } : StructV fs.rd.El)) id (fun _ => True) (Headed fs.rd.tags) (fun _ _ _ _ _ _ => trivial)
    (fun x1 e z rest _ he hz => by
      refine ⟨rest, ?_⟩
      obtain ⟨tag, hm, p, hp⟩ := he
      have gen : ∀ kind key bs, variantHandle (fs.rd.dict true) m x1 (tag :: p) kind key bs = .ok z rest →
          structHandle (fs.rd.dict true) m { x with fields := x1 } (tag :: p) kind key bs = .ok { x with fields := z } rest := by
        intro kind key bs h
        simp only [variantHandle, structHandle] at h ⊢
        cases hf : (fs.rd.dict true).handleField m tag x1 p kind key bs with
        | none => rw [hf] at h; cases h
        | some res =>
          rw [hf] at h
          simp only at h
          simp only [h, Res.map]
      cases e <;> cases hp <;> exact gen _ _ _ hz) (fun e' he' => by
        rw [List.mem_singleton] at he'
        subst he'
        exact ⟨tag, h8, p, he⟩) trivial h6
  rw [List.map_id] at key
  exact key

/-! ### Variants -/

/-- As `FollowsRev`, for the variants of an enum: the entry is addressed below the variant's tag. -/
def FollowsRevVariants (m : Mode) (vs : RevVariants) : Prop :=
  ∀ v e v', InsideVariant vs.wr v e v' → ∀ tag p, address e = tag :: p → vs.knows tag p = true → SeenVariant m vs v' →
    ∃ e' y y', e = under [tag] e' ∧ seeVariant vs v = some y ∧ seeVariant vs v' = some y' ∧ (vs.rd.dict true).tagOf y = tag ∧
      ∀ x rt, VarAt vs.rd true rt x → stripVariant vs.rd x = y →
        ∃ x', Applies ((vs.rd.dict true).handleFields m) x [e'] x' ∧ stripVariant vs.rd x' = y'

theorem insideVariant_tag : (vs : Variants) → ∀ {v v' : vs.El} {e : Entry}, InsideVariant vs v e v' →
    ∃ tag ∈ vs.tags, ∃ p, address e = tag :: p
  | .nil, _, _, _, h => nomatch h
  | .cons tag _ _ _, .inl _, .inl _, _, ⟨e', rfl, _⟩ => ⟨tag, List.mem_cons_self, address e', address_under tag e'⟩
  | .cons _ _ _ vs, .inr _, .inr _, _, h => by
    obtain ⟨tag, h1, h2⟩ := insideVariant_tag vs h
    exact ⟨tag, List.mem_cons_of_mem _ h1, h2⟩
  | .cons _ _ _ _, .inl _, .inr _, _, h => nomatch h
  | .cons _ _ _ _, .inr _, .inl _, _, h => nomatch h

theorem variants_inr {m : Mode} {tag : U32} {cached : Bool} {fs : Fields} {vs : Variants} {x x' : vs.El} {e : Entry}
    (h : Applies ((vs.dict true).handleFields m) x [e] x') :
    Applies (((Variants.cons tag cached fs vs).dict true).handleFields m) (.inr x) [e] (.inr x') := by
  have key := Applies.lift (H := ((Variants.cons tag cached fs vs).dict true).handleFields m)
    (fun z => (Sum.inr z : fs.El ⊕ vs.El)) id (fun _ => True) (fun _ => True) (fun _ _ _ _ _ _ => trivial)
    (fun x e z rest _ _ hz => by
      refine ⟨rest, ?_⟩
      have gen : ∀ path kind key bs, (vs.dict true).handleFields m x path kind key bs = .ok z rest →
          ((Variants.cons tag cached fs vs).dict true).handleFields m (.inr x) path kind key bs = .ok (.inr z) rest := by
        intro path kind key bs h
        simp only [Variants.dict, variantsCons, h, Res.map]
      cases e <;> exact gen _ _ _ _ hz) (fun _ _ => trivial) trivial h
  rw [List.map_id] at key
  exact key

theorem variants_inl {m : Mode} {tag : U32} {cached : Bool} {fs : Fields} {vs : Variants} {x x' : fs.El} {e : Entry}
    (h : Applies (variantHandle (fs.dict true) m) x [e] x') :
    Applies (((Variants.cons tag cached fs vs).dict true).handleFields m) (.inl x) [e] (.inl x') := by
  have key := Applies.lift (H := ((Variants.cons tag cached fs vs).dict true).handleFields m)
    (fun z => (Sum.inl z : fs.El ⊕ vs.El)) id (fun _ => True) (fun _ => True) (fun _ _ _ _ _ _ => trivial)
    (fun x e z rest _ _ hz => by
      refine ⟨rest, ?_⟩
      have gen : ∀ path kind key bs, variantHandle (fs.dict true) m x path kind key bs = .ok z rest →
          ((Variants.cons tag cached fs vs).dict true).handleFields m (.inl x) path kind key bs = .ok (.inl z) rest := by
        intro path kind key bs h
        simp only [Variants.dict, variantsCons, h, Res.map]
      cases e <;> exact gen _ _ _ _ hz) (fun _ _ => trivial) trivial h
  rw [List.map_id] at key
  exact key

/-- The reader has the variant at a position further on. -/
theorem followsRev_later {m : Mode} {tag : U32} {cached : Bool} {fs : Fields} {vs : RevVariants} {y y' : vs.rd.El} {e : Entry}
    (h : ∀ x rt, VarAt vs.rd true rt x → stripVariant vs.rd x = y →
        ∃ x', Applies ((vs.rd.dict true).handleFields m) x [e] x' ∧ stripVariant vs.rd x' = y') :
    ∀ x rt, VarAt (.cons tag cached fs vs.rd) true rt x → stripVariant (.cons tag cached fs vs.rd) x = .inr y →
        ∃ x', Applies (((Variants.cons tag cached fs vs.rd).dict true).handleFields m) x [e] x' ∧
          stripVariant (.cons tag cached fs vs.rd) x' = .inr y' := by
  intro x rt hx hs
  rcases x with x | x
  · cases hs
  · obtain ⟨x', h1, h2⟩ := h x rt hx (Sum.inr.inj hs)
    exact ⟨.inr x', variants_inr h1, congrArg Sum.inr h2⟩

theorem followsRev_vkeep {m : Mode} {tag : U32} {cached cached' : Bool} {fs : RevFields} {vs : RevVariants}
    (hnew : tag ∉ vs.wr.tags) (ihf : FollowsRevFields m fs) (ihv : FollowsRevVariants m vs) :
    FollowsRevVariants m (.keep tag cached cached' fs vs) := by
  intro v e v' hm tag' p he hk hseen
  rcases v with v | v <;> rcases v' with v' | v'
  · obtain ⟨e', rfl, hm⟩ := hm
    rw [address_under] at he
    cases he
    simp only [RevVariants.knows, if_true] at hk
    refine ⟨e', .inl (seeFields fs v), .inl (seeFields fs v'), rfl, rfl, rfl, rfl, ?_⟩
    intro x rt hx hs
    rcases x with x | x
    · obtain ⟨k, _, q, hq⟩ := headed_inside fs.wr hm
      rw [hq] at hk
      obtain ⟨x', h1, h2, _⟩ := ihf v e' v' hm k q hq hk hseen x (rt.nested tag) hx (Sum.inl.inj hs)
      exact ⟨.inl x', variants_inl h1, congrArg Sum.inl h2⟩
    · cases hs
  · exact nomatch hm
  · exact nomatch hm
  · have hne : tag' ≠ tag := by
      rintro rfl
      obtain ⟨k, h1, q, h2⟩ := insideVariant_tag vs.wr hm
      rw [he] at h2
      cases h2
      exact hnew h1
    simp only [RevVariants.knows, if_neg hne] at hk
    obtain ⟨e', y, y', h1, h2, h3, h4, h5⟩ := ihv v e v' hm tag' p he hk hseen
    exact ⟨e', .inr y, .inr y', h1, by simp only [seeVariant, h2]; rfl, by simp only [seeVariant, h3]; rfl, h4,
      followsRev_later h5⟩

theorem followsRev_vadd {m : Mode} {tag : U32} {cached : Bool} {fs : Fields} {vs : RevVariants}
    (ihv : FollowsRevVariants m vs) : FollowsRevVariants m (.add tag cached fs vs) := by
  intro v e v' hm tag' p he hk hseen
  simp only [RevVariants.knows, Bool.and_eq_true, decide_eq_true_eq] at hk
  rcases v with v | v <;> rcases v' with v' | v'
  · exact nomatch hseen
  · exact nomatch hm
  · exact nomatch hm
  · exact ihv v e v' hm tag' p he hk.2 hseen

theorem followsRev_vdrop {m : Mode} {tag : U32} {cached : Bool} {fs : Fields} {vs : RevVariants}
    (ihv : FollowsRevVariants m vs) : FollowsRevVariants m (.drop tag cached fs vs) := by
  intro v e v' hm tag' p he hk hseen
  obtain ⟨e', y, y', h1, h2, h3, h4, h5⟩ := ihv v e v' hm tag' p he hk hseen
  exact ⟨e', .inr y, .inr y', h1, by simp only [seeVariant, h2]; rfl, by simp only [seeVariant, h3]; rfl, h4,
    followsRev_later h5⟩

theorem see_enum {ds cached cached' : Bool} {fs : RevFields} {vs : RevVariants} {v : (Rev.enum ds cached true cached' fs vs).wr.El}
    {y : (Variants.cons 0#32 cached' fs.rd vs.rd).El} (h : seeVariant (.keep 0#32 cached cached' fs vs) v.val = some y) :
    see (.enum ds cached true cached' fs vs) v = ⟨Rt.dflt, y⟩ := by
  obtain ⟨rt, x | x⟩ := v
  · cases h
    rfl
  · obtain ⟨z, h1, rfl⟩ := Option.map_eq_some_iff.1 h
    simp only [see, h1]

theorem followsRev_enum {m : Mode} {cached cached' : Bool} {fs : RevFields} {vs : RevVariants}
    (hw : (Rev.enum true cached true cached' fs vs).wr.WF) (hr : (Rev.enum true cached true cached' fs vs).rd.WF)
    (hrules : (Rev.enum true cached true cached' fs vs).Rules) (ih : FollowsRevVariants m (.keep 0#32 cached cached' fs vs)) :
    FollowsRev m (.enum true cached true cached' fs vs) := by
  refine followsRev_of hw hr hrules rfl ?_
  intro v e v' hm hk hseen x rt hx hs
  rw [inside_enum] at hm
  obtain ⟨tag, _, p, he⟩ := insideVariant_tag _ hm
  rw [he] at hk
  have hseen' : SeenVariant m (.keep 0#32 cached cached' fs vs) v'.val := by
    obtain ⟨_, y | y⟩ := v' <;> exact hseen
  obtain ⟨e', y, y', rfl, h1, h2, h3, h4⟩ := ih v.val e v'.val hm tag p he hk hseen'
  rw [see_enum h1] at hs
  have hs' : stripVariant (allVariants cached' fs.rd vs.rd) x.val = y := by
    have := congrArg EnumV.val hs
    obtain ⟨_, z | z⟩ := x <;> exact this
  obtain ⟨x', h5, h6⟩ := h4 x.val rt ((at_enum_iff cached' fs.rd vs.rd rt x).1 hx).2 hs'
  have htag : ((allVariants cached' fs.rd vs.rd).dict true).tagOf x.val = tag := by
    rw [← tagOf_strip, hs']
    exact h3
  refine ⟨{ x with val := x' }, ?_, ?_⟩
  · exact Applies.below (H := (Ty.enum true cached' fs.rd vs.rd).dict.handle m) tag
      (fun z => ({ x with val := z } : EnumV (fs.rd.El ⊕ vs.rd.El)))
      (fun z => ((allVariants cached' fs.rd vs.rd).dict true).tagOf z = tag)
      (fun x1 e y rest hx hy => by
        rw [← hx]
        cases e <;> exact handleFields_tag (allVariants cached' fs.rd vs.rd) m x1 _ _ _ _ y rest hy)
      (fun x1 path kind key bs z rest hx hz => by
        refine ⟨rest, ?_⟩
        have gen : ∀ d, enumHandle ((allVariants cached' fs.rd vs.rd).dict true) d m { x with val := x1 }
            (tag :: path) kind key bs = .ok { x with val := z } rest := by
          intro d
          simp only [enumHandle, hx, if_true, hz, Res.map]
        exact gen (fun rt => .inl ((fs.rd.dict true).init rt))) htag h5
  · rw [see_enum h2]
    obtain ⟨_, z | z⟩ := x <;> rcases x' with z' | z' <;> exact congrArg (EnumV.mk Rt.dflt) h6

mutual
theorem followsRev (m : Mode) : (r : Rev) → r.wr.WF → r.rd.WF → r.Rules → r.rd.isState = true → FollowsRev m r
  | .same t, hw, hr, _, hs => fun v e v' hm _ _ x rt hx hsame => follows t hw hs v e v' hm m x rt hx hsame
  | .uint _ _, hw, hr, h, hs => followsRev_of hw hr h hs (fun _ _ _ h => nomatch h)
  | .sint _ _, hw, hr, h, hs => followsRev_of hw hr h hs (fun _ _ _ h => nomatch h)
  | .flag _, hw, hr, h, hs => followsRev_of hw hr h hs (fun _ _ _ h => nomatch h)
  | .hide _, _, _, _, hs => nomatch hs
  | .vec _, _, _, _, hs => nomatch hs
  | .array _ _, _, _, _, hs => nomatch hs
  | .tuple _, _, _, _, hs => nomatch hs
  | .option _, _, _, _, hs => nomatch hs
  | .hashMap _ _, _, _, _, hs => nomatch hs
  | .vecList _, hw, hr, h, hs => followsRev_of hw hr h hs (fun _ _ _ h => nomatch h)
  | .listVec _, _, _, _, hs => nomatch hs
  | .optionVec _, _, _, _, hs => nomatch hs
  | .box r, hw, hr, h, hs => followsRev m r hw hr h hs
  | .boxed r, hw, hr, h, hs => followsRev m r hw hr h hs
  | .unboxed r, hw, hr, h, hs => followsRev m r hw hr h hs
  | .list r, hw, hr, h, _ => followsRev_list hw hr h (followsRev m r hw.2 hr.2 h hr.1)
  | .map _ _ r, hw, hr, h, _ => followsRev_map hw hr h (followsRev m r hw.2 hr.2 h.2 hr.1)
  | .struct _ _ false _ _, _, _, _, hs => nomatch hs
  | .struct false _ true _ _, hw, hr, h, hs => followsRev_of hw hr h hs (fun _ _ _ h => nomatch h)
  | .struct true _ true _ fs, hw, hr, h, _ => followsRev_struct hw hr h (followsRev_fields m fs hw.2 hr.2 h.2 h.1)
  | .enum _ _ false _ _ _, _, _, _, hs => nomatch hs
  | .enum false _ true _ _ _, hw, hr, h, hs => followsRev_of hw hr h hs (fun _ _ _ h => nomatch h)
  | .enum true _ true _ fs vs, hw, hr, h, _ =>
    followsRev_enum hw hr h (followsRev_vkeep hw.2.2.2.1 (followsRev_fields m fs hw.2.1 hr.2.1 h.2.1 h.1)
      (followsRev_variants m vs hw.2.2.1 hw.2.2.2.2 hr.2.2.2.2 h.2.2))

theorem followsRev_fields (m : Mode) : (fs : RevFields) → fs.wr.WF true → fs.rd.WF true → fs.Rules → fs.tags.Nodup →
    FollowsRevFields m fs
  | .nil, _, _, _, _ => fun _ _ _ h => nomatch h
  | .keep _ _ _ r fs, hw, hr, h, hn =>
    followsRev_keep (List.nodup_cons.1 hn).1 (fun hs => followsRev m r hw.2.2.1 hr.2.2.1 h.1 (hr.2.1 (by simp [hs])))
      (followsRev_fields m fs hw.2.2.2 hr.2.2.2 h.2 (List.nodup_cons.1 hn).2)
  | .add _ _ _ fs, hw, hr, h, hn => followsRev_add (followsRev_fields m fs hw.2.2.2 hr h (List.nodup_cons.1 hn).2)
  | .drop _ _ _ fs, hw, hr, h, hn =>
    followsRev_drop (List.nodup_cons.1 hn).1 (followsRev_fields m fs hw hr.2.2.2 h (List.nodup_cons.1 hn).2)
  | .retype _ _ _ _ _ fs, hw, hr, h, hn =>
    followsRev_retype (List.nodup_cons.1 hn).1 (followsRev_fields m fs hw.2.2.2 hr.2.2.2 h.2 (List.nodup_cons.1 hn).2)

theorem followsRev_variants (m : Mode) : (vs : RevVariants) → vs.wr.tags.Nodup → vs.wr.WF true → vs.rd.WF true → vs.Rules →
    FollowsRevVariants m vs
  | .nil, _, _, _, _ => fun _ _ _ h => nomatch h
  | .keep _ _ _ fs vs, hn, hw, hr, h =>
    followsRev_vkeep (List.nodup_cons.1 hn).1 (followsRev_fields m fs hw.2.2.1 hr.2.2.1 h.2.1 h.1)
      (followsRev_variants m vs (List.nodup_cons.1 hn).2 hw.2.2.2 hr.2.2.2 h.2.2)
  | .add _ _ _ vs, hn, hw, hr, h => followsRev_vadd (followsRev_variants m vs (List.nodup_cons.1 hn).2 hw.2.2.2 hr h)
  | .drop _ _ _ vs, hn, hw, hr, h => followsRev_vdrop (followsRev_variants m vs hn hw hr.2.2.2 h)
end

/-- Entries, one after the other. -/
theorem followsRev_steps {r : Rev} (hw : r.wr.WF) (hr : r.rd.WF) (hrules : r.Rules) (hst : r.rd.isState = true) {m : Mode}
    (hall : ∀ v, Carried r.wr v → Seen m r v) {es : List Entry} : ∀ {v v' : r.wr.El} {x : r.rd.El} {rt : Rt},
      Steps (Means r.wr) v es v' → (∀ e ∈ es, r.knows (address e) = true) → Carried r.wr v → At r.rd rt x →
      strip r.rd x = see r v → ∃ x', Applies (r.rd.dict.handle m) x es x' ∧ strip r.rd x' = see r v' := by
  induction es with
  | nil => intro v v' x rt h _ _ hx hs; cases h; exact ⟨x, rfl, hs⟩
  | cons e es ih =>
    intro v v' x rt h hk hc hx hs
    obtain ⟨u, h1, h2⟩ := h
    have hu := means_carried h1 hc
    obtain ⟨x1, h3, h4⟩ := followsRev m r hw hr hrules hst v e u h1 (hk e List.mem_cons_self) (hall u hu) x rt hx hs
    obtain ⟨x', h5, h6⟩ := ih h2 (fun e he => hk e (List.mem_cons_of_mem _ he)) hu (applies_at hr hst hx h3) h4
    exact ⟨x', h3.trans h5, h6⟩

/-! ### Refusing -/

/-- As `Lost`, for the fields of a message: there is no such field, or what is below it is lost. -/
def RefusesFields (m : Mode) (fs : Fields) : Prop :=
  ∀ k p, LostField fs k p = true → ∀ x kind key bs, (fs.dict true).handleField m k x p kind key bs = none ∨
    (fs.dict true).handleField m k x p kind key bs = some (.err x .invalidData)

theorem variantHandle_lost {m : Mode} {fs : Fields} (h : RefusesFields m fs) {k : U32} {p : List U32} (hl : LostField fs k p = true)
    (x : fs.El) (kind : LogKind) (key : Option U32) (bs : Bytes) :
    variantHandle (fs.dict true) m x (k :: p) kind key bs = .err x .invalidData := by
  rcases h k p hl x kind key bs with h | h <;> simp only [variantHandle, h]

theorem lostVariant_cons {tag : U32} {cached : Bool} {fs : Fields} {vs : Variants} {p : List U32}
    (h : LostVariant (.cons tag cached fs vs) tag p = true) : p = [] ∨ ∃ k q, p = k :: q ∧ LostField fs k q = true := by
  simp only [LostVariant, if_true] at h
  cases p with
  | nil => exact .inl rfl
  | cons k q => exact .inr ⟨k, q, rfl, h⟩

theorem lost_nil : (t : Ty) → Lost t [] = true → False
  | .box t, h => lost_nil t h
  | .uint _, h => nomatch h
  | .sint _, h => nomatch h
  | .bool, h => nomatch h
  | .string, h => nomatch h
  | .bytes, h => nomatch h
  | .vec _, h => nomatch h
  | .array _ _, h => nomatch h
  | .tuple _, h => nomatch h
  | .option _, h => nomatch h
  | .hashMap _ _, h => nomatch h
  | .list _, h => nomatch h
  | .map _ _, h => nomatch h
  | .struct _ _ _, h => nomatch h
  | .enum _ _ _ _, h => nomatch h

theorem tagOf_mem : (vs : Variants) → ∀ v, (vs.dict true).tagOf v ∈ vs.tags
  | .nil, v => nomatch v
  | .cons _ _ _ _, .inl _ => List.mem_cons_self
  | .cons _ _ _ vs, .inr v => List.mem_cons_of_mem _ (tagOf_mem vs v)

/-- As `Lost`, for the variants of an enum. -/
def RefusesVariants (m : Mode) (vs : Variants) : Prop :=
  ∀ k p, LostVariant vs k p = true → ∀ x, (vs.dict true).tagOf x = k → ∀ kind key bs,
    (vs.dict true).handleFields m x p kind key bs = .err x .invalidData

theorem refuses_variants_cons {m : Mode} {tag : U32} {cached : Bool} {fs : Fields} {vs : Variants} (hnew : tag ∉ vs.tags)
    (ihf : RefusesFields m fs) (ihv : RefusesVariants m vs) : RefusesVariants m (.cons tag cached fs vs) := by
  intro k p h x hk kind key bs
  rcases x with x | x
  · have hk : tag = k := hk
    subst hk
    have hr : variantHandle (fs.dict true) m x p kind key bs = .err x .invalidData := by
      rcases lostVariant_cons h with rfl | ⟨k, q, rfl, hl⟩
      · rfl
      · exact variantHandle_lost ihf hl x kind key bs
    simp only [Variants.dict, variantsCons, hr, Res.map]
  · have hk : (vs.dict true).tagOf x = k := hk
    have hne : k ≠ tag := by
      rintro rfl
      exact hnew (hk ▸ tagOf_mem vs x)
    simp only [LostVariant, if_neg hne] at h
    have hr := ihv k p h x hk kind key bs
    simp only [Variants.dict, variantsCons, hr, Res.map]

mutual
theorem refuses (m : Mode) : (t : Ty) → t.WF → ∀ p, Lost t p = true → ∀ x kind key bs,
    t.dict.handle m x p kind key bs = .err x .invalidData
  | .box t, ht, p, h, x, kind, key, bs => refuses m t ht p h x kind key bs
  | .uint _, _, _ :: _, _, _, _, _, _ => rfl
  | .sint _, _, _ :: _, _, _, _, _, _ => rfl
  | .bool, _, _ :: _, _, _, _, _, _ => rfl
  | .list t, ht, k :: p, h, x, kind, key, bs => by
    show listHandle t.dict m x (k :: p) kind key bs = _
    cases hx : x.items[k.toNat]? with
    | none => simp only [listHandle, hx]
    | some y => simp only [listHandle, hx, refuses m t ht.2 p h y kind key bs, Res.map, list_set_same hx]
  | .map kt t, ht, k :: p, h, x, kind, key, bs => by
    show mapHandle kt t.dict m x (k :: p) kind key bs = _
    cases hx : entriesGet k x.entries with
    | none =>
      have hp : p ≠ [] := by
        rintro rfl
        exact lost_nil t h
      simp [mapHandle, hx, hp]
    | some y =>
      simp only [mapHandle, hx, refuses m t ht.2 p h y kind key bs, Res.map, entriesInsert_same hx]
  | .struct true _ fs, ht, k :: p, h, x, kind, key, bs => by
    show structHandle (fs.dict true) m x (k :: p) kind key bs = _
    rcases refuses_fields m fs ht.2 k p h x.fields kind key bs with h1 | h1 <;> simp only [structHandle, h1, Res.map]
  | .enum true cached fs vs, ht, k :: p, h, x, kind, key, bs => by
    have gen : ∀ d, enumHandle ((allVariants cached fs vs).dict true) d m x (k :: p) kind key bs = .err x .invalidData := by
      intro d
      simp only [enumHandle]
      split
      · next hk =>
        have hr := refuses_variants_cons (tag := 0#32) (cached := cached) ht.2.2.2.1 (refuses_fields m fs ht.2.1)
          (refuses_variants m vs ht.2.2.2.2 ht.2.2.1) k p h x.val hk.symm kind key bs
        simp only [hr, Res.map]
      · rfl
    exact gen (fun rt => .inl ((fs.dict true).init rt))
  | .uint _, _, [], h, _, _, _, _ => nomatch h
  | .sint _, _, [], h, _, _, _, _ => nomatch h
  | .bool, _, [], h, _, _, _, _ => nomatch h
  | .list _, _, [], h, _, _, _, _ => nomatch h
  | .map _ _, _, [], h, _, _, _, _ => nomatch h
  | .struct true _ _, _, [], h, _, _, _, _ => nomatch h
  | .enum true _ _ _, _, [], h, _, _, _, _ => nomatch h
  | .struct false _ _, _, p, h, _, _, _, _ => by cases p <;> exact nomatch h
  | .enum false _ _ _, _, p, h, _, _, _, _ => by cases p <;> exact nomatch h
  | .string, _, p, h, _, _, _, _ => by cases p <;> exact nomatch h
  | .bytes, _, p, h, _, _, _, _ => by cases p <;> exact nomatch h
  | .vec _, _, p, h, _, _, _, _ => by cases p <;> exact nomatch h
  | .array _ _, _, p, h, _, _, _, _ => by cases p <;> exact nomatch h
  | .tuple _, _, p, h, _, _, _, _ => by cases p <;> exact nomatch h
  | .option _, _, p, h, _, _, _, _ => by cases p <;> exact nomatch h
  | .hashMap _ _, _, p, h, _, _, _, _ => by cases p <;> exact nomatch h

theorem refuses_fields (m : Mode) : (fs : Fields) → fs.WF true → RefusesFields m fs
  | .nil, _ => fun _ _ _ _ _ _ _ => .inl rfl
  | .cons tag attrs t fs, hf => by
    intro k p h x kind key bs
    simp only [LostField] at h
    by_cases hk : k = tag
    · rw [if_pos hk, Bool.and_eq_true, Bool.not_eq_true'] at h
      right
      simp only [Fields.dict, fieldsCons, if_pos hk, h.1, Bool.not_false, Bool.and_self, if_true,
        refuses m t hf.2.2.1 p h.2 x.1 kind key bs, Res.map]
    · rw [if_neg hk] at h
      rcases refuses_fields m fs hf.2.2.2 k p h x.2 kind key bs with h1 | h1
      · left; simp only [Fields.dict, fieldsCons, if_neg hk, h1, Option.map_none]
      · right; simp only [Fields.dict, fieldsCons, if_neg hk, h1, Option.map_some, Res.map]

theorem refuses_variants (m : Mode) : (vs : Variants) → vs.WF true → vs.tags.Nodup → RefusesVariants m vs
  | .nil, _, _ => fun _ _ _ x => nomatch x
  | .cons _ _ fs vs, hv, hn => refuses_variants_cons (List.nodup_cons.1 hn).1 (refuses_fields m fs hv.2.2.1)
      (refuses_variants m vs hv.2.2.2 (List.nodup_cons.1 hn).2)
end

end Steit
