import Verif.Spec.CSharpRevision
import Verif.Lemmas.CSharpSkip
import Verif.Lemmas.CSharpDecode
import Verif.Lemmas.Revision

/-! # Decoding in C# what another revision of the type wrote in Rust -/

namespace Steit
open Spec

/-! ### Wire types -/

theorem wire_rev : (r : Rev) → r.Rules → wireOf r.wr = wireOf r.rd
  | .same _, _ => rfl
  | .uint _ _, _ => rfl
  | .sint _ _, _ => rfl
  | .flag _, _ => rfl
  | .hide _, h => h
  | .vec _, _ => rfl
  | .array _ _, _ => rfl
  | .tuple _, _ => rfl
  | .option _, _ => rfl
  | .box r, h => wire_rev r h
  | .hashMap _ _, _ => rfl
  | .list _, _ => rfl
  | .map _ _ _, _ => rfl
  | .vecList _, _ => rfl
  | .listVec _, _ => rfl
  | .optionVec _, _ => rfl
  | .boxed r, h => wire_rev r h
  | .unboxed r, h => wire_rev r h
  | .struct _ _ _ _ _, _ => rfl
  | .enum _ _ _ _ _ _, _ => rfl

theorem extra_not_rd : (fs : RevFields) → fs.tags.Nodup → ∀ tag ∈ fs.extra, tag ∉ fs.rd.tags
  | .nil, _, _, h => nomatch h
  | .keep tag _ _ _ fs, hn, t, h => by
    have hn := List.nodup_cons.1 hn
    intro hm
    rcases List.mem_cons.1 hm with rfl | hm
    · exact hn.1 (fs.extra_tags t h)
    · exact extra_not_rd fs hn.2 t h hm
  | .add tag _ _ fs, hn, t, h => by
    have hn := List.nodup_cons.1 hn
    intro hm
    rcases List.mem_cons.1 h with rfl | h
    · exact hn.1 (fs.rd_tags t hm)
    · exact extra_not_rd fs hn.2 t h hm
  | .drop tag _ _ fs, hn, t, h => by
    have hn := List.nodup_cons.1 hn
    intro hm
    rcases List.mem_cons.1 hm with rfl | hm
    · exact hn.1 (fs.extra_tags t h)
    · exact extra_not_rd fs hn.2 t h hm
  | .retype tag _ _ _ _ fs, hn, t, h => by
    have hn := List.nodup_cons.1 hn
    intro hm
    rcases List.mem_cons.1 hm with rfl | hm
    · exact hn.1 (fs.extra_tags t h)
    · exact extra_not_rd fs hn.2 t h hm

/-! ### New objects show defaults -/

mutual
theorem bare_shows : (t : Ty) → t.WF → Bare t → ∀ rt, Shows t (t.dict.withRuntime rt) t.csNew
  | .uint _, _, _, _ => rfl
  | .sint _, _, _, _ => rfl
  | .bool, _, _, _ => rfl
  | .string, _, _, _ => .inr ⟨rfl, rfl⟩
  | .bytes, _, _, _ => rfl
  | .vec _, _, _, _ => .nil
  | .array _ _, _, h, _ => nomatch h
  | .tuple _, _, h, _ => nomatch h
  | .option _, _, _, _ => .none
  | .box t, ht, h, rt => bare_shows t ht h rt
  | .hashMap _ _, _, h, _ => nomatch h
  | .list _, _, _, _ => .nil
  | .map _ _, _, _, _ => fun _ => .none
  | .struct true _ fs, ht, h, rt => bare_showsFields fs true ht.2 h (some rt)
  | .struct false _ fs, ht, h, rt => bare_showsFields fs false ht.2 h none
  | .enum true _ fs _, ht, h, rt => bare_showsFields fs true ht.2.1 h (some (rt.nested 0#32))
  | .enum false _ fs _, ht, h, rt => bare_showsFields fs false ht.2.1 h none

theorem bare_showsFields : (fs : Fields) → (ds : Bool) → fs.WF ds → BareFields fs → ∀ rt,
    ShowsFields fs ((fs.dict ds).init rt) fs.csNew
  | .nil, _, _, _, _ => trivial
  | .cons tag attrs t fs, ds, hf, h, rt => by
    refine ⟨?_, bare_showsFields fs ds hf.2.2.2 h.2 rt⟩
    have h1 := bare_shows t hf.2.2.1 h.1
    have h2 : Shows t t.dict.dflt t.csNew := by rw [(decLaw t hf.2.2.1).dflt_eq]; exact h1 _
    show Shows t (match rt, ds && !attrs.noState with
      | some rt, true => t.dict.withRuntime (rt.nested tag)
      | _, _ => t.dict.dflt) _
    split
    · exact h1 _
    · exact h2
end

theorem bare_dflt (t : Ty) (ht : t.WF) (h : Bare t) : Shows t (strip t t.dict.dflt) t.csNew := by
  rw [shows_strip, (decLaw t ht).dflt_eq]
  exact bare_shows t ht h _

/-! ### What is left out is what a new object holds -/

mutual
theorem empty_showsRev : (r : Rev) → r.wr.WF → r.rd.WF → Mirrored r.rd → r.Bare → r.Rules → ∀ v, encode r.wr v = [] →
    Shows r.rd (see r v) r.rd.csNew
  | .same t, ht, _, hm, _, hu, v, h => by
    simp only [see, shows_strip]
    exact empty_shows t ht hm v h
  | .uint _ _, _, _, _, _, hu, v, h => absurd h (leb_ne_nil _)
  | .sint _ _, _, _, _, _, hu, v, h => absurd h (leb_ne_nil _)
  | .flag _, _, _, _, _, hu, v, h => absurd h (leb_ne_nil _)
  | .hide _, _, _, _, _, hu, v, h => h.symm
  | .vec r, ht, _, _, _, hu, v, h => by
    rw [flatMap_eq_nil_of_ne (framed_encode_ne r.wr ht) h]; exact .nil
  | .array n r, ht, _, _, _, hu, v, h => by
    have := flatMap_eq_nil_of_ne (framed_encode_ne r.wr ht.2.2) h
    have h1 := v.2
    rw [this] at h1
    have := ht.1
    simp at h1; omega
  | .tuple _, _, _, hm, _, hu, _, _ => hm.elim
  | .option r, ht, _, _, _, hu, none, h => .none
  | .option r, ht, _, _, _, hu, some x, h => by
    simp only [encode, Option.toList_some, List.flatMap_cons, List.flatMap_nil, List.append_nil] at h
    exact absurd h (framed_encode_ne r.wr ht _)
  | .box r, ht, ht', hm, hb, hu, v, h => empty_showsRev r ht ht' hm hb hu v h
  | .hashMap _ _, _, _, hm, _, hu, _, _ => hm.elim
  | .list r, ht, _, _, _, hu, v, h => by
    have : v.items = [] := flatMap_eq_nil_of_ne (framed_encode_ne r.wr ht.2) h
    simp only [Shows, see, this]; exact .nil
  | .map k k' r, ht, _, _, _, hu, v, h => by
    have : v.entries = [] := flatMap_eq_nil_of_ne
      (f := fun e : U32 × r.wr.El => leb (e.1.toNat * 8 + wireOf r.wr) ++ framed (wireOf r.wr) (encode r.wr e.2))
      (fun e he => leb_ne_nil _ (List.append_eq_nil_iff.1 he).1) h
    simp only [Shows, see, this]; exact fun _ => .none
  | .vecList r, ht, _, _, _, hu, v, h => by
    rw [flatMap_eq_nil_of_ne (framed_encode_ne r.wr ht) h]; exact .nil
  | .listVec r, ht, _, _, _, hu, v, h => by
    have : v.items = [] := flatMap_eq_nil_of_ne (framed_encode_ne r.wr ht.2) h
    simp only [Shows, see, this]; exact .nil
  | .optionVec r, ht, _, _, _, hu, none, h => .nil
  | .optionVec r, ht, _, _, _, hu, some x, h => by
    simp only [encode, Option.toList_some, List.flatMap_cons, List.flatMap_nil, List.append_nil] at h
    exact absurd h (framed_encode_ne r.wr ht _)
  | .boxed r, ht, ht', hm, hb, hu, v, h => empty_showsRev r ht ht' hm hb hu v h
  | .unboxed r, ht, ht', hm, hb, hu, v, h => empty_showsRev r ht ht' hm hb hu v h
  | .struct ds _ ds' _ fs, ht, ht', hm, hb, hu, v, h => empty_showsRevFields fs ds ds' ht.2 ht'.2 hm hb hu.2 v.fields h
  | .enum _ _ _ _ fs vs, ht, _, _, _, hu, ⟨_, .inl x⟩, h => by
    simp only [encode, List.append_eq_nil_iff] at h
    exact absurd h.1 (leb_ne_nil _)
  | .enum _ _ _ _ fs vs, ht, _, _, _, hu, ⟨_, .inr x⟩, h => absurd h (encodeVariant_ne vs.wr x)

theorem empty_showsRevFields : (fs : RevFields) → (ds ds' : Bool) → fs.wr.WF ds → fs.rd.WF ds' → MirroredFields fs.rd → fs.Bare → fs.Rules →
    ∀ v, encodeFields fs.wr v = [] → ShowsFields fs.rd (seeFields fs v) fs.rd.csNew
  | .nil, _, _, _, _, _, _, hu, _, _ => trivial
  | .keep tag attrs attrs' r fs, ds, ds', hf, hf', hm, hb, hu, v, h => by
    simp only [encodeFields, List.append_eq_nil_iff] at h
    have hlo : leftOut r.wr v.1 (encode r.wr v.1) = true := by
      have h1 := h.1
      split at h1
      · assumption
      · simp only [List.append_eq_nil_iff] at h1
        exact absurd h1.1 (leb_ne_nil _)
    exact ⟨leftOut_showsRev r hf.2.2.1 hf'.2.2.1 hm.2.1 hb.1 hu.1 v.1 hlo,
      empty_showsRevFields fs ds ds' hf.2.2.2 hf'.2.2.2 hm.2.2 hb.2 hu.2 v.2 h.2⟩
  | .add tag attrs t fs, ds, ds', hf, hf', hm, hb, hu, v, h => by
    simp only [encodeFields, List.append_eq_nil_iff] at h
    exact empty_showsRevFields fs ds ds' hf.2.2.2 hf' hm hb hu v.2 h.2
  | .drop tag attrs t fs, ds, ds', hf, hf', hm, hb, hu, v, h =>
    ⟨bare_dflt t hf'.2.2.1 hb.1, empty_showsRevFields fs ds ds' hf hf'.2.2.2 hm.2.2 hb.2 hu v h⟩
  | .retype tag attrs attrs' t t' fs, ds, ds', hf, hf', hm, hb, hu, v, h => by
    simp only [encodeFields, List.append_eq_nil_iff] at h
    exact ⟨bare_dflt t' hf'.2.2.1 hb.1, empty_showsRevFields fs ds ds' hf.2.2.2 hf'.2.2.2 hm.2.2 hb.2 hu.2 v.2 h.2⟩

theorem leftOut_showsRev : (r : Rev) → r.wr.WF → r.rd.WF → Mirrored r.rd → r.Bare → r.Rules → ∀ v, leftOut r.wr v (encode r.wr v) = true →
    Shows r.rd (see r v) r.rd.csNew
  | .same t, ht, _, hm, _, hu, v, h => by
    simp only [see, shows_strip]
    exact leftOut_shows t ht hm v h
  | .uint w w', _, _, _, _, hu, v, h => by
    have : v = 0 := by simpa [leftOut] using h
    subst this
    simp [Shows, see, Ty.csNew]
  | .sint w w', _, _, _, _, hu, v, h => by
    have : v = 0 := by simpa [leftOut] using h
    subst this
    cases w <;> cases w' <;> rfl
  | .flag w, _, _, _, _, hu, v, h => by
    have : v = false := by simpa [leftOut] using h
    subst this
    simp [Shows, see, Ty.csNew]
  | .hide t, ht, ht', hm, hb, hu, v, h => empty_showsRev (.hide t) ht ht' hm hb hu v
    (List.isEmpty_iff.1 ((leftOut_sized hu v _).symm.trans h))
  | .vec r, ht, ht', hm, hb, hu, v, h => empty_showsRev (.vec r) ht ht' hm hb hu v (List.isEmpty_iff.1 h)
  | .array n r, ht, ht', hm, hb, hu, v, h => empty_showsRev (.array n r) ht ht' hm hb hu v (List.isEmpty_iff.1 h)
  | .tuple rs, ht, ht', hm, hb, hu, v, h => empty_showsRev (.tuple rs) ht ht' hm hb hu v (List.isEmpty_iff.1 h)
  | .option r, ht, ht', hm, hb, hu, v, h => empty_showsRev (.option r) ht ht' hm hb hu v (List.isEmpty_iff.1 h)
  | .box r, ht, ht', hm, hb, hu, v, h => empty_showsRev (.box r) ht ht' hm hb hu v (List.isEmpty_iff.1 h)
  | .hashMap k r, ht, ht', hm, hb, hu, v, h => empty_showsRev (.hashMap k r) ht ht' hm hb hu v (List.isEmpty_iff.1 h)
  | .list r, ht, ht', hm, hb, hu, v, h => empty_showsRev (.list r) ht ht' hm hb hu v (List.isEmpty_iff.1 h)
  | .map k k' r, ht, ht', hm, hb, hu, v, h => empty_showsRev (.map k k' r) ht ht' hm hb hu v (List.isEmpty_iff.1 h)
  | .vecList r, ht, ht', hm, hb, hu, v, h => empty_showsRev (.vecList r) ht ht' hm hb hu v (List.isEmpty_iff.1 h)
  | .listVec r, ht, ht', hm, hb, hu, v, h => empty_showsRev (.listVec r) ht ht' hm hb hu v (List.isEmpty_iff.1 h)
  | .optionVec r, ht, ht', hm, hb, hu, v, h => empty_showsRev (.optionVec r) ht ht' hm hb hu v (List.isEmpty_iff.1 h)
  | .boxed r, ht, ht', hm, hb, hu, v, h => leftOut_showsRev r ht ht' hm hb hu v h
  | .unboxed r, ht, ht', hm, hb, hu, v, h => empty_showsRev r ht ht' hm hb hu v (List.isEmpty_iff.1 h)
  | .struct ds c ds' c' fs, ht, ht', hm, hb, hu, v, h => empty_showsRev (.struct ds c ds' c' fs) ht ht' hm hb hu v (List.isEmpty_iff.1 h)
  | .enum ds c ds' c' fs vs, ht, ht', hm, hb, hu, v, h =>
    empty_showsRev (.enum ds c ds' c' fs vs) ht ht' hm hb hu v (List.isEmpty_iff.1 h)
end

/-! ### Reading -/

/-- `c` is what C# reads where Rust wrote `v`. -/
def ReadsRev (ρ : Bytes → Str) (r : Rev) (v : r.wr.El) (c : r.rd.Cs) : Prop :=
  ∀ rest, (wireOf r.wr ≠ 0 → rest = []) → r.rd.csDeserialize ρ (encode r.wr v ++ rest) = .ok (c, rest)

/-- All legible values can be read. -/
def ReadableRev (ρ : Bytes → Str) (r : Rev) : Prop :=
  ∀ v, LegibleRev r v → (encode r.wr v).length < 2 ^ 31 → ∃ c, Shows r.rd (see r v) c ∧ ReadsRev ρ r v c

theorem ReadsRev.nested {ρ : Bytes → Str} {r : Rev} {v : r.wr.El} {c : r.rd.Cs} (hu : r.Rules)
    (h : ReadsRev ρ r v c) (hlen : (encode r.wr v).length < 2 ^ 31) (rest : Bytes) :
    csNested (r.rd.isCsState || r.rd.isCsString) (fun bs => r.rd.csDeserialize ρ bs)
      (framed (wireOf r.wr) (encode r.wr v) ++ rest) = .ok (c, rest) := by
  unfold csNested framed
  rw [csSized_eq, ← wire_rev r hu]
  by_cases hw : wireOf r.wr = 0
  · rw [hw, if_pos rfl, if_neg (by simp)]
    exact h rest (fun h => absurd hw h)
  · have h0 := h [] (fun _ => rfl)
    rw [List.append_nil] at h0
    rw [if_neg hw, if_pos (by simpa using hw), csGetNested_framed _ _ hlen]
    simp only [bind, Except.bind, h0]

theorem reads_itemsRev {ρ : Bytes → Str} {r : Rev} (ht : r.wr.WF) (hu : r.Rules) (ih : ReadableRev ρ r) : ∀ (xs : List r.wr.El) (acc : List r.rd.Cs),
    (∀ x ∈ xs, LegibleRev r x) → (xs.flatMap (fun x => framed (wireOf r.wr) (encode r.wr x))).length < 2 ^ 31 →
    ∃ cs, List.Forall₂ (Shows r.rd) (xs.map (see r)) cs ∧
      Eats (csAddItem (csNested (r.rd.isCsState || r.rd.isCsString) (fun bs => r.rd.csDeserialize ρ bs))) acc
        (xs.flatMap (fun x => framed (wireOf r.wr) (encode r.wr x))) (acc ++ cs)
  | [], acc, _, _ => ⟨[], .nil, by rw [List.append_nil]; exact .refl _⟩
  | x :: xs, acc, hl, hlen => by
    rw [List.flatMap_cons] at hlen ⊢
    rw [List.length_append] at hlen
    have hx := framed_length r.wr x
    obtain ⟨c, h1, h2⟩ := ih x (hl x (by simp)) (by omega)
    obtain ⟨cs, h3, h4⟩ := reads_itemsRev ht hu ih xs (acc ++ [c]) (fun y hy => hl y (by simp [hy])) (by omega)
    refine ⟨c :: cs, .cons h1 h3, ?_⟩
    rw [show acc ++ c :: cs = acc ++ [c] ++ cs by simp]
    refine Eats.trans (.one (framed_encode_ne r.wr ht x) (fun rest => ?_)) h4
    simp only [csAddItem, ReadsRev.nested hu h2 (by omega), bind, Except.bind]

theorem reads_entriesRev {ρ : Bytes → Str} {r : Rev} (hu : r.Rules) (ih : ReadableRev ρ r) : ∀ (es : List (U32 × r.wr.El)) (d : List (U32 × r.rd.Cs)),
    (∀ e ∈ es, e.1.toNat < 2 ^ 29 ∧ LegibleRev r e.2) → (es.map (·.1)).Nodup →
    (es.flatMap (fun e => leb (e.1.toNat * 8 + wireOf r.wr) ++ framed (wireOf r.wr) (encode r.wr e.2))).length < 2 ^ 31 →
    ∃ d', Eats (csAddEntry (csNested (r.rd.isCsState || r.rd.isCsString) (fun bs => r.rd.csDeserialize ρ bs))) d
        (es.flatMap (fun e => leb (e.1.toNat * 8 + wireOf r.wr) ++ framed (wireOf r.wr) (encode r.wr e.2))) d' ∧
      ∀ k, (es.lookup k = none → d'.lookup k = d.lookup k) ∧
        ∀ x, es.lookup k = some x → ∃ c, d'.lookup k = some c ∧ Shows r.rd (see r x) c
  | [], d, _, _, _ => ⟨d, .refl _, fun k => ⟨fun _ => rfl, fun x h => by cases h⟩⟩
  | (i, x) :: es, d, hl, hn, hlen => by
    rw [List.flatMap_cons] at hlen ⊢
    rw [List.length_append, List.length_append] at hlen
    have hx := framed_length r.wr x
    dsimp only at hlen
    rw [List.map_cons, List.nodup_cons] at hn
    obtain ⟨c, h1, h2⟩ := ih x (hl (i, x) (by simp)).2 (by omega)
    obtain ⟨d', h3, h4⟩ := reads_entriesRev hu ih es (dictSet i c d) (fun y hy => hl y (by simp [hy])) hn.2 (by omega)
    obtain ⟨w, hw⟩ := wire_exists r.wr
    refine ⟨d', Eats.trans (.one (fun h => leb_ne_nil _ (List.append_eq_nil_iff.1 h).1) (fun rest => ?_)) h3, fun k => ?_⟩
    · have hk := csReadKey_leb i w (hl (i, x) (by simp)).1 (framed (wireOf r.wr) (encode r.wr x) ++ rest)
      rw [hw] at hk
      simp only [csAddEntry, List.append_assoc, hk, ReadsRev.nested hu h2 (show (encode r.wr x).length < 2 ^ 31 by omega), bind, Except.bind]
    · rw [List.lookup_cons]
      obtain ⟨h5, h6⟩ := h4 k
      by_cases hk : k = i
      · subst hk
        have hnone : es.lookup k = none := by
          rw [List.lookup_eq_none_iff]
          intro p hp
          have : p.1 ∈ es.map (·.1) := List.mem_map_of_mem hp
          exact bne_iff_ne.2 fun he => hn.1 (he ▸ this)
        have := h5 hnone
        rw [lookup_dictSet, if_pos rfl] at this
        rw [beq_self_eq_true]
        exact ⟨fun h => by simp at h, fun y hy => by cases hy; exact ⟨c, this, h1⟩⟩
      · have : (k == i) = false := by simpa using hk
        simp only [this]
        refine ⟨fun h => ?_, h6⟩
        rw [h5 h, lookup_dictSet, if_neg hk]

/-! ### Fields -/

/-- As `ReadableFields`. The message also meets fields it does not know. -/
def ReadableRevFields (ρ : Bytes → Str) (fs : RevFields) : Prop :=
  ∀ (σ : Type) (getWire : U32 → Option WireType) (replaceAt : U32 → WireType → Bytes → σ → Except Exn (σ × Bytes))
    (g : fs.rd.Cs → σ),
    (∀ tag ∈ fs.rd.tags, getWire tag = fs.rd.csGetWireType tag ∧ ∀ wire bs y, replaceAt tag wire bs (g y) =
      (fs.rd.csReplaceAt ρ tag wire bs y).map (fun r => (g r.1, r.2))) →
    (∀ tag ∈ fs.extra, getWire tag = none ∧ ∀ wire bs y, replaceAt tag wire bs (g y) =
      (csSkipField wire bs).map (fun rest => (g y, rest))) →
    ∀ v, LegibleRevFields fs v → (encodeFields fs.wr v).length < 2 ^ 31 → ∃ c, ShowsFields fs.rd (seeFields fs v) c ∧
      Eats (csReplaceStep getWire replaceAt) (g fs.rd.csNew) (encodeFields fs.wr v) (g c)

theorem ReadableRevFields.done {ρ : Bytes → Str} {fs : RevFields} (h : ReadableRevFields ρ fs) (hn : fs.tags.Nodup) {v : fs.wr.El}
    (hl : LegibleRevFields fs v) (hlen : (encodeFields fs.wr v).length < 2 ^ 31) : ∃ c, ShowsFields fs.rd (seeFields fs v) c ∧
      untilEnd (csReplaceStep fs.rd.csGetWireType (fun tag wire bs v => fs.rd.csReplaceAt ρ tag wire bs v))
        (encodeFields fs.wr v).length fs.rd.csNew (encodeFields fs.wr v) = .ok c := by
  obtain ⟨c, h1, h2⟩ := h _ fs.rd.csGetWireType (fun tag wire bs v => fs.rd.csReplaceAt ρ tag wire bs v) id
    (fun tag _ => ⟨rfl, fun wire bs y => by
      cases h : fs.rd.csReplaceAt ρ tag wire bs y with
      | error e => simp only [id, h]; rfl
      | ok r => simp only [id, h]; rfl⟩)
    (fun tag ht => ⟨csGetWireType_none _ _ (extra_not_rd fs hn tag ht), fun wire bs y =>
      csReplaceAt_none ρ _ _ (extra_not_rd fs hn tag ht) wire bs y⟩) v hl hlen
  exact ⟨c, h1, h2.done⟩

/-- A field that is skipped: the message does not know it, or expects the other wire type. -/
theorem eats_skipped {σ : Type} {getWire : U32 → Option WireType} {replaceAt : U32 → WireType → Bytes → σ → Except Exn (σ × Bytes)}
    {tag : U32} (htag : tag.toNat < 2 ^ 29) (t : Ty) (x : t.El) (a : σ)
    (h : (getWire tag = none ∧ ∀ wire bs, replaceAt tag wire bs a = (csSkipField wire bs).map (fun rest => (a, rest))) ∨
      ∃ w, getWire tag = some w ∧ w.num ≠ wireOf t)
    (hlen : (if leftOut t x (encode t x) then []
      else leb (tag.toNat * 8 + wireOf t) ++ framed (wireOf t) (encode t x)).length < 2 ^ 31) :
    Eats (csReplaceStep getWire replaceAt) a (if leftOut t x (encode t x) then []
      else leb (tag.toNat * 8 + wireOf t) ++ framed (wireOf t) (encode t x)) a := by
  by_cases hlo : leftOut t x (encode t x) = true
  · rw [if_pos hlo]; exact .refl _
  rw [if_neg hlo] at hlen ⊢
  rw [List.length_append] at hlen
  have hfl := framed_length t x
  refine .one (fun h => leb_ne_nil _ (List.append_eq_nil_iff.1 h).1) (fun rest => ?_)
  have hk := csReadKey_leb tag (wireTypeOf t) htag (framed (wireOf t) (encode t x) ++ rest)
  rw [wireTypeOf_num] at hk
  unfold csReplaceStep
  rw [List.append_assoc, hk]
  have hc := framed_chunk t x (by omega)
  rcases wireOf_zero_or_two t with h0 | h0
  · have hwt : wireTypeOf t = .varint := by unfold wireTypeOf; rw [h0]; rfl
    rw [hwt] at hc
    obtain ⟨b, hb⟩ := csReadBoolean_any _ hc
    simp only [bind, Except.bind, hwt]
    rcases h with ⟨h1, h2⟩ | ⟨w, h1, h2⟩
    · rw [if_neg (by rw [h1]; simp), h2]
      simp only [csSkipField, hb, bind, Except.bind, Except.map]
    · have hs : w = .sized := by cases w; exact absurd h0.symm h2; rfl
      subst hs
      rw [if_pos h1]
      simp only [csSkipField, hb, bind, Except.bind]
  · have hwt : wireTypeOf t = .sized := by unfold wireTypeOf; rw [h0]; rfl
    have hn := csGetNested_framed (encode t x) rest (by omega)
    simp only [bind, Except.bind, hwt, framed, h0, if_neg (show ¬ (2 : Nat) = 0 by decide), hn]
    rcases h with ⟨h1, h2⟩ | ⟨w, h1, h2⟩
    · rw [if_neg (by rw [h1]; simp), h2]
      simp only [csSkipField, Except.map]
    · have hs : w = .varint := by cases w; rfl; exact absurd h0.symm h2
      subst hs
      rw [if_pos h1]

section fields
variable {ρ : Bytes → Str} {tag : U32} {attrs attrs' : FieldAttrs} {fs : RevFields}

/-- Hypotheses of `ReadableRevFields` for the fields that follow one the message knows. -/
theorem tail_known {t : Ty} {σ : Type} {getWire : U32 → Option WireType}
    {replaceAt : U32 → WireType → Bytes → σ → Except Exn (σ × Bytes)} {g : (Fields.cons tag attrs t fs.rd).Cs → σ}
    (hnew : tag ∉ fs.tags)
    (hS : ∀ tag' ∈ (Fields.cons tag attrs t fs.rd).tags, getWire tag' = (Fields.cons tag attrs t fs.rd).csGetWireType tag' ∧
      ∀ wire bs y, replaceAt tag' wire bs (g y) =
        ((Fields.cons tag attrs t fs.rd).csReplaceAt ρ tag' wire bs y).map (fun r => (g r.1, r.2))) (c : t.Cs) :
    ∀ tag' ∈ fs.rd.tags, getWire tag' = fs.rd.csGetWireType tag' ∧ ∀ wire bs y, replaceAt tag' wire bs (g (c, y)) =
      (fs.rd.csReplaceAt ρ tag' wire bs y).map (fun r => (g (c, r.1), r.2)) := by
  intro tag' ht'
  have hne : tag' ≠ tag := fun h => hnew (fs.rd_tags tag (h ▸ ht'))
  obtain ⟨hgw, hrep⟩ := hS tag' (by simp [Fields.tags, ht'])
  refine ⟨by rw [hgw]; simp [Fields.csGetWireType, hne], fun wire bs y => ?_⟩
  rw [hrep wire bs (c, y)]
  simp only [Fields.csReplaceAt, if_neg hne]
  cases fs.rd.csReplaceAt ρ tag' wire bs y <;> rfl

theorem readableRev_keep {r : Rev} (htag : tag.toNat < 2 ^ 29) (hn : tag ∉ fs.tags) (ht : r.wr.WF) (ht' : r.rd.WF)
    (hm : Mirrored r.rd) (hb : r.Bare) (hu : r.Rules) (hg : GoodField attrs' r.rd) (ih : ReadableRev ρ r) (ihs : ReadableRevFields ρ fs) :
    ReadableRevFields ρ (.keep tag attrs attrs' r fs) := by
  intro σ getWire replaceAt g hS hE v hl hlen
  have first : ∃ c, Shows r.rd (see r v.1) c ∧ Eats (csReplaceStep getWire replaceAt) (g (r.rd.csNew, fs.rd.csNew))
      (if leftOut r.wr v.1 (encode r.wr v.1) then []
      else leb (tag.toNat * 8 + wireOf r.wr) ++ framed (wireOf r.wr) (encode r.wr v.1)) (g (c, fs.rd.csNew)) := by
    by_cases hlo : leftOut r.wr v.1 (encode r.wr v.1) = true
    · rw [if_pos hlo]
      exact ⟨r.rd.csNew, leftOut_showsRev r ht ht' hm hb hu v.1 hlo, .refl _⟩
    · have h1 : (encode r.wr v.1).length < 2 ^ 31 := by
        simp only [encodeFields, if_neg hlo, List.length_append] at hlen
        have := framed_length r.wr v.1
        omega
      obtain ⟨c, h2, h3⟩ := ih v.1 hl.1 h1
      rw [if_neg hlo]
      refine ⟨c, h2, .one (fun h => leb_ne_nil _ (List.append_eq_nil_iff.1 h).1) (fun rest => ?_)⟩
      have hw := csFieldWire_num attrs' r.rd hg
      rw [← wire_rev r hu] at hw
      have hk := csReadKey_leb tag (csFieldWire attrs' r.rd) htag (framed (wireOf r.wr) (encode r.wr v.1) ++ rest)
      rw [hw] at hk
      obtain ⟨hgw, hrep⟩ := hS tag (by simp [Fields.tags])
      rw [show (Fields.cons tag attrs' r.rd fs.rd).csGetWireType tag = some (csFieldWire attrs' r.rd) by
        simp [Fields.csGetWireType]] at hgw
      have hrep' : ∀ wire bs x rest, r.rd.csDeserialize ρ bs = .ok (x, rest) →
          replaceAt tag wire bs (g (r.rd.csNew, fs.rd.csNew)) = .ok (g (x, fs.rd.csNew), rest) := by
        intro wire bs x rest hx
        rw [hrep wire bs (r.rd.csNew, fs.rd.csNew)]
        simp only [Fields.csReplaceAt, if_pos, hx, bind, Except.bind, Except.map]
      unfold csReplaceStep
      rw [List.append_assoc, hk]
      cases hcw : csFieldWire attrs' r.rd with
      | varint =>
        have h0 : wireOf r.wr = 0 := by rw [← hw, hcw]; rfl
        have := h3 rest (fun h => absurd h0 h)
        simp only [bind, Except.bind, hgw, hcw, framed, h0, if_true]
        simp only [Option.some.injEq, reduceCtorEq, if_false]
        exact hrep' _ _ _ _ this
      | sized =>
        have h0 : wireOf r.wr = 2 := by rw [← hw, hcw]; rfl
        have := h3 [] (fun _ => rfl)
        rw [List.append_nil] at this
        simp only [bind, Except.bind, hgw, hcw, framed, h0]
        rw [if_neg (by decide), csGetNested_framed _ _ h1]
        simp only [Option.some.injEq, reduceCtorEq, if_false]
        rw [hrep' _ _ _ _ this]
  obtain ⟨c, h1, h2⟩ := first
  obtain ⟨c', h3, h4⟩ := ihs _ getWire replaceAt (fun y => g (c, y)) (tail_known hn hS c)
    (fun tag' ht' => ⟨(hE tag' ht').1, fun wire bs y => (hE tag' ht').2 wire bs (c, y)⟩) v.2 hl.2 (by
      simp only [encodeFields, List.length_append] at hlen; omega)
  exact ⟨(c, c'), ⟨h1, h3⟩, h2.trans h4⟩

theorem readableRev_add {t : Ty} (htag : tag.toNat < 2 ^ 29) (ihs : ReadableRevFields ρ fs) :
    ReadableRevFields ρ (.add tag attrs t fs) := by
  intro σ getWire replaceAt g hS hE v hl hlen
  simp only [encodeFields, List.length_append] at hlen
  obtain ⟨c', h3, h4⟩ := ihs σ getWire replaceAt g hS (fun tag' ht' => hE tag' (List.mem_cons_of_mem _ ht')) v.2 hl (by omega)
  obtain ⟨h5, h6⟩ := hE tag List.mem_cons_self
  exact ⟨c', h3, (eats_skipped htag t v.1 _ (.inl ⟨h5, fun wire bs => h6 wire bs _⟩) (by omega)).trans h4⟩

theorem readableRev_drop {t : Ty} (hn : tag ∉ fs.tags) (ht : t.WF) (hb : Bare t) (ihs : ReadableRevFields ρ fs) :
    ReadableRevFields ρ (.drop tag attrs t fs) := by
  intro σ getWire replaceAt g hS hE v hl hlen
  obtain ⟨c', h3, h4⟩ := ihs σ getWire replaceAt (fun y => g (t.csNew, y)) (tail_known hn hS t.csNew)
    (fun tag' ht' => ⟨(hE tag' ht').1, fun wire bs y => (hE tag' ht').2 wire bs (t.csNew, y)⟩) v hl hlen
  exact ⟨(t.csNew, c'), ⟨bare_dflt t ht hb, h3⟩, h4⟩

theorem readableRev_retype {t t' : Ty} (htag : tag.toNat < 2 ^ 29) (hn : tag ∉ fs.tags) (ht' : t'.WF) (hb : Bare t')
    (hg : GoodField attrs' t') (hw : wireOf t ≠ wireOf t') (ihs : ReadableRevFields ρ fs) :
    ReadableRevFields ρ (.retype tag attrs attrs' t t' fs) := by
  intro σ getWire replaceAt g hS hE v hl hlen
  simp only [encodeFields, List.length_append] at hlen
  obtain ⟨c', h3, h4⟩ := ihs σ getWire replaceAt (fun y => g (t'.csNew, y)) (tail_known hn hS t'.csNew)
    (fun tag' ht' => ⟨(hE tag' ht').1, fun wire bs y => (hE tag' ht').2 wire bs (t'.csNew, y)⟩) v.2 hl (by omega)
  obtain ⟨hgw, _⟩ := hS tag (by simp [Fields.tags])
  rw [show (Fields.cons tag attrs' t' fs.rd).csGetWireType tag = some (csFieldWire attrs' t') by
    simp [Fields.csGetWireType]] at hgw
  exact ⟨(t'.csNew, c'), ⟨bare_dflt t' ht' hb, h3⟩,
    (eats_skipped htag t v.1 _ (.inr ⟨_, hgw, by rw [csFieldWire_num attrs' t' hg]; exact Ne.symm hw⟩) (by omega)).trans h4⟩

end fields

/-! ### Variants -/

theorem complete_tags : (vs : RevVariants) → vs.Complete → vs.tags = vs.rd.tags
  | .nil, _ => rfl
  | .keep tag _ _ _ vs, h => congrArg (tag :: ·) (complete_tags vs h)
  | .add _ _ _ _, h => nomatch h
  | .drop tag _ _ vs, h => congrArg (tag :: ·) (complete_tags vs h)

theorem vwr_tags_sub : (vs : RevVariants) → ∀ tag ∈ vs.wr.tags, tag ∈ vs.tags
  | .nil, _, h => nomatch h
  | .keep tag _ _ _ vs, t, h => by
    rcases List.mem_cons.1 h with rfl | h
    · exact List.mem_cons_self
    · exact List.mem_cons_of_mem _ (vwr_tags_sub vs t h)
  | .add tag _ _ vs, t, h => by
    rcases List.mem_cons.1 h with rfl | h
    · exact List.mem_cons_self
    · exact List.mem_cons_of_mem _ (vwr_tags_sub vs t h)
  | .drop _ _ _ vs, t, h => List.mem_cons_of_mem _ (vwr_tags_sub vs t h)

theorem vrd_tags_sub : (vs : RevVariants) → ∀ tag ∈ vs.rd.tags, tag ∈ vs.tags
  | .nil, _, h => nomatch h
  | .keep tag _ _ _ vs, t, h => by
    rcases List.mem_cons.1 h with rfl | h
    · exact List.mem_cons_self
    · exact List.mem_cons_of_mem _ (vrd_tags_sub vs t h)
  | .add _ _ _ vs, t, h => List.mem_cons_of_mem _ (vrd_tags_sub vs t h)
  | .drop tag _ _ vs, t, h => by
    rcases List.mem_cons.1 h with rfl | h
    · exact List.mem_cons_self
    · exact List.mem_cons_of_mem _ (vrd_tags_sub vs t h)

theorem csVariant_absent (ρ : Bytes → Str) : (vs : Variants) → ∀ {tag : U32}, tag ∉ vs.tags → ∀ bs, vs.csVariant ρ tag bs = .ok none
  | .nil, _, _, _ => rfl
  | .cons tag _ _ vs, tag', h, bs => by
    rw [Variants.tags, List.mem_cons, not_or] at h
    simp only [Variants.csVariant, if_neg h.1, csVariant_absent ρ vs h.2 bs, bind, Except.bind, Option.map_none]

/-- All legible variants can be read, or are recognised as unknown. -/
def ReadableRevVariants (ρ : Bytes → Str) (vs : RevVariants) : Prop :=
  ∀ v, LegibleRevVariant vs v → (encodeVariant vs.wr v).length < 2 ^ 31 → ∃ (tag : U32) (payload : Bytes) (c : Option vs.rd.Cs),
    tag ∈ vs.wr.tags ∧ encodeVariant vs.wr v = leb tag.toNat ++ payload ∧ vs.rd.csVariant ρ tag payload = .ok c ∧
    (c = none → ¬ vs.Complete) ∧ Option.Rel (ShowsVariant vs.rd) (seeVariant vs v) c

theorem csReadUInt_rev (w w' : Width) (h : w.bits ≤ w'.bits) (v : BitVec w.bits) (rest : Bytes) :
    csReadUInt w' (leb v.toNat ++ rest) = .ok (v.setWidth w'.bits, rest) := by
  have : (v.setWidth w'.bits).toNat = v.toNat := by
    rw [BitVec.toNat_setWidth, Nat.mod_eq_of_lt (Nat.lt_of_lt_of_le v.isLt (Nat.pow_le_pow_right (by decide) h))]
  rw [← this]
  exact csReadUInt_leb w' _ rest

theorem csReadSInt_rev (w w' : Width) (h : w.bits ≤ w'.bits) (v : BitVec w.bits) (rest : Bytes)
    (hl : w = .w64 → -(2 ^ 62 : Int) ≤ v.toInt ∧ v.toInt < 2 ^ 62) :
    csReadSInt w' (leb (zigzagNat v.toInt) ++ rest) = .ok (v.signExtend w'.bits, rest) := by
  have hn : (v.signExtend w'.bits).toInt = v.toInt := BitVec.toInt_signExtend_of_le h
  have hz : zigzagNat v.toInt < 2 ^ 63 := by
    cases w with
    | w64 =>
      have := hl rfl
      unfold zigzagNat
      split <;> omega
    | w8 => exact Nat.lt_of_lt_of_le (zigzagNat_lt (by decide) v) (by decide)
    | w16 => exact Nat.lt_of_lt_of_le (zigzagNat_lt (by decide) v) (by decide)
    | w32 => exact Nat.lt_of_lt_of_le (zigzagNat_lt (by decide) v) (by decide)
  unfold csReadSInt
  rw [csReadSigned_leb _ _ (by omega)]
  simp only [bind, Except.bind, Except.ok.injEq, Prod.mk.injEq, and_true]
  exact setWidth_of_toInt (by cases w' <;> decide) _ _ ((unzigzag_small _ hz).trans hn.symm)

theorem csReadUInt_flag (w : Width) (v : Bool) (rest : Bytes) :
    csReadUInt w (leb v.toNat ++ rest) = .ok (BitVec.ofNat w.bits v.toNat, rest) := by
  have : (BitVec.ofNat w.bits v.toNat).toNat = v.toNat := by cases w <;> cases v <;> rfl
  have h := csReadUInt_leb w (BitVec.ofNat w.bits v.toNat) rest
  rwa [this] at h

mutual
theorem readableRev (ρ : Bytes → Str) : (r : Rev) → r.wr.WF → r.rd.WF → r.Rules → r.Bare → Mirrored r.rd → ReadableRev ρ r
  | .same t, ht, _, _, _, hm => fun v hl hlen => by
    obtain ⟨c, h1, h2⟩ := readable ρ t ht hm v hl hlen
    exact ⟨c, by simp only [see, shows_strip]; exact h1, h2⟩
  | .uint w w', _, _, hr, _, _ => fun v _ _ => ⟨_, rfl, fun rest _ => csReadUInt_rev w w' hr v rest⟩
  | .sint w w', _, _, hr, _, _ => fun v hl _ => ⟨_, rfl, fun rest _ => csReadSInt_rev w w' hr v rest hl⟩
  | .flag w, _, _, _, _, _ => fun v _ _ => ⟨_, rfl, fun rest _ => csReadUInt_flag w v rest⟩
  | .hide t, _, _, hr, _, _ => fun v _ _ => ⟨_, rfl, fun rest h => by rw [h (by rw [show wireOf t = 2 from hr]; decide), List.append_nil]; rfl⟩
  | .vec r, ht, ht', hr, hb, hm => fun v hl hlen => by
    obtain ⟨cs, h1, h2⟩ := reads_itemsRev (r := r) ht hr (readableRev ρ r ht ht' hr hb hm) v [] hl hlen
    refine ⟨cs, h1, fun rest hr => ?_⟩
    rw [hr (show (2 : Nat) ≠ 0 by decide), List.append_nil]
    simp only [Ty.csDeserialize, encode, h2.done, bind, Except.bind, List.nil_append]
  | .array _ r, ht, ht', hr, hb, hm => fun v hl hlen => by
    obtain ⟨cs, h1, h2⟩ := reads_itemsRev ht.2.2 hr (readableRev ρ r ht.2.2 ht'.2.2 hr hb hm) v.1 [] hl hlen
    refine ⟨cs, h1, fun rest hr => ?_⟩
    rw [hr (show (2 : Nat) ≠ 0 by decide), List.append_nil]
    simp only [Ty.csDeserialize, encode, h2.done, bind, Except.bind, List.nil_append]
  | .tuple _, _, _, _, _, hm => hm.elim
  | .option r, ht, ht', hr, hb, hm => fun v hl hlen => by
    cases v with
    | none =>
      refine ⟨none, .none, fun rest hr => ?_⟩
      rw [hr (show (2 : Nat) ≠ 0 by decide)]
      rfl
    | some x =>
      have hlen' : (framed (wireOf r.wr) (encode r.wr x)).length < 2 ^ 31 := by
        simpa only [encode, Option.toList_some, List.flatMap_cons, List.flatMap_nil, List.append_nil] using hlen
      have := framed_length r.wr x
      obtain ⟨c, h1, h2⟩ := readableRev ρ r ht ht' hr hb hm x (hl x rfl) (by omega)
      have hn := fun h => ReadsRev.nested (r := r) hr h2 h []
      refine ⟨some c, .some h1, fun rest hr => ?_⟩
      have := hn (by omega)
      rw [List.append_nil] at this
      rw [hr (show (2 : Nat) ≠ 0 by decide), List.append_nil]
      simp only [Ty.csDeserialize, encode, Option.toList_some, List.flatMap_cons, List.flatMap_nil, List.append_nil]
      rw [if_neg (framed_encode_ne r.wr ht x), this]
      rfl
  | .box r, ht, ht', hr, hb, hm => fun v hl hlen => readableRev ρ r ht ht' hr hb hm v hl hlen
  | .hashMap _ _, _, _, _, _, hm => hm.elim
  | .list r, ht, ht', hr, hb, hm => fun v hl hlen => by
    obtain ⟨cs, h1, h2⟩ := reads_itemsRev ht.2 hr (readableRev ρ r ht.2 ht'.2 hr hb hm) v.items [] hl hlen
    refine ⟨cs, h1, fun rest hr => ?_⟩
    rw [hr (show (2 : Nat) ≠ 0 by decide), List.append_nil]
    simp only [Ty.csDeserialize, encode, h2.done, bind, Except.bind, List.nil_append]
  | .map _ _ r, ht, ht', hr, hb, hm => fun v hl hlen => by
    obtain ⟨d, h1, h2⟩ := reads_entriesRev hr.2 (readableRev ρ r ht.2 ht'.2 hr.2 hb hm) v.entries [] hl.1 hl.2 hlen
    refine ⟨d, fun k => ?_, fun rest hr => ?_⟩
    · obtain ⟨h3, h4⟩ := h2 k
      simp only [see, lookup_map]
      cases h : v.entries.lookup k with
      | none => rw [h3 h]; exact .none
      | some x =>
        obtain ⟨c, h5, h6⟩ := h4 x h
        rw [h5]
        exact .some h6
    · rw [hr (show (2 : Nat) ≠ 0 by decide), List.append_nil]
      simp only [Ty.csDeserialize, encode, h1.done, bind, Except.bind]
  | .vecList r, ht, ht', hr, hb, hm => fun v hl hlen => by
    obtain ⟨cs, h1, h2⟩ := reads_itemsRev (r := r) ht hr (readableRev ρ r ht ht'.2 hr hb hm) v [] hl hlen
    refine ⟨cs, h1, fun rest hr => ?_⟩
    rw [hr (show (2 : Nat) ≠ 0 by decide), List.append_nil]
    simp only [Ty.csDeserialize, encode, h2.done, bind, Except.bind, List.nil_append]
  | .listVec r, ht, ht', hr, hb, hm => fun v hl hlen => by
    obtain ⟨cs, h1, h2⟩ := reads_itemsRev ht.2 hr (readableRev ρ r ht.2 ht' hr hb hm) v.items [] hl hlen
    refine ⟨cs, h1, fun rest hr => ?_⟩
    rw [hr (show (2 : Nat) ≠ 0 by decide), List.append_nil]
    simp only [Ty.csDeserialize, encode, h2.done, bind, Except.bind, List.nil_append]
  | .optionVec r, ht, ht', hr, hb, hm => fun v hl hlen => by
    obtain ⟨cs, h1, h2⟩ := reads_itemsRev (r := r) ht hr (readableRev ρ r ht ht' hr hb hm) v.toList []
      (fun x hx => hl x (by simpa using hx)) hlen
    refine ⟨cs, h1, fun rest hr => ?_⟩
    rw [hr (show (2 : Nat) ≠ 0 by decide), List.append_nil]
    simp only [Ty.csDeserialize, encode, h2.done, bind, Except.bind, List.nil_append]
  | .boxed r, ht, ht', hr, hb, hm => fun v hl hlen => readableRev ρ r ht ht' hr hb hm v hl hlen
  | .unboxed r, ht, ht', hr, hb, hm => fun v hl hlen => readableRev ρ r ht ht' hr hb hm v hl hlen
  | .struct ds _ ds' _ fs, ht, ht', hr, hb, hm => fun v hl hlen => by
    obtain ⟨c, h1, h2⟩ := (readableRevFields ρ fs ds ds' hr.1 ht.2 ht'.2 hr.2 hb hm).done hr.1 hl hlen
    refine ⟨c, h1, fun rest hr => ?_⟩
    rw [hr (show (2 : Nat) ≠ 0 by decide), List.append_nil]
    simp only [Ty.csDeserialize, encode, h2, bind, Except.bind]
  | .enum ds _ ds' _ fs vs, ht, ht', hr, hb, hm => fun ⟨rt, v⟩ hl hlen => by
    cases v with
    | inl x =>
      obtain ⟨c, h1, h2⟩ := (readableRevFields ρ fs ds ds' hr.1 ht.2.1 ht'.2.1 hr.2.1 hb.1 hm.1).done hr.1 hl (by
        simp only [encode, List.length_append] at hlen; omega)
      refine ⟨.inl c, h1, fun rest hr => ?_⟩
      rw [hr (show (2 : Nat) ≠ 0 by decide), List.append_nil]
      simp only [Ty.csDeserialize, encode, csReadUInt32_leb 0 _ (by decide), bind, Except.bind, if_true, h2]
    | inr x =>
      obtain ⟨tag, payload, c, h1, h2, h3, h4, h5⟩ :=
        readableRevVariants ρ vs ds ds' (hb.2.2.elim (fun h => complete_tags vs h ▸ ht'.2.2.1) (·.2)) ht.2.2.2.2 ht'.2.2.2.2
          hr.2.2 hb.2.1 hm.2 x hl hlen
      have hne : tag ≠ 0#32 := fun h => ht.2.2.2.1 (h ▸ h1)
      cases c with
      | some c =>
        cases hv : seeVariant vs x with
        | none => rw [hv] at h5; cases h5
        | some y =>
          rw [hv] at h5
          cases h5 with
          | some h5 =>
            refine ⟨.inr c, by simp only [see, hv]; exact h5, fun rest hr => ?_⟩
            rw [hr (show (2 : Nat) ≠ 0 by decide), List.append_nil]
            simp only [Ty.csDeserialize, encode, h2, csReadUInt32_leb _ _ tag.isLt, bind, Except.bind, BitVec.ofNat_toNat,
              BitVec.setWidth_eq, if_neg hne, h3]
      | none =>
        cases hv : seeVariant vs x with
        | some y => rw [hv] at h5; cases h5
        | none =>
          refine ⟨.inl fs.rd.csNew, ?_, fun rest hr => ?_⟩
          · simp only [see, hv]
            show ShowsFields fs.rd (stripFields fs.rd _) _
            rw [shows_stripFields]
            exact bare_showsFields fs.rd ds' ht'.2.1 (hb.2.2.resolve_left (h4 rfl)).1 none
          · rw [hr (show (2 : Nat) ≠ 0 by decide), List.append_nil]
            simp only [Ty.csDeserialize, encode, h2, csReadUInt32_leb _ _ tag.isLt, bind, Except.bind, BitVec.ofNat_toNat,
              BitVec.setWidth_eq, if_neg hne, h3]

theorem readableRevFields (ρ : Bytes → Str) : (fs : RevFields) → (ds ds' : Bool) → fs.tags.Nodup → fs.wr.WF ds → fs.rd.WF ds' →
    fs.Rules → fs.Bare → MirroredFields fs.rd → ReadableRevFields ρ fs
  | .nil, _, _, _, _, _, _, _, _ => fun _ _ _ g _ _ _ _ _ => ⟨(), trivial, .refl _⟩
  | .keep _ _ _ r fs, ds, ds', hn, h, h', hr, hb, hm =>
    readableRev_keep (tag_lt h.1) (List.nodup_cons.1 hn).1 h.2.2.1 h'.2.2.1 hm.2.1 hb.1 hr.1 hm.1
      (readableRev ρ r h.2.2.1 h'.2.2.1 hr.1 hb.1 hm.2.1)
      (readableRevFields ρ fs ds ds' (List.nodup_cons.1 hn).2 h.2.2.2 h'.2.2.2 hr.2 hb.2 hm.2.2)
  | .add _ _ t fs, ds, ds', hn, h, h', hr, hb, hm =>
    readableRev_add (tag_lt h.1) (readableRevFields ρ fs ds ds' (List.nodup_cons.1 hn).2 h.2.2.2 h' hr hb hm)
  | .drop _ _ t fs, ds, ds', hn, h, h', hr, hb, hm =>
    readableRev_drop (List.nodup_cons.1 hn).1 h'.2.2.1 hb.1
      (readableRevFields ρ fs ds ds' (List.nodup_cons.1 hn).2 h h'.2.2.2 hr hb.2 hm.2.2)
  | .retype _ _ _ t t' fs, ds, ds', hn, h, h', hr, hb, hm =>
    readableRev_retype (tag_lt h.1) (List.nodup_cons.1 hn).1 h'.2.2.1 hb.1 hm.1 hr.1
      (readableRevFields ρ fs ds ds' (List.nodup_cons.1 hn).2 h.2.2.2 h'.2.2.2 hr.2 hb.2 hm.2.2)

theorem readableRevVariants (ρ : Bytes → Str) : (vs : RevVariants) → (ds ds' : Bool) → vs.tags.Nodup →
    vs.wr.WF ds → vs.rd.WF ds' → vs.Rules → vs.Bare → MirroredVariants vs.rd → ReadableRevVariants ρ vs
  | .nil, _, _, _, _, _, _, _, _ => fun v => nomatch v
  | .keep tag _ _ fs vs, ds, ds', hn, h, h', hr, hb, hm => fun v hl hlen => by
    cases v with
    | inl x =>
      obtain ⟨c, h1, h2⟩ := (readableRevFields ρ fs ds ds' hr.1 h.2.2.1 h'.2.2.1 hr.2.1 hb.1 hm.1).done hr.1 hl (by
        simp only [encodeVariant, List.length_append] at hlen; omega)
      refine ⟨tag, encodeFields fs.wr x, some (.inl c), by simp [Variants.tags], rfl, ?_, (nomatch ·), .some h1⟩
      simp only [Variants.csVariant, if_true, h2, bind, Except.bind]
    | inr x =>
      obtain ⟨tag', payload, c, h1, h2, h3, h4, h5⟩ := readableRevVariants ρ vs ds ds' (List.nodup_cons.1 hn).2
        h.2.2.2 h'.2.2.2 hr.2.2 hb.2 hm.2 x hl hlen
      have hne : tag' ≠ tag := fun h => (List.nodup_cons.1 hn).1 (vwr_tags_sub vs _ (h ▸ h1))
      refine ⟨tag', payload, c.map .inr, by simp [Variants.tags, h1], h2, ?_, fun hc => h4 (by simpa using hc), ?_⟩
      · simp only [Variants.csVariant, if_neg hne, h3, bind, Except.bind]
      · simp only [seeVariant]
        cases c <;> cases hv : seeVariant vs x <;> rw [hv] at h5
        · exact .none
        · cases h5
        · cases h5
        · cases h5 with | some h5 => exact .some h5
  | .add tag _ fs vs, ds, ds', hn, h, h', hr, hb, hm => fun v hl hlen => by
    cases v with
    | inl x =>
      refine ⟨tag, encodeFields fs x, none, by simp [Variants.tags], rfl, ?_, fun _ h => h, .none⟩
      exact csVariant_absent ρ vs.rd (fun h => (List.nodup_cons.1 hn).1 (vrd_tags_sub vs _ h)) _
    | inr x =>
      obtain ⟨tag', payload, c, h1, h2, h3, _, h5⟩ := readableRevVariants ρ vs ds ds' (List.nodup_cons.1 hn).2
        h.2.2.2 h' hr hb hm x hl hlen
      exact ⟨tag', payload, c, by simp [Variants.tags, h1], h2, h3, fun _ h => h, h5⟩
  | .drop tag _ fs vs, ds, ds', hn, h, h', hr, hb, hm => fun v hl hlen => by
    obtain ⟨tag', payload, c, h1, h2, h3, h4, h5⟩ := readableRevVariants ρ vs ds ds' (List.nodup_cons.1 hn).2
      h h'.2.2.2 hr hb hm.2 v hl hlen
    have hne : tag' ≠ tag := fun h => (List.nodup_cons.1 hn).1 (vwr_tags_sub vs _ (h ▸ h1))
    refine ⟨tag', payload, c.map .inr, h1, h2, ?_, fun hc => h4 (by simpa using hc), ?_⟩
    · simp only [Variants.csVariant, if_neg hne, h3, bind, Except.bind]
    · simp only [seeVariant]
      cases c <;> cases hv : seeVariant vs v <;> rw [hv] at h5
      · exact .none
      · cases h5
      · cases h5
      · cases h5 with | some h5 => exact .some h5
end

end Steit
