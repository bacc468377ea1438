import Verif.Spec.CSharpCut
import Verif.Lemmas.CSharpDecode
import Verif.Lemmas.CutLaw
import Verif.Lemmas.CutLog

/-! # The C# client on encodings cut short -/

namespace Steit
open Spec

/-! ### Parts of numbers, keys and nested values -/

theorem csReadUnsigned_short {n : Nat} {p : Bytes} (hp : p <+: leb n) (hne : p ≠ leb n) :
    csReadUnsigned p = .error .endOfStream :=
  csVarintLoop_short p (short_hi hp hne).1 _ _

theorem csReadUInt_short (w : Width) {n : Nat} {p : Bytes} (hp : p <+: leb n) (hne : p ≠ leb n) :
    csReadUInt w p = .error .endOfStream := by
  unfold csReadUInt
  rw [csReadUnsigned_short hp hne]
  rfl

theorem csReadSInt_short (w : Width) {n : Nat} {p : Bytes} (hp : p <+: leb n) (hne : p ≠ leb n) :
    csReadSInt w p = .error .endOfStream := by
  unfold csReadSInt csReadSigned
  rw [csReadUnsigned_short hp hne]
  rfl

theorem csBoolLoop_short (bs : Bytes) (h : ∀ b ∈ bs, 128 ≤ b.toNat) : ∀ v, csBoolLoop bs v = .error .endOfStream := by
  induction bs with
  | nil => intro v; rfl
  | cons b bs ih =>
    intro v
    have hb : ¬ (b &&& 0x80#8 = 0#8) := by rw [byte_hi]; have := h b (by simp); omega
    simp only [csBoolLoop, hb, if_false]
    exact ih (fun x hx => h x (by simp [hx])) _

theorem csReadKey_short {n : Nat} {p : Bytes} (hp : p <+: leb n) (hne : p ≠ leb n) : csReadKey p = .error .endOfStream := by
  unfold csReadKey csReadUInt32
  rw [csReadUInt_short _ hp hne]
  rfl

theorem csGetNested_part {payload p : Bytes} (hlen : payload.length < 2 ^ 31) (hp : p <+: leb payload.length ++ payload)
    (hne : p ≠ leb payload.length ++ payload) : csGetNested p = .error .endOfStream := by
  rcases prefix_append_cases hp with ⟨h1, h2⟩ | ⟨q, rfl, h2⟩
  · exact csGetNested_short h1 h2
  · refine csGetNested_cut ?_ hlen
    rcases Nat.lt_or_ge q.length payload.length with h | h
    · exact h
    · exact absurd (by rw [h2.eq_of_length (by have := h2.length_le; omega)]) hne

theorem prim_short (ρ : Bytes → Str) : (t : Ty) → wireOf t = 0 → ∀ (v : t.El) (p : Bytes), p <+: encode t v → p ≠ encode t v →
    t.csDeserialize ρ p = .error .endOfStream
  | .uint w, _, _, _, hp, hne => csReadUInt_short w hp hne
  | .sint w, _, _, _, hp, hne => csReadSInt_short w hp hne
  | .bool, _, _, _, hp, hne => csBoolLoop_short _ (short_hi hp hne).1 _
  | .box t, h, v, p, hp, hne => prim_short ρ t h v p hp hne
  | .string, h, _, _, _, _ => by cases h
  | .bytes, h, _, _, _, _ => by cases h
  | .vec _, h, _, _, _, _ => by cases h
  | .array _ _, h, _, _, _, _ => by cases h
  | .tuple _, h, _, _, _, _ => by cases h
  | .option _, h, _, _, _, _ => by cases h
  | .hashMap _ _, h, _, _, _, _ => by cases h
  | .list _, h, _, _, _, _ => by cases h
  | .map _ _, h, _, _, _, _ => by cases h
  | .struct _ _ _, h, _, _, _, _ => by cases h
  | .enum _ _ _ _, h, _, _, _, _ => by cases h

theorem csNested_part (ρ : Bytes → Str) {t : Ty} {v : t.El} (hlen : (encode t v).length < 2 ^ 31) {p : Bytes}
    (hp : p <+: framed (wireOf t) (encode t v)) (hne : p ≠ framed (wireOf t) (encode t v)) :
    csNested (t.isCsState || t.isCsString) (fun bs => t.csDeserialize ρ bs) p = .error .endOfStream := by
  unfold csNested
  rw [csSized_eq]
  unfold framed at hp hne
  by_cases hw : wireOf t = 0
  · rw [if_neg (by simp [hw])]
    rw [if_pos hw] at hp hne
    exact prim_short ρ t hw v p hp hne
  · rw [if_pos (by simpa using hw)]
    rw [if_neg hw] at hp hne
    rw [csGetNested_part hlen hp hne]
    rfl

/-! ### Loops, part by part -/

/-- The loop reads `bs` part by part; the states on the way are `states`, the first one included. A part may be nothing. No part can be
read when it is cut. -/
inductive ByParts {σ : Type} (S : σ → Bytes → Except Exn (σ × Bytes)) : σ → Bytes → List σ → Prop
  | nil (a : σ) : ByParts S a [] [a]
  | skip {a : σ} {bs : Bytes} {states : List σ} : ByParts S a bs states → ByParts S a bs (a :: states)
  | part {a b : σ} {bs cs : Bytes} {states : List σ} : bs ≠ [] → (∀ rest, S a (bs ++ rest) = .ok (b, rest)) →
    (∀ q, q <+: bs → q ≠ bs → S a q = .error .endOfStream) → ByParts S b cs states → ByParts S a (bs ++ cs) (a :: states)

section
variable {σ : Type} {S : σ → Bytes → Except Exn (σ × Bytes)}

theorem untilEnd_step {a b : σ} {bs rest : Bytes} (hne : bs ≠ []) (h : S a bs = .ok (b, rest)) (n : Nat) :
    untilEnd S (n + 1) a bs = untilEnd S n b rest := by
  cases bs with
  | nil => exact absurd rfl hne
  | cons x xs => simp only [untilEnd, h, bind, Except.bind]

theorem untilEnd_throws {a : σ} {bs : Bytes} {e : Exn} (hne : bs ≠ []) (h : S a bs = .error e) {n : Nat} (hn : bs.length ≤ n) :
    untilEnd S n a bs = .error e := by
  cases bs with
  | nil => exact absurd rfl hne
  | cons x xs =>
    cases n with
    | zero => simp at hn
    | succ n => simp only [untilEnd, h, bind, Except.bind]

/-- Cut anywhere. -/
theorem ByParts.cut {a : σ} {bs : Bytes} {states : List σ} (h : ByParts S a bs states) : ∀ p, p <+: bs → ∀ n, p.length ≤ n →
    untilEnd S n a p = .error .endOfStream ∨ ∃ (i : Nat) (s : σ), states[i]? = some s ∧ untilEnd S n a p = .ok s := by
  induction h with
  | nil a =>
    intro p hp n _
    rw [List.prefix_nil] at hp
    subst hp
    exact .inr ⟨0, a, rfl, untilEnd_nil n a⟩
  | skip _ ih =>
    intro p hp n hn
    rcases ih p hp n hn with h | ⟨i, s, h1, h2⟩
    · exact .inl h
    · exact .inr ⟨i + 1, s, h1, h2⟩
  | @part a b bs cs states hne hS hcut _ ih =>
    intro p hp n hn
    by_cases hp0 : p = []
    · subst hp0
      exact .inr ⟨0, a, rfl, untilEnd_nil n a⟩
    rcases prefix_append_cases hp with ⟨h1, h2⟩ | ⟨q, rfl, h2⟩
    · exact .inl (untilEnd_throws hp0 (hcut p h1 h2) hn)
    · have hpos := List.length_pos_iff.2 hne
      rw [List.length_append] at hn
      obtain ⟨m, rfl⟩ : ∃ m, n = m + 1 := ⟨n - 1, by omega⟩
      rw [untilEnd_step hp0 (hS q)]
      rcases ih q h2 m (by omega) with h | ⟨i, s, h3, h4⟩
      · exact .inl h
      · exact .inr ⟨i + 1, s, h3, h4⟩

/-- All states are reached. -/
theorem ByParts.reach {a : σ} {bs : Bytes} {states : List σ} (h : ByParts S a bs states) : ∀ (i : Nat) (s : σ), states[i]? = some s →
    ∃ p, p <+: bs ∧ ∀ n, p.length ≤ n → untilEnd S n a p = .ok s := by
  induction h with
  | nil a =>
    intro i s hi
    cases i with
    | zero => cases hi; exact ⟨[], List.nil_prefix, fun n _ => untilEnd_nil n a⟩
    | succ i => cases hi
  | skip _ ih =>
    intro i s hi
    cases i with
    | zero => cases hi; exact ⟨[], List.nil_prefix, fun n _ => untilEnd_nil n _⟩
    | succ i => exact ih i s hi
  | @part a b bs cs states hne hS hcut _ ih =>
    intro i s hi
    cases i with
    | zero => cases hi; exact ⟨[], List.nil_prefix, fun n _ => untilEnd_nil n a⟩
    | succ i =>
      obtain ⟨p, h1, h2⟩ := ih i s hi
      refine ⟨bs ++ p, (List.prefix_append_right_inj _).2 h1, fun n hn => ?_⟩
      have hpos := List.length_pos_iff.2 hne
      rw [List.length_append] at hn
      obtain ⟨m, rfl⟩ : ∃ m, n = m + 1 := ⟨n - 1, by omega⟩
      rw [untilEnd_step (by simp [hne]) (hS p)]
      exact h2 m (by omega)

end

theorem parts_items {ρ : Bytes → Str} {t : Ty} (ht : t.WF) (ih : Readable ρ t) : ∀ (xs : List t.El) (acc : List t.Cs),
    (∀ x ∈ xs, Legible t x) → (xs.flatMap (fun x => framed (wireOf t) (encode t x))).length < 2 ^ 31 →
    ∃ states, states.length = xs.length + 1 ∧
      ByParts (csAddItem (csNested (t.isCsState || t.isCsString) (fun bs => t.csDeserialize ρ bs))) acc
        (xs.flatMap (fun x => framed (wireOf t) (encode t x))) states ∧
      ∀ (i : Nat) s, states[i]? = some s → ∃ cs, s = acc ++ cs ∧ List.Forall₂ (Shows t) (xs.take i) cs
  | [], acc, _, _ => ⟨[acc], rfl, .nil acc, fun i s h => by
      cases i with
      | zero => cases h; exact ⟨[], by simp, .nil⟩
      | succ i => cases h⟩
  | x :: xs, acc, hl, hlen => by
    rw [List.flatMap_cons] at hlen ⊢
    rw [List.length_append] at hlen
    have hx := framed_length t x
    obtain ⟨c, h1, h2⟩ := ih x (hl x (by simp)) (by omega)
    obtain ⟨states, h0, h3, h4⟩ := parts_items ht ih xs (acc ++ [c]) (fun y hy => hl y (by simp [hy])) (by omega)
    refine ⟨acc :: states, by simp [h0], .part (framed_encode_ne t ht x) (fun rest => ?_) (fun q hq hne => ?_) h3, fun i s hi => ?_⟩
    · simp only [csAddItem, h2.nested (by omega), bind, Except.bind]
    · simp only [csAddItem, csNested_part ρ (show (encode t x).length < 2 ^ 31 by omega) hq hne, bind, Except.bind]
    · cases i with
      | zero => cases hi; exact ⟨[], by simp, .nil⟩
      | succ i =>
        obtain ⟨cs, h5, h6⟩ := h4 i s hi
        exact ⟨c :: cs, by simp [h5], by rw [List.take_succ_cons]; exact .cons h1 h6⟩

theorem parts_entries {ρ : Bytes → Str} {t : Ty} (ih : Readable ρ t) : ∀ (es : List (U32 × t.El)) (d : List (U32 × t.Cs)),
    (∀ e ∈ es, e.1.toNat < 2 ^ 29 ∧ Legible t e.2) → (es.map (·.1)).Nodup →
    (es.flatMap (fun e => leb (e.1.toNat * 8 + wireOf t) ++ framed (wireOf t) (encode t e.2))).length < 2 ^ 31 →
    ∃ states, states.length = es.length + 1 ∧
      ByParts (csAddEntry (csNested (t.isCsState || t.isCsString) (fun bs => t.csDeserialize ρ bs))) d
        (es.flatMap (fun e => leb (e.1.toNat * 8 + wireOf t) ++ framed (wireOf t) (encode t e.2))) states ∧
      ∀ (i : Nat) d', states[i]? = some d' → ∀ k, ((es.take i).lookup k = none → d'.lookup k = d.lookup k) ∧
        ∀ x, (es.take i).lookup k = some x → ∃ c, d'.lookup k = some c ∧ Shows t x c
  | [], d, _, _, _ => ⟨[d], rfl, .nil d, fun i s h => by
      cases i with
      | zero => cases h; exact fun k => ⟨fun _ => rfl, fun x h => by cases h⟩
      | succ i => cases h⟩
  | (i, x) :: es, d, hl, hn, hlen => by
    rw [List.flatMap_cons] at hlen ⊢
    rw [List.length_append, List.length_append] at hlen
    have hx := framed_length t x
    dsimp only at hlen
    rw [List.map_cons, List.nodup_cons] at hn
    obtain ⟨c, h1, h2⟩ := ih x (hl (i, x) (by simp)).2 (by omega)
    obtain ⟨states, h0, h3, h4⟩ := parts_entries ih es (dictSet i c d) (fun y hy => hl y (by simp [hy])) hn.2 (by omega)
    obtain ⟨w, hw⟩ := wire_exists t
    have hk := fun rest => csReadKey_leb i w (hl (i, x) (by simp)).1 rest
    rw [hw] at hk
    refine ⟨d :: states, by simp [h0], .part (fun h => leb_ne_nil _ (List.append_eq_nil_iff.1 h).1) (fun rest => ?_) (fun q hq hne => ?_) h3,
      fun j s hj k => ?_⟩
    · simp only [csAddEntry, List.append_assoc, hk, h2.nested (show (encode t x).length < 2 ^ 31 by omega), bind, Except.bind]
    · rcases prefix_append_cases hq with ⟨g1, g2⟩ | ⟨r, rfl, g2⟩
      · simp only [csAddEntry, csReadKey_short g1 g2, bind, Except.bind]
      · simp only [csAddEntry, hk, csNested_part ρ (show (encode t x).length < 2 ^ 31 by omega) g2 (fun h => hne (by rw [h])), bind,
          Except.bind]
    · cases j with
      | zero => cases hj; exact ⟨fun _ => rfl, fun x h => by cases h⟩
      | succ j =>
        obtain ⟨h5, h6⟩ := h4 j s hj k
        rw [List.take_succ_cons, List.lookup_cons]
        by_cases hk : k = i
        · subst hk
          have hnone : (es.take j).lookup k = none := by
            rw [List.lookup_eq_none_iff]
            intro p hp
            have : p.1 ∈ es.map (·.1) := List.mem_map_of_mem (List.mem_of_mem_take hp)
            exact bne_iff_ne.2 fun he => hn.1 (he ▸ this)
          have := h5 hnone
          rw [lookup_dictSet, if_pos rfl] at this
          rw [beq_self_eq_true]
          exact ⟨fun h => by simp at h, fun y hy => by cases hy; exact ⟨c, this, h1⟩⟩
        · have : (k == i) = false := by simpa using hk
          simp only [this]
          refine ⟨fun h => ?_, h6⟩
          rw [h5 h, lookup_dictSet, if_neg hk]

/-! ### Messages -/

mutual
theorem unread_new : (t : Ty) → Mirrored t → Unread t t.csNew
  | .uint _, _ => rfl
  | .sint _, _ => rfl
  | .bool, _ => rfl
  | .string, _ => rfl
  | .bytes, _ => rfl
  | .vec _, _ => rfl
  | .array _ _, _ => rfl
  | .tuple _, hm => hm.elim
  | .option _, _ => rfl
  | .box t, hm => unread_new t hm
  | .hashMap _ _, hm => hm.elim
  | .list _, _ => rfl
  | .map _ _, _ => rfl
  | .struct _ _ fs, hm => unread_newFields fs hm
  | .enum _ _ fs _, hm => unread_newFields fs hm.1

theorem unread_newFields : (fs : Fields) → MirroredFields fs → UnreadFields fs fs.csNew
  | .nil, _ => trivial
  | .cons _ _ t fs, hm => ⟨unread_new t hm.2.1, unread_newFields fs hm.2.2⟩
end

/-- The number of fields. -/
def Fields.count : Fields → Nat
  | .nil => 0
  | .cons _ _ _ fs => fs.count + 1

/-- A field that is cut. -/
theorem field_part {ρ : Bytes → Str} {tag : U32} {attrs : FieldAttrs} {t : Ty} {fs : Fields} (htag : tag.toNat < 2 ^ 29)
    (hg : GoodField attrs t) {σ : Type} {getWire : U32 → Option WireType}
    {replaceAt : U32 → WireType → Bytes → σ → Except Exn (σ × Bytes)} {g : (Fields.cons tag attrs t fs).Cs → σ}
    (hgw : getWire tag = (Fields.cons tag attrs t fs).csGetWireType tag)
    (hrep : ∀ wire bs y, replaceAt tag wire bs (g y) =
      ((Fields.cons tag attrs t fs).csReplaceAt ρ tag wire bs y).map (fun r => (g r.1, r.2)))
    {v : t.El} (h1 : (encode t v).length < 2 ^ 31) {q : Bytes}
    (hq : q <+: leb (tag.toNat * 8 + wireOf t) ++ framed (wireOf t) (encode t v))
    (hne : q ≠ leb (tag.toNat * 8 + wireOf t) ++ framed (wireOf t) (encode t v)) :
    csReplaceStep getWire replaceAt (g (t.csNew, fs.csNew)) q = .error .endOfStream := by
  have hw := csFieldWire_num attrs t hg
  have hk := fun rest => csReadKey_leb tag (csFieldWire attrs t) htag rest
  rw [hw] at hk
  rw [show (Fields.cons tag attrs t fs).csGetWireType tag = some (csFieldWire attrs t) by
    simp [Fields.csGetWireType]] at hgw
  unfold csReplaceStep
  rcases prefix_append_cases hq with ⟨g1, g2⟩ | ⟨r, rfl, g2⟩
  · rw [csReadKey_short g1 g2]; rfl
  · rw [hk]
    have hne' : r ≠ framed (wireOf t) (encode t v) := fun h => hne (by rw [h])
    cases hcw : csFieldWire attrs t with
    | varint =>
      have h0 : wireOf t = 0 := by rw [← hw, hcw]; rfl
      simp only [framed, h0, if_true] at g2 hne'
      simp only [bind, Except.bind, hgw, hcw]
      simp only [Option.some.injEq, reduceCtorEq, if_false]
      rw [hrep]
      simp only [Fields.csReplaceAt, if_pos, prim_short ρ t h0 v r g2 hne', bind, Except.bind, Except.map]
    | sized =>
      have h0 : wireOf t = 2 := by rw [← hw, hcw]; rfl
      simp only [framed, h0, if_neg (show ¬ (2 : Nat) = 0 by decide)] at g2 hne'
      simp only [bind, Except.bind, csGetNested_part h1 g2 hne']

theorem parts_fields (ρ : Bytes → Str) : (fs : Fields) → (ds : Bool) → fs.tags.Nodup → fs.WF ds → MirroredFields fs →
    ∀ (σ : Type) (getWire : U32 → Option WireType) (replaceAt : U32 → WireType → Bytes → σ → Except Exn (σ × Bytes))
      (g : fs.Cs → σ),
      (∀ tag ∈ fs.tags, getWire tag = fs.csGetWireType tag ∧ ∀ wire bs y, replaceAt tag wire bs (g y) =
        (fs.csReplaceAt ρ tag wire bs y).map (fun r => (g r.1, r.2))) →
      ∀ v, LegibleFields fs v → (encodeFields fs v).length < 2 ^ 31 → ∃ states : List fs.Cs, states.length = fs.count + 1 ∧
        ByParts (csReplaceStep getWire replaceAt) (g fs.csNew) (encodeFields fs v) (states.map g) ∧
        ∀ (i : Nat) c, states[i]? = some c → ShowsFirstFields fs i v c
  | .nil, _, _, _, _, _, _, _, g, _, _, _, _ => ⟨[()], rfl, .nil _, fun i c h => by
      cases i with
      | zero => exact trivial
      | succ i => exact trivial⟩
  | .cons tag attrs t fs, ds, hn, h, hm, σ, getWire, replaceAt, g, hS, v, hl, hlen => by
    have hn' := List.nodup_cons.1 hn
    have htag := tag_lt h.1
    obtain ⟨hgw, hrep⟩ := hS tag (by simp [Fields.tags])
    have ih := fun c => parts_fields ρ fs ds hn'.2 h.2.2.2 hm.2.2 σ getWire replaceAt (fun y => g (c, y)) (rest_fields hn'.1 hS c) v.2
      hl.2 (by simp only [encodeFields, List.length_append] at hlen; omega)
    have hnew : ShowsFirstFields (.cons tag attrs t fs) 0 v (Fields.cons tag attrs t fs).csNew :=
      unread_newFields (.cons tag attrs t fs) hm
    have hfirst : ∀ (c : t.Cs), Shows t v.1 c → ∀ (states : List fs.Cs), (∀ (i : Nat) c', states[i]? = some c' →
        ShowsFirstFields fs i v.2 c') → ∀ (i : Nat) c',
        ((Fields.cons tag attrs t fs).csNew :: states.map (fun y => (c, y)))[i]? = some c' →
        ShowsFirstFields (.cons tag attrs t fs) i v c' := by
      intro c hc states hst i c' hi
      cases i with
      | zero => cases hi; exact hnew
      | succ i =>
        rw [List.getElem?_cons_succ, List.getElem?_map] at hi
        cases hj : states[i]? with
        | none => rw [hj] at hi; cases hi
        | some y => rw [hj] at hi; cases hi; exact ⟨hc, hst i y hj⟩
    by_cases hlo : leftOut t v.1 (encode t v.1) = true
    · obtain ⟨states, h0, h1, h2⟩ := ih t.csNew
      refine ⟨_ :: states.map (fun y => (t.csNew, y)), by simp [h0, Fields.count], ?_,
        hfirst _ (leftOut_shows t h.2.2.1 hm.2.1 v.1 hlo) states h2⟩
      rw [List.map_cons, List.map_map]
      simp only [encodeFields, if_pos hlo, List.nil_append]
      exact .skip h1
    · have hl1 : (encode t v.1).length < 2 ^ 31 := by
        simp only [encodeFields, if_neg hlo, List.length_append] at hlen
        have := framed_length t v.1
        omega
      obtain ⟨c, hc, hr⟩ := readable ρ t h.2.2.1 hm.2.1 v.1 hl.1 hl1
      obtain ⟨states, h0, h1, h2⟩ := ih c
      refine ⟨_ :: states.map (fun y => (c, y)), by simp [h0, Fields.count], ?_, hfirst _ hc states h2⟩
      rw [List.map_cons, List.map_map]
      simp only [encodeFields, if_neg hlo]
      exact .part (fun h => leb_ne_nil _ (List.append_eq_nil_iff.1 h).1) (fun rest => reads_field htag hm.1 hgw hrep hr hl1 rest)
        (fun q hq hne => field_part htag hm.1 hgw hrep hl1 hq hne) h1

theorem showsFirst_more : (fs : Fields) → ∀ {n m : Nat} {v : fs.El} {c : fs.Cs}, fs.count ≤ n → fs.count ≤ m →
    ShowsFirstFields fs n v c → ShowsFirstFields fs m v c
  | .nil, n, m, _, _, _, _, _ => by cases m <;> exact trivial
  | .cons _ _ t fs, n, m, v, c, hn, hm, h => by
    cases n with
    | zero => simp [Fields.count] at hn
    | succ n =>
      cases m with
      | zero => simp [Fields.count] at hm
      | succ m =>
        simp only [Fields.count] at hn hm
        exact ⟨h.1, showsFirst_more fs (by omega) (by omega) h.2⟩

/-- Reading a message that is cut, and what can be read. -/
theorem cut_fields (ρ : Bytes → Str) (fs : Fields) (ds : Bool) (hn : fs.tags.Nodup) (h : fs.WF ds) (hm : MirroredFields fs) (v : fs.El)
    (hl : LegibleFields fs v) (hlen : (encodeFields fs v).length < 2 ^ 31) :
    (∀ p, p <+: encodeFields fs v →
      untilEnd (csReplaceStep fs.csGetWireType (fun tag wire bs v => fs.csReplaceAt ρ tag wire bs v)) p.length fs.csNew p =
        .error .endOfStream ∨
      ∃ n c, untilEnd (csReplaceStep fs.csGetWireType (fun tag wire bs v => fs.csReplaceAt ρ tag wire bs v)) p.length fs.csNew p =
        .ok c ∧ ShowsFirstFields fs n v c) ∧
    ∀ n, ∃ p c, p <+: encodeFields fs v ∧
      untilEnd (csReplaceStep fs.csGetWireType (fun tag wire bs v => fs.csReplaceAt ρ tag wire bs v)) p.length fs.csNew p =
        .ok c ∧ ShowsFirstFields fs n v c := by
  obtain ⟨states, h0, h1, h2⟩ := parts_fields ρ fs ds hn h hm _ fs.csGetWireType (fun tag wire bs v => fs.csReplaceAt ρ tag wire bs v) id
    (fun tag _ => ⟨rfl, fun wire bs y => by
      cases h : fs.csReplaceAt ρ tag wire bs y with
      | error e => simp only [id, h]; rfl
      | ok r => simp only [id, h]; rfl⟩) v hl hlen
  rw [List.map_id] at h1
  refine ⟨fun p hp => ?_, fun n => ?_⟩
  · rcases h1.cut p hp _ (Nat.le_refl _) with h3 | ⟨i, c, h3, h4⟩
    · exact .inl h3
    · exact .inr ⟨i, c, h4, h2 i c h3⟩
  · have hi : min n fs.count < states.length := by omega
    obtain ⟨p, h3, h4⟩ := h1.reach (min n fs.count) _ (List.getElem?_eq_getElem hi)
    refine ⟨p, _, h3, h4 _ (Nat.le_refl _), ?_⟩
    have h5 := h2 _ _ (List.getElem?_eq_getElem hi)
    rcases Nat.le_total n fs.count with hle | hle
    · generalize states[min n fs.count] = c at h5 ⊢
      rwa [Nat.min_eq_left hle] at h5
    · generalize states[min n fs.count] = c at h5 ⊢
      rw [Nat.min_eq_right hle] at h5
      exact showsFirst_more fs (Nat.le_refl _) hle h5

/-! ### All types -/

/-- What C# does with the first bytes of a value. -/
def CutShown (ρ : Bytes → Str) (t : Ty) (v : t.El) : Prop :=
  (∀ p, p <+: encode t v → t.csDeserialize ρ p = .error .endOfStream ∨
    ∃ n c, t.csDeserialize ρ p = .ok (c, []) ∧ ShowsFirst ρ t n v c) ∧
  ∀ n, ∃ p c, p <+: encode t v ∧ t.csDeserialize ρ p = .ok (c, []) ∧ ShowsFirst ρ t n v c

theorem cutShown_prim (ρ : Bytes → Str) (t : Ty) (ht : t.WF) (hm : Mirrored t) (h0 : wireOf t = 0) (v : t.El) (hl : Legible t v)
    (hlen : (encode t v).length < 2 ^ 31) (hs : ∀ n c, Shows t v c → ShowsFirst ρ t n v c) : CutShown ρ t v := by
  obtain ⟨c, h1, h2⟩ := readable ρ t ht hm v hl hlen
  have h3 := h2 [] (fun _ => rfl)
  rw [List.append_nil] at h3
  refine ⟨fun p hp => ?_, fun n => ⟨_, c, List.prefix_rfl, h3, hs n c h1⟩⟩
  by_cases hne : p = encode t v
  · subst hne
    exact .inr ⟨0, c, h3, hs 0 c h1⟩
  · exact .inl (prim_short ρ t h0 v p hp hne)

theorem cut_items {ρ : Bytes → Str} {t : Ty} (ht : t.WF) (hm : Mirrored t) (xs : List t.El) (hl : ∀ x ∈ xs, Legible t x)
    (hlen : (xs.flatMap (fun x => framed (wireOf t) (encode t x))).length < 2 ^ 31) :
    (∀ p, p <+: xs.flatMap (fun x => framed (wireOf t) (encode t x)) →
      untilEnd (csAddItem (csNested (t.isCsState || t.isCsString) (fun bs => t.csDeserialize ρ bs))) p.length [] p =
        .error .endOfStream ∨
      ∃ n c, untilEnd (csAddItem (csNested (t.isCsState || t.isCsString) (fun bs => t.csDeserialize ρ bs))) p.length [] p =
        .ok c ∧ List.Forall₂ (Shows t) (xs.take n) c) ∧
    ∀ n, ∃ p c, p <+: xs.flatMap (fun x => framed (wireOf t) (encode t x)) ∧
      untilEnd (csAddItem (csNested (t.isCsState || t.isCsString) (fun bs => t.csDeserialize ρ bs))) p.length [] p =
        .ok c ∧ List.Forall₂ (Shows t) (xs.take n) c := by
  obtain ⟨states, h0, h1, h2⟩ := parts_items ht (readable ρ t ht hm) xs [] hl hlen
  refine ⟨fun p hp => ?_, fun n => ?_⟩
  · rcases h1.cut p hp _ (Nat.le_refl _) with h3 | ⟨i, c, h3, h4⟩
    · exact .inl h3
    · obtain ⟨cs, rfl, h5⟩ := h2 i c h3
      exact .inr ⟨i, _, h4, h5⟩
  · have hi : min n xs.length < states.length := by omega
    obtain ⟨p, h3, h4⟩ := h1.reach (min n xs.length) _ (List.getElem?_eq_getElem hi)
    obtain ⟨cs, h5, h6⟩ := h2 _ _ (List.getElem?_eq_getElem hi)
    rw [List.nil_append] at h5
    refine ⟨p, cs, h3, by rw [← h5]; exact h4 _ (Nat.le_refl _), ?_⟩
    rwa [List.take_eq_take_min]

theorem cut_variants (ρ : Bytes → Str) : (vs : Variants) → (ds : Bool) → vs.tags.Nodup → vs.WF ds → MirroredVariants vs →
    ∀ v, LegibleVariant vs v → (encodeVariant vs v).length < 2 ^ 31 → ∃ (tag : U32) (payload : Bytes), tag ∈ vs.tags ∧
      encodeVariant vs v = leb tag.toNat ++ payload ∧
      (∀ p, p <+: payload → vs.csVariant ρ tag p = .error .endOfStream ∨
        ∃ n c, vs.csVariant ρ tag p = .ok (some c) ∧ ShowsFirstVariant vs n v c) ∧
      ∀ n, ∃ p c, p <+: payload ∧ vs.csVariant ρ tag p = .ok (some c) ∧ ShowsFirstVariant vs n v c
  | .nil, _, _, _, _ => fun v => nomatch v
  | .cons tag _ fs vs, ds, hn, h, hm => fun v hl hlen => by
    cases v with
    | inl x =>
      obtain ⟨h1, h2⟩ := cut_fields ρ fs ds h.2.1 h.2.2.1 hm.1 x hl (by
        simp only [encodeVariant, List.length_append] at hlen; omega)
      refine ⟨tag, encodeFields fs x, by simp [Variants.tags], rfl, fun p hp => ?_, fun n => ?_⟩
      · rcases h1 p hp with h3 | ⟨n, c, h3, h4⟩
        · left; simp only [Variants.csVariant, if_true, h3, bind, Except.bind]
        · right; exact ⟨n, .inl c, by simp only [Variants.csVariant, if_true, h3, bind, Except.bind], h4⟩
      · obtain ⟨p, c, h3, h4, h5⟩ := h2 n
        exact ⟨p, .inl c, h3, by simp only [Variants.csVariant, if_true, h4, bind, Except.bind], h5⟩
    | inr x =>
      obtain ⟨tag', payload, h1, h2, h3, h4⟩ := cut_variants ρ vs ds (List.nodup_cons.1 hn).2 h.2.2.2 hm.2 x hl hlen
      have hne : tag' ≠ tag := fun h => (List.nodup_cons.1 hn).1 (h ▸ h1)
      refine ⟨tag', payload, by simp [Variants.tags, h1], h2, fun p hp => ?_, fun n => ?_⟩
      · rcases h3 p hp with h3 | ⟨n, c, h3, h5⟩
        · left; simp only [Variants.csVariant, if_neg hne, h3, bind, Except.bind]
        · right; exact ⟨n, .inr c, by simp only [Variants.csVariant, if_neg hne, h3, bind, Except.bind, Option.map_some], h5⟩
      · obtain ⟨p, c, h5, h6, h7⟩ := h4 n
        exact ⟨p, .inr c, h5, by simp only [Variants.csVariant, if_neg hne, h6, bind, Except.bind, Option.map_some], h7⟩

theorem cutShown (ρ : Bytes → Str) : (t : Ty) → t.WF → Mirrored t → ∀ v, Legible t v → (encode t v).length < 2 ^ 31 → CutShown ρ t v
  | .uint w, ht, hm, v, hl, hlen => cutShown_prim ρ _ ht hm rfl v hl hlen (fun _ _ h => h)
  | .sint w, ht, hm, v, hl, hlen => cutShown_prim ρ _ ht hm rfl v hl hlen (fun _ _ h => h)
  | .bool, ht, hm, v, hl, hlen => cutShown_prim ρ _ ht hm rfl v hl hlen (fun _ _ h => h)
  | .string, _, _, v, _, _ => by
    have hs : ∀ n, ShowsFirst ρ .string n v (some (csGetString ρ (v.bytes.take n))) := fun n => by
      refine ⟨_, rfl, fun u hu => by rw [← hu, csGetString_str], fun h => ?_⟩
      unfold csGetString
      rw [dif_neg]
      intro hv
      exact h ⟨_, hv⟩ rfl
    refine ⟨fun p hp => .inr ⟨p.length, _, rfl, ?_⟩, fun n => ⟨v.bytes.take n, _, List.take_prefix _ _, rfl, hs n⟩⟩
    have := hs p.length
    rwa [← List.prefix_iff_eq_take.1 (show p <+: v.bytes from hp)] at this
  | .bytes, _, _, v, _, _ =>
    ⟨fun p hp => .inr ⟨p.length, p, rfl, List.prefix_iff_eq_take.1 hp⟩, fun n => ⟨v.take n, _, List.take_prefix _ _, rfl, rfl⟩⟩
  | .vec t, ht, hm, v, hl, hlen => by
    obtain ⟨h1, h2⟩ := cut_items (ρ := ρ) (t := t) ht hm v hl hlen
    refine ⟨fun p hp => ?_, fun n => ?_⟩
    · rcases h1 p hp with h3 | ⟨n, c, h3, h4⟩
      · left; simp only [Ty.csDeserialize, h3, bind, Except.bind]
      · right; exact ⟨n, c, by simp only [Ty.csDeserialize, h3, bind, Except.bind], h4⟩
    · obtain ⟨p, c, h3, h4, h5⟩ := h2 n
      exact ⟨p, c, h3, by simp only [Ty.csDeserialize, h4, bind, Except.bind], h5⟩
  | .array _ t, ht, hm, v, hl, hlen => by
    obtain ⟨h1, h2⟩ := cut_items (ρ := ρ) ht.2.2 hm v.1 hl hlen
    refine ⟨fun p hp => ?_, fun n => ?_⟩
    · rcases h1 p hp with h3 | ⟨n, c, h3, h4⟩
      · left; simp only [Ty.csDeserialize, h3, bind, Except.bind]
      · right; exact ⟨n, c, by simp only [Ty.csDeserialize, h3, bind, Except.bind], h4⟩
    · obtain ⟨p, c, h3, h4, h5⟩ := h2 n
      exact ⟨p, c, h3, by simp only [Ty.csDeserialize, h4, bind, Except.bind], h5⟩
  | .tuple _, _, hm, _, _, _ => hm.elim
  | .option t, ht, hm, v, hl, hlen => by
    have hnone : (Ty.option t).csDeserialize ρ [] = .ok (none, []) := rfl
    cases v with
    | none =>
      have hr : ∀ n : Nat, ShowsFirst ρ (.option t) n none none := fun n => by
        simp only [ShowsFirst, ite_self]; exact .none
      refine ⟨fun p hp => .inr ⟨0, none, ?_, hr 0⟩, fun n => ⟨[], none, List.nil_prefix, hnone, hr n⟩⟩
      have : p = [] := List.prefix_nil.1 hp
      rw [this, hnone]
    | some x =>
      have he : encode (.option t) (some x) = framed (wireOf t) (encode t x) := by
        simp only [encode, Option.toList_some, List.flatMap_cons, List.flatMap_nil, List.append_nil]
      rw [he] at hlen
      have hle := framed_length t x
      obtain ⟨c, h1, h2⟩ := readable ρ t ht hm x (hl x rfl) (by omega)
      have h3 := h2.nested (by omega) []
      rw [List.append_nil] at h3
      have hw : (Ty.option t).csDeserialize ρ (framed (wireOf t) (encode t x)) = .ok (some c, []) := by
        simp only [Ty.csDeserialize, if_neg (framed_encode_ne t ht x), h3]
        rfl
      have hr : ∀ n : Nat, n ≠ 0 → ShowsFirst ρ (.option t) n (some x) (some c) := fun n hn => by
        simp only [ShowsFirst, if_neg hn]; exact .some h1
      have hr0 : ShowsFirst ρ (.option t) 0 (some x) none := by
        simp only [ShowsFirst, if_true]; exact .none
      unfold CutShown
      rw [he]
      refine ⟨fun p hp => ?_, fun n => ?_⟩
      · by_cases hp0 : p = []
        · subst hp0
          exact .inr ⟨0, none, hnone, hr0⟩
        by_cases hne : p = framed (wireOf t) (encode t x)
        · subst hne
          exact .inr ⟨1, some c, hw, hr 1 (by decide)⟩
        · left
          simp only [Ty.csDeserialize, if_neg hp0, csNested_part ρ (show (encode t x).length < 2 ^ 31 by omega) hp hne, bind,
            Except.bind]
      · cases n with
        | zero => exact ⟨[], none, List.nil_prefix, hnone, hr0⟩
        | succ n => exact ⟨_, some c, List.prefix_rfl, hw, hr _ (by omega)⟩
  | .box t, ht, hm, v, hl, hlen => cutShown ρ t ht hm v hl hlen
  | .hashMap _ _, _, hm, _, _, _ => hm.elim
  | .list t, ht, hm, v, hl, hlen => by
    obtain ⟨h1, h2⟩ := cut_items (ρ := ρ) ht.2 hm v.items hl hlen
    refine ⟨fun p hp => ?_, fun n => ?_⟩
    · rcases h1 p hp with h3 | ⟨n, c, h3, h4⟩
      · left; simp only [Ty.csDeserialize, h3, bind, Except.bind]
      · right; exact ⟨n, c, by simp only [Ty.csDeserialize, h3, bind, Except.bind], h4⟩
    · obtain ⟨p, c, h3, h4, h5⟩ := h2 n
      exact ⟨p, c, h3, by simp only [Ty.csDeserialize, h4, bind, Except.bind], h5⟩
  | .map _ t, ht, hm, v, hl, hlen => by
    obtain ⟨states, h0, h1, h2⟩ := parts_entries (readable ρ t ht.2 hm) v.entries [] hl.1 hl.2 hlen
    have hs : ∀ (i : Nat) d, states[i]? = some d → ∀ k, Option.Rel (Shows t) ((v.entries.take i).lookup k) (d.lookup k) := by
      intro i d hi k
      obtain ⟨h3, h4⟩ := h2 i d hi k
      cases h : (v.entries.take i).lookup k with
      | none => rw [h3 h]; exact .none
      | some x =>
        obtain ⟨c, h5, h6⟩ := h4 x h
        rw [h5]
        exact .some h6
    refine ⟨fun p hp => ?_, fun n => ?_⟩
    · rcases h1.cut p hp _ (Nat.le_refl _) with h3 | ⟨i, d, h3, h4⟩
      · left; simp only [Ty.csDeserialize, h3, bind, Except.bind]
      · right; exact ⟨i, d, by simp only [Ty.csDeserialize, h4, bind, Except.bind], hs i d h3⟩
    · have hi : min n v.entries.length < states.length := by omega
      obtain ⟨p, h3, h4⟩ := h1.reach (min n v.entries.length) _ (List.getElem?_eq_getElem hi)
      refine ⟨p, states[min n v.entries.length], h3, by simp only [Ty.csDeserialize, h4 _ (Nat.le_refl _), bind, Except.bind],
        fun k => ?_⟩
      have := hs _ _ (List.getElem?_eq_getElem hi) k
      rwa [← List.take_eq_take_min] at this
  | .struct ds _ fs, ht, hm, v, hl, hlen => by
    obtain ⟨h1, h2⟩ := cut_fields ρ fs ds ht.1 ht.2 hm v.fields hl hlen
    refine ⟨fun p hp => ?_, fun n => ?_⟩
    · rcases h1 p hp with h3 | ⟨n, c, h3, h4⟩
      · left; simp only [Ty.csDeserialize, h3, bind, Except.bind]
      · right; exact ⟨n, c, by simp only [Ty.csDeserialize, h3, bind, Except.bind], h4⟩
    · obtain ⟨p, c, h3, h4, h5⟩ := h2 n
      exact ⟨p, c, h3, by simp only [Ty.csDeserialize, h4, bind, Except.bind], h5⟩
  | .enum ds _ fs vs, ht, hm, ⟨rt, v⟩, hl, hlen => by
    cases v with
    | inl x =>
      obtain ⟨h1, h2⟩ := cut_fields ρ fs ds ht.1 ht.2.1 hm.1 x hl (by
        simp only [encode, List.length_append] at hlen; omega)
      refine ⟨fun p hp => ?_, fun n => ?_⟩
      · have hp : p <+: leb 0 ++ encodeFields fs x := hp
        rcases prefix_append_cases hp with ⟨g1, g2⟩ | ⟨r, rfl, g2⟩
        · left; simp only [Ty.csDeserialize, csReadUInt32, csReadUInt_short _ g1 g2, bind, Except.bind]
        · rcases h1 r g2 with h3 | ⟨n, c, h3, h4⟩
          · left
            simp only [Ty.csDeserialize, csReadUInt32_leb 0 _ (by decide), bind, Except.bind, if_true, h3]
          · right
            exact ⟨n, .inl c, by simp only [Ty.csDeserialize, csReadUInt32_leb 0 _ (by decide), bind, Except.bind, if_true, h3], h4⟩
      · obtain ⟨p, c, h3, h4, h5⟩ := h2 n
        exact ⟨leb 0 ++ p, .inl c, (List.prefix_append_right_inj _).2 h3,
          by simp only [Ty.csDeserialize, csReadUInt32_leb 0 _ (by decide), bind, Except.bind, if_true, h4], h5⟩
    | inr x =>
      obtain ⟨tag, payload, h1, h2, h3, h4⟩ := cut_variants ρ vs ds ht.2.2.1 ht.2.2.2.2 hm.2 x hl hlen
      have hne : tag ≠ 0#32 := fun h => ht.2.2.2.1 (h ▸ h1)
      refine ⟨fun p hp => ?_, fun n => ?_⟩
      · have hp : p <+: encodeVariant vs x := hp
        rw [h2] at hp
        rcases prefix_append_cases hp with ⟨g1, g2⟩ | ⟨r, rfl, g2⟩
        · left; simp only [Ty.csDeserialize, csReadUInt32, csReadUInt_short _ g1 g2, bind, Except.bind]
        · rcases h3 r g2 with h5 | ⟨n, c, h5, h6⟩
          · left
            simp only [Ty.csDeserialize, csReadUInt32_leb _ _ tag.isLt, bind, Except.bind, BitVec.ofNat_toNat,
              BitVec.setWidth_eq, if_neg hne, h5]
          · right
            exact ⟨n, .inr c, by
              simp only [Ty.csDeserialize, csReadUInt32_leb _ _ tag.isLt, bind, Except.bind, BitVec.ofNat_toNat,
                BitVec.setWidth_eq, if_neg hne, h5], h6⟩
      · obtain ⟨p, c, h5, h6, h7⟩ := h4 n
        refine ⟨leb tag.toNat ++ p, .inr c, ?_, by
          simp only [Ty.csDeserialize, csReadUInt32_leb _ _ tag.isLt, bind, Except.bind, BitVec.ofNat_toNat,
            BitVec.setWidth_eq, if_neg hne, h6], h7⟩
        show _ <+: encodeVariant vs x
        rw [h2]
        exact (List.prefix_append_right_inj _).2 h5

end Steit
