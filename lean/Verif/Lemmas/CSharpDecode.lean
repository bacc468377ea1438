import Verif.Spec.CSharp
import Verif.Lemmas.CSharpRead
import Verif.Lemmas.Carried

/-! # Decoding in C# what Rust encoded -/

namespace Steit
open Spec

/-! ### Loops -/

/-- The loop, on any input starting with `bs`, gets from `a` to `b` by consuming exactly `bs`. -/
def Eats {σ : Type} (S : σ → Bytes → Except Exn (σ × Bytes)) (a : σ) (bs : Bytes) (b : σ) : Prop :=
  ∀ rest, ∃ n ≤ bs.length, ∀ k, untilEnd S (n + k) a (bs ++ rest) = untilEnd S k b rest

section eats
variable {σ : Type} {S : σ → Bytes → Except Exn (σ × Bytes)}

theorem Eats.refl (a : σ) : Eats S a [] a := fun rest => ⟨0, by simp, fun k => by simp⟩

theorem Eats.trans {a b c : σ} {bs cs : Bytes} (h : Eats S a bs b) (h' : Eats S b cs c) : Eats S a (bs ++ cs) c := by
  intro rest
  obtain ⟨n, hn, h⟩ := h (cs ++ rest)
  obtain ⟨n', hn', h'⟩ := h' rest
  refine ⟨n + n', by rw [List.length_append]; omega, fun k => ?_⟩
  rw [List.append_assoc, Nat.add_assoc, h, h']

theorem Eats.one {a b : σ} {bs : Bytes} (hne : bs ≠ []) (h : ∀ rest, S a (bs ++ rest) = .ok (b, rest)) :
    Eats S a bs b := by
  intro rest
  cases bs with
  | nil => exact absurd rfl hne
  | cons x xs =>
    refine ⟨1, by simp, fun k => ?_⟩
    have := h rest
    rw [List.cons_append] at this
    rw [Nat.add_comm 1 k, List.cons_append]
    simp only [untilEnd, this, bind, Except.bind]

theorem untilEnd_nil (k : Nat) (a : σ) : untilEnd S k a [] = .ok a := by cases k <;> rfl

theorem Eats.done {a b : σ} {bs : Bytes} (h : Eats S a bs b) : untilEnd S bs.length a bs = .ok b := by
  obtain ⟨n, hn, h⟩ := h []
  have := h (bs.length - n)
  rwa [List.append_nil, Nat.add_sub_cancel' hn, untilEnd_nil] at this

end eats

/-! ### Dictionaries -/

theorem lookup_filter_ne {α : Type} (k k' : U32) (h : k' ≠ k) :
    ∀ d : List (U32 × α), (d.filter (fun e => e.1 != k)).lookup k' = d.lookup k'
  | [] => rfl
  | (i, x) :: d => by
    by_cases hi : i = k
    · subst hi
      rw [List.filter_cons_of_neg (by simp), lookup_filter_ne i k' h d, List.lookup_cons]
      have : (k' == i) = false := by simpa using h
      simp [this]
    · rw [List.filter_cons_of_pos (by simpa using hi), List.lookup_cons, List.lookup_cons, lookup_filter_ne k k' h d]

theorem lookup_filter_self {α : Type} (k : U32) : ∀ d : List (U32 × α), (d.filter (fun e => e.1 != k)).lookup k = none
  | [] => rfl
  | (i, x) :: d => by
    by_cases hi : i = k
    · subst hi
      rw [List.filter_cons_of_neg (by simp), lookup_filter_self i d]
    · have : (k == i) = false := by simpa using fun h => hi h.symm
      rw [List.filter_cons_of_pos (by simpa using hi), List.lookup_cons, this]
      exact lookup_filter_self k d

theorem lookup_dictSet {α : Type} (k k' : U32) (x : α) (d : List (U32 × α)) :
    (dictSet k x d).lookup k' = if k' = k then some x else d.lookup k' := by
  unfold dictSet
  rw [List.lookup_cons]
  by_cases h : k' = k
  · subst h; simp
  · have : (k' == k) = false := by simpa using h
    rw [if_neg h, this, ← lookup_filter_ne k k' h d]

theorem lookup_dictPut {α : Type} (k k' : U32) (x : α) : ∀ d : List (U32 × α),
    (dictPut k x d).lookup k' = if k' = k then (d.lookup k).map (fun _ => x) else d.lookup k'
  | [] => by simp [dictPut]
  | (j, y) :: d => by
    have ih := lookup_dictPut k k' x d
    unfold dictPut
    by_cases hj : j = k
    · subst hj
      rw [if_pos rfl, List.lookup_cons, List.lookup_cons, List.lookup_cons]
      by_cases h : k' = j
      · subst h; simp
      · have : (k' == j) = false := by simpa using h
        simp [this, h]
    · rw [if_neg hj, List.lookup_cons, List.lookup_cons, List.lookup_cons, ih]
      have h2 : (k == j) = false := by simpa using fun h => hj h.symm
      by_cases h : k' = j
      · subst h
        simp [hj]
      · have : (k' == j) = false := by simpa using h
        simp only [this, h2]

theorem lookup_dictRemove {α : Type} (k k' : U32) (d : List (U32 × α)) :
    (dictRemove k d).lookup k' = if k' = k then none else d.lookup k' := by
  unfold dictRemove
  by_cases h : k' = k
  · subst h; rw [if_pos rfl, lookup_filter_self]
  · rw [if_neg h, lookup_filter_ne k k' h d]

/-! ### Wire types -/

theorem primitive_wire : (t : Ty) → wireOf t = 0 → primitive t = true
  | .uint _, _ => rfl
  | .sint _, _ => rfl
  | .bool, _ => rfl
  | .box t, h => primitive_wire t h
  | .string, h => by cases h
  | .bytes, h => by cases h
  | .vec _, h => by cases h
  | .array _ _, h => by cases h
  | .tuple _, h => by cases h
  | .option _, h => by cases h
  | .hashMap _ _, h => by cases h
  | .list _, h => by cases h
  | .map _ _, h => by cases h
  | .struct _ _ _, h => by cases h
  | .enum _ _ _ _, h => by cases h

theorem wireOf_zero_or_two : (t : Ty) → wireOf t = 0 ∨ wireOf t = 2
  | .box t => wireOf_zero_or_two t
  | .uint _ => .inl rfl
  | .sint _ => .inl rfl
  | .bool => .inl rfl
  | .string => .inr rfl
  | .bytes => .inr rfl
  | .vec _ => .inr rfl
  | .array _ _ => .inr rfl
  | .tuple _ => .inr rfl
  | .option _ => .inr rfl
  | .hashMap _ _ => .inr rfl
  | .list _ => .inr rfl
  | .map _ _ => .inr rfl
  | .struct _ _ _ => .inr rfl
  | .enum _ _ _ _ => .inr rfl

theorem csSized_eq : (t : Ty) → (t.isCsState || t.isCsString) = (wireOf t != 0)
  | .box t => csSized_eq t
  | .uint _ => rfl
  | .sint _ => rfl
  | .bool => rfl
  | .string => rfl
  | .bytes => rfl
  | .vec _ => rfl
  | .array _ _ => rfl
  | .tuple _ => rfl
  | .option _ => rfl
  | .hashMap _ _ => rfl
  | .list _ => rfl
  | .map _ _ => rfl
  | .struct _ _ _ => rfl
  | .enum _ _ _ _ => rfl

theorem csString_eq : (t : Ty) → t.isCsString = textual t
  | .box t => csString_eq t
  | .uint _ => rfl
  | .sint _ => rfl
  | .bool => rfl
  | .string => rfl
  | .bytes => rfl
  | .vec _ => rfl
  | .array _ _ => rfl
  | .tuple _ => rfl
  | .option _ => rfl
  | .hashMap _ _ => rfl
  | .list _ => rfl
  | .map _ _ => rfl
  | .struct _ _ _ => rfl
  | .enum _ _ _ _ => rfl

theorem csFieldWire_num (attrs : FieldAttrs) (t : Ty) (h : GoodField attrs t) : (csFieldWire attrs t).num = wireOf t := by
  unfold GoodField at h
  unfold csFieldWire
  by_cases hp : attrs.param = true
  · rw [if_pos hp] at h ⊢
    rw [← csString_eq] at h
    have hs := csSized_eq t
    rw [h, Bool.or_false] at hs
    rw [hs]
    rcases wireOf_zero_or_two t with h0 | h0 <;> rw [h0] <;> rfl
  · rw [if_neg hp] at h ⊢
    cases t with
    | box t =>
      simp only at h
      rcases wireOf_zero_or_two t with h0 | h0
      · rw [primitive_wire t h0] at h; cases h
      · exact h0.symm
    | _ => rfl

/-! ### What is left out is what a new object holds -/

mutual
theorem empty_shows : (t : Ty) → t.WF → Mirrored t → ∀ v, encode t v = [] → Shows t v t.csNew
  | .uint _, _, _, v, h => absurd h (leb_ne_nil _)
  | .sint _, _, _, v, h => absurd h (leb_ne_nil _)
  | .bool, _, _, v, h => absurd h (leb_ne_nil _)
  | .string, _, _, v, h => .inr ⟨rfl, h⟩
  | .bytes, _, _, v, h => Eq.symm h
  | .vec t, ht, _, v, h => by rw [flatMap_eq_nil_of_ne (framed_encode_ne t ht) h]; exact .nil
  | .array n t, ht, _, v, h => by
    have := flatMap_eq_nil_of_ne (framed_encode_ne t ht.2.2) h
    have h1 := v.2
    rw [this] at h1
    have := ht.1
    simp at h1; omega
  | .tuple _, _, hm, _, _ => hm.elim
  | .option t, ht, _, none, h => .none
  | .option t, ht, _, some x, h => by
    simp only [encode, Option.toList_some, List.flatMap_cons, List.flatMap_nil, List.append_nil] at h
    exact absurd h (framed_encode_ne t ht _)
  | .box t, ht, hm, v, h => empty_shows t ht hm v h
  | .hashMap _ _, _, hm, _, _ => hm.elim
  | .list t, ht, _, v, h => by
    have : v.items = [] := flatMap_eq_nil_of_ne (framed_encode_ne t ht.2) h
    simp only [Shows, this]; exact .nil
  | .map kt t, ht, _, v, h => by
    have : v.entries = [] := flatMap_eq_nil_of_ne
      (f := fun e : U32 × t.El => leb (e.1.toNat * 8 + wireOf t) ++ framed (wireOf t) (encode t e.2))
      (fun e he => leb_ne_nil _ (List.append_eq_nil_iff.1 he).1) h
    simp only [Shows, this]; exact fun _ => .none
  | .struct ds cached fs, ht, hm, v, h => empty_showsFields fs ds ht.2 hm v.fields h
  | .enum _ _ fs vs, ht, _, ⟨_, .inl x⟩, h => by
    simp only [encode, List.append_eq_nil_iff] at h
    exact absurd h.1 (leb_ne_nil _)
  | .enum _ _ fs vs, ht, _, ⟨_, .inr x⟩, h => absurd h (encodeVariant_ne vs x)

theorem empty_showsFields : (fs : Fields) → (ds : Bool) → fs.WF ds → MirroredFields fs → ∀ v, encodeFields fs v = [] →
    ShowsFields fs v fs.csNew
  | .nil, _, _, _, _, _ => trivial
  | .cons tag attrs t fs, ds, hf, hm, v, h => by
    simp only [encodeFields, List.append_eq_nil_iff] at h
    have hlo : leftOut t v.1 (encode t v.1) = true := by
      have h1 := h.1
      split at h1
      · assumption
      · simp only [List.append_eq_nil_iff] at h1
        exact absurd h1.1 (leb_ne_nil _)
    exact ⟨leftOut_shows t hf.2.2.1 hm.2.1 v.1 hlo, empty_showsFields fs ds hf.2.2.2 hm.2.2 v.2 h.2⟩

theorem leftOut_shows : (t : Ty) → t.WF → Mirrored t → ∀ v, leftOut t v (encode t v) = true → Shows t v t.csNew
  | .uint _, _, _, v, h => ((by simpa [leftOut] using h : v = 0)).symm
  | .sint _, _, _, v, h => ((by simpa [leftOut] using h : v = 0)).symm
  | .bool, _, _, v, h => ((by simpa [leftOut] using h : v = false)).symm
  | .string, ht, hm, v, h => empty_shows _ ht hm v (List.isEmpty_iff.1 h)
  | .bytes, ht, hm, v, h => empty_shows _ ht hm v (List.isEmpty_iff.1 h)
  | .vec t, ht, hm, v, h => empty_shows (.vec t) ht hm v (List.isEmpty_iff.1 h)
  | .array n t, ht, hm, v, h => empty_shows (.array n t) ht hm v (List.isEmpty_iff.1 h)
  | .tuple ts, ht, hm, v, h => empty_shows (.tuple ts) ht hm v (List.isEmpty_iff.1 h)
  | .option t, ht, hm, v, h => empty_shows (.option t) ht hm v (List.isEmpty_iff.1 h)
  | .box t, ht, hm, v, h => empty_shows (.box t) ht hm v (List.isEmpty_iff.1 h)
  | .hashMap k w, ht, hm, v, h => empty_shows (.hashMap k w) ht hm v (List.isEmpty_iff.1 h)
  | .list t, ht, hm, v, h => empty_shows (.list t) ht hm v (List.isEmpty_iff.1 h)
  | .map k t, ht, hm, v, h => empty_shows (.map k t) ht hm v (List.isEmpty_iff.1 h)
  | .struct ds c fs, ht, hm, v, h => empty_shows (.struct ds c fs) ht hm v (List.isEmpty_iff.1 h)
  | .enum ds c fs vs, ht, hm, v, h => empty_shows (.enum ds c fs vs) ht hm v (List.isEmpty_iff.1 h)
end

/-! ### Reading -/

/-- `c` is what C# reads where Rust wrote `v`. A sized value has a reader of its own. -/
def Reads (ρ : Bytes → Str) (t : Ty) (v : t.El) (c : t.Cs) : Prop :=
  ∀ rest, (wireOf t ≠ 0 → rest = []) → t.csDeserialize ρ (encode t v ++ rest) = .ok (c, rest)

/-- All legible values can be read. -/
def Readable (ρ : Bytes → Str) (t : Ty) : Prop :=
  ∀ v, Legible t v → (encode t v).length < 2 ^ 31 → ∃ c, Shows t v c ∧ Reads ρ t v c

theorem framed_length (t : Ty) (v : t.El) : (encode t v).length ≤ (framed (wireOf t) (encode t v)).length := by
  unfold framed; split
  · exact Nat.le_refl _
  · rw [List.length_append]; omega

theorem Reads.nested {ρ : Bytes → Str} {t : Ty} {v : t.El} {c : t.Cs} (h : Reads ρ t v c)
    (hlen : (encode t v).length < 2 ^ 31) (rest : Bytes) :
    csNested (t.isCsState || t.isCsString) (fun bs => t.csDeserialize ρ bs) (framed (wireOf t) (encode t v) ++ rest) =
      .ok (c, rest) := by
  unfold csNested framed
  rw [csSized_eq]
  by_cases hw : wireOf t = 0
  · rw [hw, if_pos rfl, if_neg (by simp)]
    exact h rest (fun h => absurd hw h)
  · have h0 := h [] (fun _ => rfl)
    rw [List.append_nil] at h0
    rw [if_neg hw, if_pos (by simpa using hw), csGetNested_framed _ _ hlen]
    simp only [bind, Except.bind, h0]

theorem reads_items {ρ : Bytes → Str} {t : Ty} (ht : t.WF) (ih : Readable ρ t) : ∀ (xs : List t.El) (acc : List t.Cs),
    (∀ x ∈ xs, Legible t x) → (xs.flatMap (fun x => framed (wireOf t) (encode t x))).length < 2 ^ 31 →
    ∃ cs, List.Forall₂ (Shows t) xs cs ∧
      Eats (csAddItem (csNested (t.isCsState || t.isCsString) (fun bs => t.csDeserialize ρ bs))) acc
        (xs.flatMap (fun x => framed (wireOf t) (encode t x))) (acc ++ cs)
  | [], acc, _, _ => ⟨[], .nil, by rw [List.append_nil]; exact .refl _⟩
  | x :: xs, acc, hl, hlen => by
    rw [List.flatMap_cons] at hlen ⊢
    rw [List.length_append] at hlen
    have hx := framed_length t x
    obtain ⟨c, h1, h2⟩ := ih x (hl x (by simp)) (by omega)
    obtain ⟨cs, h3, h4⟩ := reads_items ht ih xs (acc ++ [c]) (fun y hy => hl y (by simp [hy])) (by omega)
    refine ⟨c :: cs, .cons h1 h3, ?_⟩
    rw [show acc ++ c :: cs = acc ++ [c] ++ cs by simp]
    refine Eats.trans (.one (framed_encode_ne t ht x) (fun rest => ?_)) h4
    simp only [csAddItem, h2.nested (by omega), bind, Except.bind]

theorem wire_exists (t : Ty) : ∃ w : WireType, w.num = wireOf t := by
  rcases wireOf_zero_or_two t with h | h
  · exact ⟨.varint, h.symm⟩
  · exact ⟨.sized, h.symm⟩

theorem reads_entries {ρ : Bytes → Str} {t : Ty} (ih : Readable ρ t) : ∀ (es : List (U32 × t.El)) (d : List (U32 × t.Cs)),
    (∀ e ∈ es, e.1.toNat < 2 ^ 29 ∧ Legible t e.2) → (es.map (·.1)).Nodup →
    (es.flatMap (fun e => leb (e.1.toNat * 8 + wireOf t) ++ framed (wireOf t) (encode t e.2))).length < 2 ^ 31 →
    ∃ d', Eats (csAddEntry (csNested (t.isCsState || t.isCsString) (fun bs => t.csDeserialize ρ bs))) d
        (es.flatMap (fun e => leb (e.1.toNat * 8 + wireOf t) ++ framed (wireOf t) (encode t e.2))) d' ∧
      ∀ k, (es.lookup k = none → d'.lookup k = d.lookup k) ∧
        ∀ x, es.lookup k = some x → ∃ c, d'.lookup k = some c ∧ Shows t x c
  | [], d, _, _, _ => ⟨d, .refl _, fun k => ⟨fun _ => rfl, fun x h => by cases h⟩⟩
  | (i, x) :: es, d, hl, hn, hlen => by
    rw [List.flatMap_cons] at hlen ⊢
    rw [List.length_append, List.length_append] at hlen
    have hx := framed_length t x
    dsimp only at hlen
    rw [List.map_cons, List.nodup_cons] at hn
    obtain ⟨c, h1, h2⟩ := ih x (hl (i, x) (by simp)).2 (by omega)
    obtain ⟨d', h3, h4⟩ := reads_entries ih es (dictSet i c d) (fun y hy => hl y (by simp [hy])) hn.2 (by omega)
    obtain ⟨w, hw⟩ := wire_exists t
    refine ⟨d', Eats.trans (.one (fun h => leb_ne_nil _ (List.append_eq_nil_iff.1 h).1) (fun rest => ?_)) h3, fun k => ?_⟩
    · have hk := csReadKey_leb i w (hl (i, x) (by simp)).1 (framed (wireOf t) (encode t x) ++ rest)
      rw [hw] at hk
      simp only [csAddEntry, List.append_assoc, hk, h2.nested (show (encode t x).length < 2 ^ 31 by omega), bind, Except.bind]
    · rw [List.lookup_cons]
      obtain ⟨h5, h6⟩ := h4 k
      by_cases hk : k = i
      · subst hk
        have hnone : es.lookup k = none := by
          rw [List.lookup_eq_none_iff]
          intro p hp
          have : p.1 ∈ es.map (·.1) := List.mem_map_of_mem hp
          exact bne_iff_ne.2 fun he => hn.1 (he ▸ this)
        have := h5 hnone
        rw [lookup_dictSet, if_pos rfl] at this
        rw [beq_self_eq_true]
        exact ⟨fun h => by simp at h, fun y hy => by cases hy; exact ⟨c, this, h1⟩⟩
      · have : (k == i) = false := by simpa using hk
        simp only [this]
        refine ⟨fun h => ?_, h6⟩
        rw [h5 h, lookup_dictSet, if_neg hk]

/-- Reading the fields of a message that starts with fields already read: `g` puts what is read of `fs` into the message. -/
def ReadableFields (ρ : Bytes → Str) (fs : Fields) : Prop :=
  ∀ (σ : Type) (getWire : U32 → Option WireType) (replaceAt : U32 → WireType → Bytes → σ → Except Exn (σ × Bytes))
    (g : fs.Cs → σ),
    (∀ tag ∈ fs.tags, getWire tag = fs.csGetWireType tag ∧ ∀ wire bs y, replaceAt tag wire bs (g y) =
      (fs.csReplaceAt ρ tag wire bs y).map (fun r => (g r.1, r.2))) →
    ∀ v, LegibleFields fs v → (encodeFields fs v).length < 2 ^ 31 → ∃ c, ShowsFields fs v c ∧
      Eats (csReplaceStep getWire replaceAt) (g fs.csNew) (encodeFields fs v) (g c)

theorem ReadableFields.done {ρ : Bytes → Str} {fs : Fields} (h : ReadableFields ρ fs) {v : fs.El}
    (hl : LegibleFields fs v) (hlen : (encodeFields fs v).length < 2 ^ 31) : ∃ c, ShowsFields fs v c ∧
      untilEnd (csReplaceStep fs.csGetWireType (fun tag wire bs v => fs.csReplaceAt ρ tag wire bs v))
        (encodeFields fs v).length fs.csNew (encodeFields fs v) = .ok c := by
  obtain ⟨c, h1, h2⟩ := h _ fs.csGetWireType (fun tag wire bs v => fs.csReplaceAt ρ tag wire bs v) id
    (fun tag _ => ⟨rfl, fun wire bs y => by
      cases h : fs.csReplaceAt ρ tag wire bs y with
      | error e => simp only [id, h]; rfl
      | ok r => simp only [id, h]; rfl⟩) v hl hlen
  exact ⟨c, h1, h2.done⟩

/-- One round of the loop of `Replace` on a field that is written. -/
theorem reads_field {ρ : Bytes → Str} {tag : U32} {attrs : FieldAttrs} {t : Ty} {fs : Fields} (htag : tag.toNat < 2 ^ 29)
    (hg : GoodField attrs t) {σ : Type} {getWire : U32 → Option WireType}
    {replaceAt : U32 → WireType → Bytes → σ → Except Exn (σ × Bytes)} {g : (Fields.cons tag attrs t fs).Cs → σ}
    (hgw : getWire tag = (Fields.cons tag attrs t fs).csGetWireType tag)
    (hrep : ∀ wire bs y, replaceAt tag wire bs (g y) =
      ((Fields.cons tag attrs t fs).csReplaceAt ρ tag wire bs y).map (fun r => (g r.1, r.2)))
    {v : t.El} {c : t.Cs} (h3 : Reads ρ t v c) (h1 : (encode t v).length < 2 ^ 31) (rest : Bytes) :
    csReplaceStep getWire replaceAt (g (t.csNew, fs.csNew))
      (leb (tag.toNat * 8 + wireOf t) ++ framed (wireOf t) (encode t v) ++ rest) = .ok (g (c, fs.csNew), rest) := by
  have hw := csFieldWire_num attrs t hg
  have hk := csReadKey_leb tag (csFieldWire attrs t) htag (framed (wireOf t) (encode t v) ++ rest)
  rw [hw] at hk
  rw [show (Fields.cons tag attrs t fs).csGetWireType tag = some (csFieldWire attrs t) by
    simp [Fields.csGetWireType]] at hgw
  have hrep' : ∀ wire bs x r, t.csDeserialize ρ bs = .ok (x, r) →
      replaceAt tag wire bs (g (t.csNew, fs.csNew)) = .ok (g (x, fs.csNew), r) := by
    intro wire bs x r hx
    rw [hrep wire bs (t.csNew, fs.csNew)]
    simp only [Fields.csReplaceAt, if_pos, hx, bind, Except.bind, Except.map]
  unfold csReplaceStep
  rw [List.append_assoc, hk]
  cases hcw : csFieldWire attrs t with
  | varint =>
    have h0 : wireOf t = 0 := by rw [← hw, hcw]; rfl
    have := h3 rest (fun h => absurd h0 h)
    simp only [bind, Except.bind, hgw, hcw, framed, h0, if_true]
    simp only [Option.some.injEq, reduceCtorEq, if_false]
    exact hrep' _ _ _ _ this
  | sized =>
    have h0 : wireOf t = 2 := by rw [← hw, hcw]; rfl
    have := h3 [] (fun _ => rfl)
    rw [List.append_nil] at this
    simp only [bind, Except.bind, hgw, hcw, framed, h0]
    rw [if_neg (by decide), csGetNested_framed _ _ h1]
    simp only [Option.some.injEq, reduceCtorEq, if_false]
    rw [hrep' _ _ _ _ this]

/-- The rest of the message, once the first field has been read. -/
theorem rest_fields {ρ : Bytes → Str} {tag : U32} {attrs : FieldAttrs} {t : Ty} {fs : Fields} (hn : tag ∉ fs.tags) {σ : Type}
    {getWire : U32 → Option WireType} {replaceAt : U32 → WireType → Bytes → σ → Except Exn (σ × Bytes)}
    {g : (Fields.cons tag attrs t fs).Cs → σ}
    (hS : ∀ tag' ∈ (Fields.cons tag attrs t fs).tags, getWire tag' = (Fields.cons tag attrs t fs).csGetWireType tag' ∧
      ∀ wire bs y, replaceAt tag' wire bs (g y) =
        ((Fields.cons tag attrs t fs).csReplaceAt ρ tag' wire bs y).map (fun r => (g r.1, r.2)))
    (c : t.Cs) : ∀ tag' ∈ fs.tags, getWire tag' = fs.csGetWireType tag' ∧ ∀ wire bs y, replaceAt tag' wire bs (g (c, y)) =
      (fs.csReplaceAt ρ tag' wire bs y).map (fun r => (g (c, r.1), r.2)) := by
  intro tag' ht'
  have hne : tag' ≠ tag := fun h => hn (h ▸ ht')
  obtain ⟨hgw, hrep⟩ := hS tag' (by simp [Fields.tags, ht'])
  refine ⟨by rw [hgw]; simp [Fields.csGetWireType, hne], fun wire bs y => ?_⟩
  rw [hrep wire bs (c, y)]
  simp only [Fields.csReplaceAt, if_neg hne]
  cases fs.csReplaceAt ρ tag' wire bs y <;> rfl

theorem readable_cons {ρ : Bytes → Str} {tag : U32} {attrs : FieldAttrs} {t : Ty} {fs : Fields} (htag : tag.toNat < 2 ^ 29)
    (hn : tag ∉ fs.tags) (ht : t.WF) (hm : Mirrored t) (hg : GoodField attrs t) (ih : Readable ρ t)
    (ihs : ReadableFields ρ fs) : ReadableFields ρ (.cons tag attrs t fs) := by
  intro σ getWire replaceAt g hS v hl hlen
  -- the first field
  have first : ∃ c, Shows t v.1 c ∧ Eats (csReplaceStep getWire replaceAt) (g (t.csNew, fs.csNew))
      (if leftOut t v.1 (encode t v.1) then []
      else leb (tag.toNat * 8 + wireOf t) ++ framed (wireOf t) (encode t v.1)) (g (c, fs.csNew)) := by
    by_cases hlo : leftOut t v.1 (encode t v.1) = true
    · rw [if_pos hlo]
      exact ⟨t.csNew, leftOut_shows t ht hm v.1 hlo, .refl _⟩
    · have h1 : (encode t v.1).length < 2 ^ 31 := by
        simp only [encodeFields, if_neg hlo, List.length_append] at hlen
        have := framed_length t v.1
        omega
      obtain ⟨c, h2, h3⟩ := ih v.1 hl.1 h1
      rw [if_neg hlo]
      obtain ⟨hgw, hrep⟩ := hS tag (by simp [Fields.tags])
      exact ⟨c, h2, .one (fun h => leb_ne_nil _ (List.append_eq_nil_iff.1 h).1)
        (fun rest => reads_field htag hg hgw hrep h3 h1 rest)⟩
  obtain ⟨c, h1, h2⟩ := first
  obtain ⟨c', h3, h4⟩ := ihs _ getWire replaceAt (fun y => g (c, y)) (rest_fields hn hS c) v.2 hl.2 (by
      simp only [encodeFields, List.length_append] at hlen; omega)
  exact ⟨(c, c'), ⟨h1, h3⟩, h2.trans h4⟩

/-- All legible variants can be read. -/
def ReadableVariants (ρ : Bytes → Str) (vs : Variants) : Prop :=
  ∀ v, LegibleVariant vs v → (encodeVariant vs v).length < 2 ^ 31 → ∃ (tag : U32) (payload : Bytes) (c : vs.Cs),
    tag ∈ vs.tags ∧ encodeVariant vs v = leb tag.toNat ++ payload ∧ vs.csVariant ρ tag payload = .ok (some c) ∧
    ShowsVariant vs v c

theorem csGetString_str (ρ : Bytes → Str) (v : Str) : csGetString ρ v.bytes = v := by
  unfold csGetString
  rw [dif_pos v.valid]

mutual
theorem readable (ρ : Bytes → Str) : (t : Ty) → t.WF → Mirrored t → Readable ρ t
  | .uint w, _, _ => fun v _ _ => ⟨v, rfl, fun rest _ => csReadUInt_leb w v rest⟩
  | .sint w, _, _ => fun v hl _ => ⟨v, rfl, fun rest _ => csReadSInt_leb w v rest hl⟩
  | .bool, _, _ => fun v _ _ => ⟨v, rfl, fun rest _ => csReadBoolean_leb v rest⟩
  | .string, _, _ => fun v _ _ => ⟨some v, .inl rfl, fun rest hr => by
      rw [hr (show (2 : Nat) ≠ 0 by decide), List.append_nil]
      show Except.ok (some (csGetString ρ v.bytes), []) = _
      rw [csGetString_str]⟩
  | .bytes, _, _ => fun v _ _ => ⟨v, rfl, fun rest hr => by
      rw [hr (show (2 : Nat) ≠ 0 by decide), List.append_nil]; rfl⟩
  | .vec t, ht, hm => fun v hl hlen => by
    obtain ⟨cs, h1, h2⟩ := reads_items (t := t) ht (readable ρ t ht hm) v [] hl hlen
    refine ⟨cs, h1, fun rest hr => ?_⟩
    rw [hr (show (2 : Nat) ≠ 0 by decide), List.append_nil]
    simp only [Ty.csDeserialize, encode, h2.done, bind, Except.bind, List.nil_append]
  | .array _ t, ht, hm => fun v hl hlen => by
    obtain ⟨cs, h1, h2⟩ := reads_items ht.2.2 (readable ρ t ht.2.2 hm) v.1 [] hl hlen
    refine ⟨cs, h1, fun rest hr => ?_⟩
    rw [hr (show (2 : Nat) ≠ 0 by decide), List.append_nil]
    simp only [Ty.csDeserialize, encode, h2.done, bind, Except.bind, List.nil_append]
  | .tuple _, _, hm => hm.elim
  | .option t, ht, hm => fun v hl hlen => by
    cases v with
    | none =>
      refine ⟨none, .none, fun rest hr => ?_⟩
      rw [hr (show (2 : Nat) ≠ 0 by decide)]
      rfl
    | some x =>
      have hlen' : (framed (wireOf t) (encode t x)).length < 2 ^ 31 := by
        simpa only [encode, Option.toList_some, List.flatMap_cons, List.flatMap_nil, List.append_nil] using hlen
      have := framed_length t x
      obtain ⟨c, h1, h2⟩ := readable ρ t ht hm x (hl x rfl) (by omega)
      refine ⟨some c, .some h1, fun rest hr => ?_⟩
      have := h2.nested (by omega) []
      rw [List.append_nil] at this
      rw [hr (show (2 : Nat) ≠ 0 by decide), List.append_nil]
      simp only [Ty.csDeserialize, encode, Option.toList_some, List.flatMap_cons, List.flatMap_nil, List.append_nil]
      rw [if_neg (framed_encode_ne t ht x), this]
      rfl
  | .box t, ht, hm => fun v hl hlen => readable ρ t ht hm v hl hlen
  | .hashMap _ _, _, hm => hm.elim
  | .list t, ht, hm => fun v hl hlen => by
    obtain ⟨cs, h1, h2⟩ := reads_items ht.2 (readable ρ t ht.2 hm) v.items [] hl hlen
    refine ⟨cs, h1, fun rest hr => ?_⟩
    rw [hr (show (2 : Nat) ≠ 0 by decide), List.append_nil]
    simp only [Ty.csDeserialize, encode, h2.done, bind, Except.bind, List.nil_append]
  | .map _ t, ht, hm => fun v hl hlen => by
    obtain ⟨d, h1, h2⟩ := reads_entries (readable ρ t ht.2 hm) v.entries [] hl.1 hl.2 hlen
    refine ⟨d, fun k => ?_, fun rest hr => ?_⟩
    · obtain ⟨h3, h4⟩ := h2 k
      cases h : v.entries.lookup k with
      | none => rw [h3 h]; exact .none
      | some x =>
        obtain ⟨c, h5, h6⟩ := h4 x h
        rw [h5]
        exact .some h6
    · rw [hr (show (2 : Nat) ≠ 0 by decide), List.append_nil]
      simp only [Ty.csDeserialize, encode, h1.done, bind, Except.bind]
  | .struct ds _ fs, ht, hm => fun v hl hlen => by
    obtain ⟨c, h1, h2⟩ := (readableFields ρ fs ds ht.1 ht.2 hm).done hl hlen
    refine ⟨c, h1, fun rest hr => ?_⟩
    rw [hr (show (2 : Nat) ≠ 0 by decide), List.append_nil]
    simp only [Ty.csDeserialize, encode, h2, bind, Except.bind]
  | .enum ds _ fs vs, ht, hm => fun ⟨rt, v⟩ hl hlen => by
    cases v with
    | inl x =>
      obtain ⟨c, h1, h2⟩ := (readableFields ρ fs ds ht.1 ht.2.1 hm.1).done hl (by
        simp only [encode, List.length_append] at hlen; omega)
      refine ⟨.inl c, h1, fun rest hr => ?_⟩
      rw [hr (show (2 : Nat) ≠ 0 by decide), List.append_nil]
      simp only [Ty.csDeserialize, encode, csReadUInt32_leb 0 _ (by decide), bind, Except.bind, if_true, h2]
    | inr x =>
      obtain ⟨tag, payload, c, h1, h2, h3, h4⟩ := readableVariants ρ vs ds ht.2.2.1 ht.2.2.2.2 hm.2 x hl hlen
      refine ⟨.inr c, h4, fun rest hr => ?_⟩
      have hne : tag ≠ 0#32 := fun h => ht.2.2.2.1 (h ▸ h1)
      rw [hr (show (2 : Nat) ≠ 0 by decide), List.append_nil]
      simp only [Ty.csDeserialize, encode, h2, csReadUInt32_leb _ _ tag.isLt, bind, Except.bind, BitVec.ofNat_toNat,
        BitVec.setWidth_eq, if_neg hne, h3]

theorem readableFields (ρ : Bytes → Str) : (fs : Fields) → (ds : Bool) → fs.tags.Nodup → fs.WF ds → MirroredFields fs →
    ReadableFields ρ fs
  | .nil, _, _, _, _ => fun _ _ _ g _ _ _ _ => ⟨(), trivial, .refl _⟩
  | .cons _ _ t fs, ds, hn, h, hm =>
    readable_cons (tag_lt h.1) (List.nodup_cons.1 hn).1 h.2.2.1 hm.2.1 hm.1 (readable ρ t h.2.2.1 hm.2.1)
      (readableFields ρ fs ds (List.nodup_cons.1 hn).2 h.2.2.2 hm.2.2)

theorem readableVariants (ρ : Bytes → Str) : (vs : Variants) → (ds : Bool) → vs.tags.Nodup → vs.WF ds →
    MirroredVariants vs → ReadableVariants ρ vs
  | .nil, _, _, _, _ => fun v => nomatch v
  | .cons tag _ fs vs, ds, hn, h, hm => fun v hl hlen => by
    cases v with
    | inl x =>
      obtain ⟨c, h1, h2⟩ := (readableFields ρ fs ds h.2.1 h.2.2.1 hm.1).done hl (by
        simp only [encodeVariant, List.length_append] at hlen; omega)
      refine ⟨tag, encodeFields fs x, .inl c, by simp [Variants.tags], rfl, ?_, h1⟩
      simp only [Variants.csVariant, if_true, h2, bind, Except.bind]
    | inr x =>
      obtain ⟨tag', payload, c, h1, h2, h3, h4⟩ := readableVariants ρ vs ds (List.nodup_cons.1 hn).2 h.2.2.2 hm.2 x hl hlen
      have hne : tag' ≠ tag := fun h => (List.nodup_cons.1 hn).1 (h ▸ h1)
      refine ⟨tag', payload, .inr c, by simp [Variants.tags, h1], h2, ?_, h4⟩
      simp only [Variants.csVariant, if_neg hne, h3, bind, Except.bind, Option.map_some]
end

/-! ### Carried values are legible -/

mutual
theorem carried_legible : (t : Ty) → ∀ v, Carried t v → Legible t v
  | .uint _, _, _ => trivial
  | .sint _, _, h => fun hw => by subst hw; exact h
  | .bool, _, _ => trivial
  | .string, _, _ => trivial
  | .bytes, _, _ => trivial
  | .vec t, _, h => fun x hx => carried_legible t x (h x hx)
  | .array _ t, _, h => fun x hx => carried_legible t x (h x hx)
  | .tuple ts, v, h => carried_legibleTuple ts v h
  | .option t, _, h => fun x hx => carried_legible t x (h x hx)
  | .box t, v, h => carried_legible t v h
  | .hashMap k w, _, h => fun e he => ⟨carried_legible k e.1 (h.1 e he).1, carried_legible w e.2 (h.1 e he).2⟩
  | .list t, _, h => fun x hx => carried_legible t x (h x hx)
  | .map _ t, _, h => ⟨fun e he => ⟨(h.1 e he).2.1, carried_legible t e.2 (h.1 e he).2.2⟩, h.2⟩
  | .struct _ _ fs, v, h => carried_legibleFields fs v.fields h
  | .enum _ _ fs _, ⟨_, .inl x⟩, h => carried_legibleFields fs x h
  | .enum _ _ _ vs, ⟨_, .inr x⟩, h => carried_legibleVariant vs x h

theorem carried_legibleTuple : (ts : Tys) → ∀ v, CarriedTuple ts v → LegibleTuple ts v
  | .nil, _, _ => trivial
  | .cons t ts, v, h => ⟨carried_legible t v.1 h.1, carried_legibleTuple ts v.2 h.2⟩

theorem carried_legibleFields : (fs : Fields) → ∀ v, CarriedFields fs v → LegibleFields fs v
  | .nil, _, _ => trivial
  | .cons _ _ t fs, v, h => ⟨carried_legible t v.1 h.1, carried_legibleFields fs v.2 h.2⟩

theorem carried_legibleVariant : (vs : Variants) → ∀ v, CarriedVariant vs v → LegibleVariant vs v
  | .nil, v, _ => nomatch v
  | .cons _ _ fs _, .inl x, h => carried_legibleFields fs x h
  | .cons _ _ _ vs, .inr x, h => carried_legibleVariant vs x h
end

mutual
/-- Map keys of legible values can be written. -/
theorem legible_writable : (t : Ty) → Mirrored t → ∀ v, Legible t v → Writable t v
  | .uint _, _, _, _ => trivial
  | .sint _, _, _, _ => trivial
  | .bool, _, _, _ => trivial
  | .string, _, _, _ => trivial
  | .bytes, _, _, _ => trivial
  | .vec t, hm, _, h => fun x hx => legible_writable t hm x (h x hx)
  | .array _ t, hm, _, h => fun x hx => legible_writable t hm x (h x hx)
  | .tuple _, hm, _, _ => hm.elim
  | .option t, hm, _, h => fun x hx => legible_writable t hm x (h x hx)
  | .box t, hm, v, h => legible_writable t hm v h
  | .hashMap _ _, hm, _, _ => hm.elim
  | .list t, hm, _, h => fun x hx => legible_writable t hm x (h x hx)
  | .map _ t, hm, _, h => fun e he => ⟨(h.1 e he).1, legible_writable t hm e.2 (h.1 e he).2⟩
  | .struct _ _ fs, hm, v, h => legible_writableFields fs hm v.fields h
  | .enum _ _ fs _, hm, ⟨_, .inl x⟩, h => legible_writableFields fs hm.1 x h
  | .enum _ _ _ vs, hm, ⟨_, .inr x⟩, h => legible_writableVariant vs hm.2 x h

theorem legible_writableFields : (fs : Fields) → MirroredFields fs → ∀ v, LegibleFields fs v → WritableFields fs v
  | .nil, _, _, _ => trivial
  | .cons _ _ t fs, hm, v, h => ⟨legible_writable t hm.2.1 v.1 h.1, legible_writableFields fs hm.2.2 v.2 h.2⟩

theorem legible_writableVariant : (vs : Variants) → MirroredVariants vs → ∀ v, LegibleVariant vs v → WritableVariant vs v
  | .nil, _, v, _ => nomatch v
  | .cons _ _ fs _, hm, .inl x, h => legible_writableFields fs hm.1 x h
  | .cons _ _ _ vs, hm, .inr x, h => legible_writableVariant vs hm.2 x h
end

/-! ### Runtimes do not show -/

theorem forall₂_map_same {α β : Type} {R : α → β → Prop} {f : α → α} (h : ∀ x y, R (f x) y = R x y) (xs : List α) (ys : List β) :
    List.Forall₂ R (xs.map f) ys = List.Forall₂ R xs ys := by
  rw [List.forall₂_map_left_iff]
  congr 1
  funext x y
  exact h x y

theorem rel_map_same {α β : Type} {R : α → β → Prop} {f : α → α} (h : ∀ x y, R (f x) y = R x y) (x : Option α) (y : Option β) :
    Option.Rel R (x.map f) y = Option.Rel R x y := by
  apply propext
  cases x <;> cases y
  · exact Iff.rfl
  · constructor <;> intro h <;> cases h
  · constructor <;> intro h <;> cases h
  · constructor
    · rintro (h' | _); exact .some (h _ _ ▸ h')
    · rintro (h' | _); exact .some ((h _ _).symm ▸ h')

theorem lookup_map {α β : Type} (f : α → β) (k : U32) : ∀ es : List (U32 × α),
    (es.map (fun e => (e.1, f e.2))).lookup k = (es.lookup k).map f
  | [] => rfl
  | e :: es => by
    rw [List.map_cons, List.lookup_cons, List.lookup_cons, lookup_map f k es]
    cases k == e.1 <;> rfl

mutual
theorem shows_strip : (t : Ty) → ∀ v c, Shows t (strip t v) c = Shows t v c
  | .uint _, _, _ => rfl
  | .sint _, _, _ => rfl
  | .bool, _, _ => rfl
  | .string, _, _ => rfl
  | .bytes, _, _ => rfl
  | .vec t, v, c => forall₂_map_same (shows_strip t) v c
  | .array _ t, v, c => forall₂_map_same (shows_strip t) v.1 c
  | .tuple _, _, _ => rfl
  | .option t, v, c => rel_map_same (shows_strip t) v c
  | .box t, v, c => shows_strip t v c
  | .hashMap _ _, _, _ => rfl
  | .list t, v, c => forall₂_map_same (shows_strip t) v.items c
  | .map _ t, v, c => by
    simp only [Shows, strip, lookup_map, rel_map_same (shows_strip t)]
  | .struct _ _ fs, v, c => shows_stripFields fs v.fields c
  | .enum _ _ fs _, ⟨_, .inl x⟩, .inl y => shows_stripFields fs x y
  | .enum _ _ _ _, ⟨_, .inl _⟩, .inr _ => rfl
  | .enum _ _ _ _, ⟨_, .inr _⟩, .inl _ => rfl
  | .enum _ _ _ vs, ⟨_, .inr x⟩, .inr y => shows_stripVariant vs x y

theorem shows_stripFields : (fs : Fields) → ∀ v c, ShowsFields fs (stripFields fs v) c = ShowsFields fs v c
  | .nil, _, _ => rfl
  | .cons _ _ t fs, v, c => by
    simp only [ShowsFields, stripFields, shows_strip t, shows_stripFields fs]

theorem shows_stripVariant : (vs : Variants) → ∀ v c, ShowsVariant vs (stripVariant vs v) c = ShowsVariant vs v c
  | .nil, v, _ => nomatch v
  | .cons _ _ fs _, .inl x, .inl y => shows_stripFields fs x y
  | .cons _ _ _ _, .inl _, .inr _ => rfl
  | .cons _ _ _ _, .inr _, .inl _ => rfl
  | .cons _ _ _ vs, .inr x, .inr y => shows_stripVariant vs x y
end

theorem shows_same {t : Ty} {a b : t.El} (h : Same t a b) (c : t.Cs) : Shows t a c ↔ Shows t b c := by
  rw [← shows_strip t a c, show strip t a = strip t b from h, shows_strip t b c]

end Steit
