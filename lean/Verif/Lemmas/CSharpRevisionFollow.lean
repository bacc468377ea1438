import Verif.Lemmas.CSharpRevision
import Verif.Lemmas.CSharpFollow
import Verif.Lemmas.RevisionFollow

/-! # A C# client with another revision of the type does what entries say -/

namespace Steit
open Spec

/-! ### What can be carried can be read -/

mutual
theorem carried_legibleRev : (r : Rev) → Mirrored r.rd → ∀ v, Carried r.wr v → LegibleRev r v
  | .same t, _, v, h => carried_legible t v h
  | .uint _ _, _, _, _ => trivial
  | .sint w _, _, v, h => fun hw => by subst hw; exact h
  | .flag _, _, _, _ => trivial
  | .hide _, _, _, _ => trivial
  | .vec r, hm, _, h => fun x hx => carried_legibleRev r hm x (h x hx)
  | .array _ r, hm, _, h => fun x hx => carried_legibleRev r hm x (h x hx)
  | .tuple _, hm, _, _ => hm.elim
  | .option r, hm, _, h => fun x hx => carried_legibleRev r hm x (h x hx)
  | .box r, hm, v, h => carried_legibleRev r hm v h
  | .hashMap _ _, hm, _, _ => hm.elim
  | .list r, hm, _, h => fun x hx => carried_legibleRev r hm x (h x hx)
  | .map _ _ r, hm, _, h => ⟨fun e he => ⟨(h.1 e he).2.1, carried_legibleRev r hm e.2 (h.1 e he).2.2⟩, h.2⟩
  | .vecList r, hm, _, h => fun x hx => carried_legibleRev r hm x (h x hx)
  | .listVec r, hm, _, h => fun x hx => carried_legibleRev r hm x (h x hx)
  | .optionVec r, hm, _, h => fun x hx => carried_legibleRev r hm x (h x hx)
  | .boxed r, hm, v, h => carried_legibleRev r hm v h
  | .unboxed r, hm, v, h => carried_legibleRev r hm v h
  | .struct _ _ _ _ fs, hm, v, h => carried_legibleRevFields fs hm v.fields h
  | .enum _ _ _ _ fs _, hm, ⟨_, .inl x⟩, h => carried_legibleRevFields fs hm.1 x h
  | .enum _ _ _ _ _ vs, hm, ⟨_, .inr x⟩, h => carried_legibleRevVariant vs hm.2 x h

theorem carried_legibleRevFields : (fs : RevFields) → MirroredFields fs.rd → ∀ v, CarriedFields fs.wr v → LegibleRevFields fs v
  | .nil, _, _, _ => trivial
  | .keep _ _ _ r fs, hm, v, h => ⟨carried_legibleRev r hm.2.1 v.1 h.1, carried_legibleRevFields fs hm.2.2 v.2 h.2⟩
  | .add _ _ _ fs, hm, v, h => carried_legibleRevFields fs hm v.2 h.2
  | .drop _ _ _ fs, hm, v, h => carried_legibleRevFields fs hm.2.2 v h
  | .retype _ _ _ _ _ fs, hm, v, h => carried_legibleRevFields fs hm.2.2 v.2 h.2

theorem carried_legibleRevVariant : (vs : RevVariants) → MirroredVariants vs.rd → ∀ v, CarriedVariant vs.wr v → LegibleRevVariant vs v
  | .nil, _, v, _ => nomatch v
  | .keep _ _ _ fs _, hm, .inl x, h => carried_legibleRevFields fs hm.1 x h
  | .keep _ _ _ _ vs, hm, .inr x, h => carried_legibleRevVariant vs hm.2 x h
  | .add _ _ _ _, _, .inl _, _ => trivial
  | .add _ _ _ vs, hm, .inr x, h => carried_legibleRevVariant vs hm x h
  | .drop _ _ _ vs, hm, v, h => carried_legibleRevVariant vs hm.2 v h
end

theorem reads_sentRev (ρ : Bytes → Str) {r : Rev} (hw : r.wr.WF) (hr : r.rd.WF) (hu : r.Rules) (hb : r.Bare) (hm : Mirrored r.rd)
    {x : r.wr.El} (hx : Sendable r.wr x) (hl : (encode r.wr x).length < 2 ^ 31) :
    ∃ c, Shows r.rd (see r x) c ∧ r.rd.csDeserialize ρ (encode r.wr x) = .ok (c, []) := by
  obtain ⟨c, h1, h2⟩ := readableRev ρ r hw hr hu hb hm x (carried_legibleRev r hm x hx.1) hl
  have := h2 [] (fun _ => rfl)
  rw [List.append_nil] at this
  exact ⟨c, h1, this⟩

/-! ### Whom entries are for -/

theorem csState_steady : (r : Rev) → r.Steady → ∀ {v v' : r.wr.El} {e : Entry}, Inside r.wr v e v' → r.rd.isCsState = true
  | .same t, _, _, _, _, h => (inner_inside t h).2
  | .uint _ _, _, _, _, _, h => nomatch h
  | .sint _ _, _, _, _, _, h => nomatch h
  | .flag _, _, _, _, _, h => nomatch h
  | .hide _, hs, _, _, _, _ => nomatch hs
  | .vec _, _, _, _, _, h => nomatch h
  | .array _ _, _, _, _, _, h => nomatch h
  | .tuple _, _, _, _, _, h => nomatch h
  | .option _, _, _, _, _, h => nomatch h
  | .hashMap _ _, _, _, _, _, h => nomatch h
  | .vecList _, _, _, _, _, h => nomatch h
  | .listVec _, hs, _, _, _, _ => nomatch hs
  | .optionVec _, _, _, _, _, h => nomatch h
  | .box r, hs, v, v', _, h => csState_steady r hs (v := v) (v' := v') h
  | .boxed r, hs, v, v', _, h => csState_steady r hs (v := v) (v' := v') h
  | .unboxed r, hs, v, v', _, h => csState_steady r hs (v := v) (v' := v') h
  | .list _, _, _, _, _, _ => rfl
  | .map _ _ _, _, _, _, _, _ => rfl
  | .struct _ _ _ _ _, _, _, _, _, _ => rfl
  | .enum _ _ _ _ _ _, _, _, _, _, _ => rfl

theorem csBelow_absent (ρ : Bytes → Str) (act : CsAct) : (fs : Fields) → ∀ {tag : U32}, tag ∉ fs.tags → ∀ path c,
    fs.csBelow ρ act tag path c = .ok c
  | .nil, _, _, _, _ => rfl
  | .cons tag _ _ fs, tag', h, path, c => by
    rw [Fields.tags, List.mem_cons, not_or] at h
    simp only [Fields.csBelow, if_neg h.1, csBelow_absent ρ act fs h.2, bind, Except.bind]

/-- Entries for a field the class does not have change nothing. -/
theorem csEntry_absent (ρ : Bytes → Str) (fs : Fields) {tag : U32} (h : tag ∉ fs.tags) (e : Entry) (c : fs.Cs) :
    csEntry (fs.csPerform ρ) (fs.csBelow ρ) c (under [tag] e) = .ok c := by
  cases e with
  | update path value =>
    cases path with
    | nil =>
      rw [csEntry_whole]
      simp only [Fields.csPerform, csGetWireType_none fs tag h]
    | cons j path =>
      show csEntry _ _ c (.update (tag :: j :: path) value) = _
      simp only [csEntry, List.getLast?_cons_cons]
      cases hl : (j :: path).getLast? with
      | none => simp at hl
      | some last =>
        simp only [List.dropLast_cons_cons]
        exact csBelow_absent ρ _ fs h _ c
  | listPush path item => exact csBelow_absent ρ _ fs h _ c
  | listPop path => exact csBelow_absent ρ _ fs h _ c
  | mapRemove path key => exact csBelow_absent ρ _ fs h _ c

/-- Entries below something the object does not have change nothing. -/
theorem csEntry_nowhere {β : Type} {P : CsAct → β → Except Exn β} {B : CsAct → U32 → List U32 → β → Except Exn β} {c : β} {k : U32}
    (hB : ∀ act path, B act k path c = .ok c) {e : Entry} (he : Inner e) : csEntry P B c (under [k] e) = .ok c := by
  cases e with
  | update path value =>
    cases path with
    | nil => exact absurd rfl (he value)
    | cons j path =>
      show csEntry _ _ c (.update (k :: j :: path) value) = _
      simp only [csEntry, List.getLast?_cons_cons]
      cases hl : (j :: path).getLast? with
      | none => simp at hl
      | some last =>
        simp only [List.dropLast_cons_cons]
        exact hB _ _
  | listPush path item => exact hB _ _
  | listPop path => exact hB _ _
  | mapRemove path key => exact hB _ _

/-! ### Doing what entries say -/

/-- The C# object does what entries about its inside say, as far as its class goes. -/
def CsInsideRev (ρ : Bytes → Str) (r : Rev) : Prop :=
  ∀ v e v' c, Inside r.wr v e v' → Shows r.rd (see r v) c → (payload e).length < 2 ^ 31 →
    ∃ c', csEntry (r.rd.csPerform ρ) (r.rd.csBelow ρ) c e = .ok c' ∧ Shows r.rd (see r v') c'

/-- As `CsInsideRev`, for the fields of a message. -/
def CsInsideRevFields (ρ : Bytes → Str) (fs : RevFields) : Prop :=
  ∀ v e v' c, InsideFields fs.wr v e v' → ShowsFields fs.rd (seeFields fs v) c → (payload e).length < 2 ^ 31 →
    ∃ c', csEntry (fs.rd.csPerform ρ) (fs.rd.csBelow ρ) c e = .ok c' ∧ ShowsFields fs.rd (seeFields fs v') c'

/-- As `CsInsideRev`, for the current variant of an enum, which is reached through its tag, if the client knows it. -/
def CsInsideRevVariants (ρ : Bytes → Str) (vs : RevVariants) : Prop :=
  ∀ v e v', InsideVariant vs.wr v e v' → (payload e).length < 2 ^ 31 →
    ∃ k e', k ∈ vs.wr.tags ∧ e = under [k] e' ∧ Inner e' ∧
      ((seeVariant vs v = none ∧ seeVariant vs v' = none) ∨
        ∃ y y', seeVariant vs v = some y ∧ seeVariant vs v' = some y' ∧
          ∀ c, ShowsVariant vs.rd y c → ∃ c', ShowsVariant vs.rd y' c' ∧
            ∀ {β : Type} (P : CsAct → β → Except Exn β) (B : CsAct → U32 → List U32 → β → Except Exn β) (z : β) (put : vs.rd.Cs → β),
              (∀ act path, B act k path z = (do
                let x ← vs.rd.csBelow ρ act k path c
                .ok (put x))) → csEntry P B z e = .ok (put c'))

variable {ρ : Bytes → Str}

theorem csInsideRev_list {r : Rev} (hw : r.list.wr.WF) (hr : r.list.rd.WF) (hu : r.Rules) (hb : r.Bare) (hm : Mirrored r.rd)
    (hst : r.Steady) (ih : CsInsideRev ρ r) : CsInsideRev ρ r.list := by
  intro v e v' c hin hs hl
  change List.Forall₂ (Shows r.rd) (v.items.map (see r)) c at hs
  change ∃ c', _ ∧ List.Forall₂ (Shows r.rd) (v'.items.map (see r)) c'
  rcases hin with ⟨x, hx, rfl, hv⟩ | ⟨hne, rfl, hv⟩ | ⟨i, x, e', x', hi, hx, hin, rfl, hv⟩
  · obtain ⟨y, h1, h2⟩ := reads_sentRev ρ hw.2 hr.2 hu hb hm hx hl
    refine ⟨c ++ [y], ?_, ?_⟩
    · simp only [Rev.rd, csEntry, descend, Ty.csPerform, h2, bind, Except.bind]
    · rw [hv, List.map_append]
      exact List.rel_append hs (.cons h1 .nil)
  · refine ⟨c.dropLast, ?_, ?_⟩
    · have : c ≠ [] := by
        rintro rfl
        exact hne (List.map_eq_nil_iff.1 (List.forall₂_nil_right_iff.1 hs))
      simp only [Rev.rd, csEntry, descend, Ty.csPerform, if_neg this]
    · rw [hv, List.map_dropLast]
      exact forall₂_dropLast hs
  · obtain ⟨y, hy, hxy⟩ := forall₂_getElem? hs i (x := see r x) (by rw [List.getElem?_map, hx]; rfl)
    have hlt : i < c.length := (List.getElem?_eq_some_iff.1 hy).1
    have hk : (fieldNo i).toNat = i := fieldNo_toNat hi
    rw [payload_under] at hl
    rcases hin with ⟨rfl, hx'⟩ | hin
    · obtain ⟨y', h1, h2⟩ := reads_sentRev ρ hw.2 hr.2 hu hb hm hx' hl
      refine ⟨c.set i y', ?_, ?_⟩
      · rw [csEntry_whole]
        simp only [Rev.rd, Ty.csPerform, hk, if_neg (show ¬ c.length ≤ i by omega), h2, bind, Except.bind]
      · rw [hv, List.map_set]; exact forall₂_set hs i h1
    · obtain ⟨y', h1, h2⟩ := ih x e' x' y hin hxy hl
      have hcs := csState_steady r hst hin
      refine ⟨c.set i y', ?_, ?_⟩
      · rw [csEntry_below (p := r.rd.csPerform ρ) (b := r.rd.csBelow ρ) (y := y) (put := fun z => c.set i z) ?_
          (inner_inside r.wr hin).1, h1]
        · rfl
        · intro act path
          simp only [Rev.rd, Ty.csBelow, hcs, if_true, hk, hy]
      · rw [hv, List.map_set]; exact forall₂_set hs i h2

theorem csInsideRev_map {k k' : KeyTy} {r : Rev} (hw : (r.map k k').wr.WF) (hr : (r.map k k').rd.WF) (hu : r.Rules) (hb : r.Bare)
    (hm : Mirrored r.rd) (hst : r.Steady) (ih : CsInsideRev ρ r) : CsInsideRev ρ (r.map k k') := by
  intro v e v' c hin hs hl
  have hs : ∀ k, Option.Rel (Shows r.rd) ((v.entries.lookup k).map (see r)) (c.lookup k) := by
    intro j
    have := hs j
    simp only [see, lookup_map] at this
    exact this
  suffices h : ∃ c' : List (U32 × r.rd.Cs), csEntry ((r.map k k').rd.csPerform ρ) ((r.map k k').rd.csBelow ρ) c e = .ok c' ∧
      ∀ k, Option.Rel (Shows r.rd) ((v'.entries.lookup k).map (see r)) (c'.lookup k) by
    obtain ⟨c', h1, h2⟩ := h
    refine ⟨c', h1, fun j => ?_⟩
    simp only [see, lookup_map]
    exact h2 j
  have put : ∀ (k : U32) (x : r.wr.El) (y : r.rd.Cs), Shows r.rd (see r x) y → v'.entries = entriesInsert k x v.entries →
      ∀ j, Option.Rel (Shows r.rd) ((v'.entries.lookup j).map (see r)) ((dictSet k y c).lookup j) := by
    intro k x y hxy hv j
    rw [hv, lookup_insert, lookup_dictSet]
    split
    · exact .some hxy
    · exact hs j
  rcases hin with ⟨k, x, hk, hk', hx, rfl, hv⟩ | ⟨k, hk, hn, rfl, hv⟩ | ⟨k, x, e', x', hx, hin, rfl, hv⟩
  · obtain ⟨y, h1, h2⟩ := reads_sentRev ρ hw.2 hr.2 hu hb hm hx hl
    refine ⟨dictSet k y c, ?_, put k x y h1 hv⟩
    show Ty.csPerform ρ (.map k' r.rd) (.update k (encode r.wr x)) c = _
    simp only [Ty.csPerform, h2, bind, Except.bind]
  · refine ⟨dictRemove k c, ?_, ?_⟩
    · obtain ⟨x, hx⟩ := entriesGet_some_of_mem hk
      have hg := hs k
      rw [lookup_entriesGet, hx] at hg
      have : (c.lookup k).isNone = false := by
        cases h : c.lookup k with
        | none => rw [h] at hg; cases hg
        | some y => rfl
      simp [Rev.rd, csEntry, descend, Ty.csPerform, this]
    · intro j
      rw [hv, lookup_remove _ _ _ hn, lookup_dictRemove]
      split
      · exact .none
      · exact hs j
  · have hg := hs k
    rw [lookup_entriesGet, hx] at hg
    obtain ⟨y, hy, hxy⟩ : ∃ y, c.lookup k = some y ∧ Shows r.rd (see r x) y := by
      cases h : c.lookup k with
      | none => rw [h] at hg; cases hg
      | some y => rw [h] at hg; cases hg with | some h => exact ⟨y, rfl, h⟩
    rw [payload_under] at hl
    rcases hin with ⟨rfl, hx'⟩ | hin
    · obtain ⟨y', h1, h2⟩ := reads_sentRev ρ hw.2 hr.2 hu hb hm hx' hl
      refine ⟨dictSet k y' c, ?_, put k x' y' h1 hv⟩
      rw [csEntry_whole]
      simp only [Rev.rd, Ty.csPerform, h2, bind, Except.bind]
    · obtain ⟨y', h1, h2⟩ := ih x e' x' y hin hxy hl
      have hcs := csState_steady r hst hin
      refine ⟨dictPut k y' c, ?_, fun j => ?_⟩
      rotate_left
      · rw [hv, lookup_insert, lookup_dictPut, hy]
        split
        · exact .some h2
        · exact hs j
      rw [csEntry_below (p := r.rd.csPerform ρ) (b := r.rd.csBelow ρ) (y := y) (put := fun z => dictPut k z c) ?_
        (inner_inside r.wr hin).1, h1]
      · rfl
      · intro act path
        simp only [Rev.rd, Ty.csBelow, hcs, if_true, hy]

section fields
variable {tag : U32} {attrs attrs' : FieldAttrs} {fs : RevFields}

/-- An entry for a later field. -/
theorem csRev_tail {t : Ty} (hnew : tag ∉ fs.tags) {v v' : fs.wr.El} {e : Entry} (hin : InsideFields fs.wr v e v')
    {c : (Fields.cons tag attrs t fs.rd).Cs} {y : fs.rd.Cs} (h : csEntry (fs.rd.csPerform ρ) (fs.rd.csBelow ρ) c.2 e = .ok y) :
    csEntry ((Fields.cons tag attrs t fs.rd).csPerform ρ) ((Fields.cons tag attrs t fs.rd).csBelow ρ) c e = .ok (c.1, y) := by
  rw [csEntry_tail (fun h => hnew (wr_tags_sub fs _ h)) (headed_inside fs.wr hin), h]
  rfl

theorem csInsideRev_keep {r : Rev} (hnew : tag ∉ fs.tags) (hw : r.wr.WF) (hr : r.rd.WF) (hu : r.Rules) (hb : r.Bare)
    (hm : Mirrored r.rd) (hst : attrs.noState = false → r.Steady) (ih : attrs.noState = false → CsInsideRev ρ r)
    (ihf : CsInsideRevFields ρ fs) : CsInsideRevFields ρ (.keep tag attrs attrs' r fs) := by
  intro v e v' c hin hs hl
  rcases hin with ⟨h1, h2, e', hin, rfl⟩ | ⟨h1, hin⟩
  · have hrest : ShowsFields fs.rd (seeFields fs v'.2) c.2 := by rw [h2]; exact hs.2
    rw [payload_under] at hl
    rcases hin with ⟨rfl, hx'⟩ | hin
    · obtain ⟨y', h3, h4⟩ := reads_sentRev ρ hw hr hu hb hm hx' hl
      refine ⟨(y', c.2), ?_, h3, hrest⟩
      rw [csEntry_whole]
      simp only [RevFields.rd, Fields.csPerform, Fields.csGetWireType, if_true, Fields.csReplaceAt, h4, bind, Except.bind]
    · obtain ⟨y', h3, h4⟩ := ih h1 v.1 e' v'.1 c.1 hin hs.1 hl
      have hcs := csState_steady r (hst h1) hin
      refine ⟨(y', c.2), ?_, h4, hrest⟩
      rw [csEntry_below (p := r.rd.csPerform ρ) (b := r.rd.csBelow ρ) (y := c.1) (put := fun z => (z, c.2)) ?_
        (inner_inside r.wr hin).1, h3]
      · rfl
      · intro act path
        simp only [RevFields.rd, Fields.csBelow, hcs, if_true]
  · obtain ⟨y', h3, h4⟩ := ihf v.2 e v'.2 c.2 hin hs.2 hl
    refine ⟨(c.1, y'), csRev_tail hnew hin h3, ?_, h4⟩
    show Shows r.rd (see r v'.1) c.1
    rw [h1]; exact hs.1

theorem csInsideRev_add {t : Ty} (hnew : tag ∉ fs.tags) (ihf : CsInsideRevFields ρ fs) : CsInsideRevFields ρ (.add tag attrs t fs) := by
  intro v e v' c hin hs hl
  rcases hin with ⟨_, h2, e', _, rfl⟩ | ⟨_, hin⟩
  · refine ⟨c, csEntry_absent ρ fs.rd (fun h => hnew (rd_tags_sub fs _ h)) e' c, ?_⟩
    show ShowsFields fs.rd (seeFields fs v'.2) c
    rw [h2]; exact hs
  · exact ihf v.2 e v'.2 c hin hs hl

theorem csInsideRev_drop {t : Ty} (hnew : tag ∉ fs.tags) (ihf : CsInsideRevFields ρ fs) :
    CsInsideRevFields ρ (.drop tag attrs t fs) := by
  intro v e v' c hin hs hl
  obtain ⟨y', h3, h4⟩ := ihf v e v' c.2 hin hs.2 hl
  exact ⟨(c.1, y'), csRev_tail hnew hin h3, hs.1, h4⟩

theorem csInsideRev_retype {t t' : Ty} (hnew : tag ∉ fs.tags) (hst : attrs.noState = true) (ihf : CsInsideRevFields ρ fs) :
    CsInsideRevFields ρ (.retype tag attrs attrs' t t' fs) := by
  intro v e v' c hin hs hl
  rcases hin with ⟨h1, _⟩ | ⟨_, hin⟩
  · rw [hst] at h1; cases h1
  · obtain ⟨y', h3, h4⟩ := ihf v.2 e v'.2 c.2 hin hs.2 hl
    exact ⟨(c.1, y'), csRev_tail hnew hin h3, hs.1, h4⟩

end fields

/-! ### Variants -/

theorem csInsideRev_vkeep {tag : U32} {cached cached' : Bool} {fs : RevFields} {vs : RevVariants} (ihf : CsInsideRevFields ρ fs)
    (ihv : CsInsideRevVariants ρ vs) : CsInsideRevVariants ρ (.keep tag cached cached' fs vs) := by
  intro v e v' hin hl
  rcases v with v | v <;> rcases v' with v' | v'
  · obtain ⟨e', rfl, hin⟩ := hin
    rw [payload_under] at hl
    refine ⟨tag, e', List.mem_cons_self, rfl, inner_insideFields fs.wr hin, .inr ⟨_, _, rfl, rfl, fun c hs => ?_⟩⟩
    rcases c with c | c
    · obtain ⟨c', h1, h2⟩ := ihf v e' v' c hin hs hl
      refine ⟨.inl c', h2, ?_⟩
      intro β P B y put hB
      rw [csEntry_below (p := fs.rd.csPerform ρ) (b := fs.rd.csBelow ρ) (y := c) (put := fun z => put (.inl z)) ?_
        (inner_insideFields fs.wr hin), h1]
      · rfl
      · intro act path
        rw [hB act path]
        simp only [RevVariants.rd, Variants.csBelow, if_true, bind, Except.bind]
        cases descend (fs.rd.csPerform ρ act) (fun k path v => fs.rd.csBelow ρ act k path v) path c <;> rfl
    · exact nomatch hs
  · exact nomatch hin
  · exact nomatch hin
  · obtain ⟨k, e', hk, rfl, he', h⟩ := ihv v e v' hin hl
    refine ⟨k, e', List.mem_cons_of_mem _ hk, rfl, he', ?_⟩
    rcases h with ⟨h1, h2⟩ | ⟨y, y', h1, h2, h3⟩
    · exact .inl ⟨by simp only [seeVariant, h1, Option.map_none], by simp only [seeVariant, h2, Option.map_none]⟩
    · refine .inr ⟨.inr y, .inr y', by simp only [seeVariant, h1, Option.map_some], by simp only [seeVariant, h2, Option.map_some],
        fun c hs => ?_⟩
      rcases c with c | c
      · exact nomatch hs
      · obtain ⟨c', h4, h5⟩ := h3 c hs
        refine ⟨.inr c', h4, ?_⟩
        intro β P B z put hB
        refine h5 P B z (fun z => put (.inr z)) ?_
        intro act path
        rw [hB act path]
        simp only [RevVariants.rd, Variants.csBelow, bind, Except.bind]
        cases vs.rd.csBelow ρ act k path c <;> rfl

theorem csInsideRev_vadd {tag : U32} {cached : Bool} {fs : Fields} {vs : RevVariants} (ihv : CsInsideRevVariants ρ vs) :
    CsInsideRevVariants ρ (.add tag cached fs vs) := by
  intro v e v' hin hl
  rcases v with v | v <;> rcases v' with v' | v'
  · obtain ⟨e', rfl, hin⟩ := hin
    exact ⟨tag, e', List.mem_cons_self, rfl, inner_insideFields fs hin, .inl ⟨rfl, rfl⟩⟩
  · exact nomatch hin
  · exact nomatch hin
  · obtain ⟨k, e', hk, h⟩ := ihv v e v' hin hl
    exact ⟨k, e', List.mem_cons_of_mem _ hk, h⟩

theorem csInsideRev_vdrop {tag : U32} {cached : Bool} {fs : Fields} {vs : RevVariants} (ihv : CsInsideRevVariants ρ vs) :
    CsInsideRevVariants ρ (.drop tag cached fs vs) := by
  intro v e v' hin hl
  obtain ⟨k, e', hk, rfl, he', h⟩ := ihv v e v' hin hl
  refine ⟨k, e', hk, rfl, he', ?_⟩
  rcases h with ⟨h1, h2⟩ | ⟨y, y', h1, h2, h3⟩
  · exact .inl ⟨by simp only [seeVariant, h1, Option.map_none], by simp only [seeVariant, h2, Option.map_none]⟩
  · refine .inr ⟨.inr y, .inr y', by simp only [seeVariant, h1, Option.map_some], by simp only [seeVariant, h2, Option.map_some],
      fun c hs => ?_⟩
    rcases c with c | c
    · exact nomatch hs
    · obtain ⟨c', h4, h5⟩ := h3 c hs
      refine ⟨.inr c', h4, ?_⟩
      intro β P B z put hB
      refine h5 P B z (fun z => put (.inr z)) ?_
      intro act path
      rw [hB act path]
      simp only [RevVariants.rd, Variants.csBelow, bind, Except.bind]
      cases vs.rd.csBelow ρ act k path c <;> rfl

theorem csInsideRev_enum {cached ds' cached' : Bool} {fs : RevFields} {vs : RevVariants} (h0 : 0#32 ∉ vs.wr.tags)
    (ihf : CsInsideRevFields ρ fs) (ihv : CsInsideRevVariants ρ vs) : CsInsideRev ρ (.enum true cached ds' cached' fs vs) := by
  intro v e v' c hin hs hl
  obtain ⟨_, v | v⟩ := v <;> obtain ⟨_, v' | v'⟩ := v'
  · obtain ⟨e', rfl, hin⟩ := hin
    rw [payload_under] at hl
    rcases c with c | c
    · obtain ⟨c', h1, h2⟩ := ihf v e' v' c hin hs hl
      refine ⟨.inl c', ?_, h2⟩
      rw [show (0 : U32) = 0#32 from rfl, csEntry_below (p := fs.rd.csPerform ρ) (b := fs.rd.csBelow ρ) (y := c)
        (put := fun z => (.inl z : fs.rd.Cs ⊕ vs.rd.Cs)) ?_ (inner_insideFields fs.wr hin), h1]
      · rfl
      · intro act path
        simp only [Rev.rd, Ty.csBelow, if_true]
    · exact nomatch hs
  · exact nomatch hin
  · exact nomatch hin
  · obtain ⟨k, e', hk, rfl, he', h⟩ := ihv v e v' hin hl
    rcases h with ⟨h1, h2⟩ | ⟨y, y', h1, h2, h3⟩
    · simp only [see, h1] at hs
      refine ⟨c, ?_, by simp only [see, h2]; exact hs⟩
      rcases c with c | c
      · refine csEntry_nowhere (fun act path => ?_) he'
        have hne : k ≠ 0#32 := fun h => h0 (h ▸ hk)
        simp only [Rev.rd, Ty.csBelow, if_neg hne]
      · exact nomatch hs
    · simp only [see, h1] at hs
      rcases c with c | c
      · exact nomatch hs
      · obtain ⟨c', h4, h5⟩ := h3 c hs
        refine ⟨.inr c', ?_, by simp only [see, h2]; exact h4⟩
        refine h5 (β := fs.rd.Cs ⊕ vs.rd.Cs) _ _ _ (fun z => Sum.inr z) ?_
        intro act path
        simp only [Rev.rd, Ty.csBelow]

mutual
theorem csInsideRev (ρ : Bytes → Str) : (r : Rev) → r.wr.WF → r.rd.WF → r.Rules → r.Bare → Mirrored r.rd → r.Steady → CsInsideRev ρ r
  | .same t, hw, _, _, _, hm, _ => fun v e v' c hin hs hl => by
    simp only [see, shows_strip] at hs ⊢
    exact csInside ρ t hw hm v e v' c hin hs hl
  | .uint _ _, _, _, _, _, _, _ => fun _ _ _ _ h => nomatch h
  | .sint _ _, _, _, _, _, _, _ => fun _ _ _ _ h => nomatch h
  | .flag _, _, _, _, _, _, _ => fun _ _ _ _ h => nomatch h
  | .hide _, _, _, _, _, _, hst => nomatch hst
  | .vec _, _, _, _, _, _, _ => fun _ _ _ _ h => nomatch h
  | .array _ _, _, _, _, _, _, _ => fun _ _ _ _ h => nomatch h
  | .tuple _, _, _, _, _, _, _ => fun _ _ _ _ h => nomatch h
  | .option _, _, _, _, _, _, _ => fun _ _ _ _ h => nomatch h
  | .hashMap _ _, _, _, _, _, _, _ => fun _ _ _ _ h => nomatch h
  | .vecList _, _, _, _, _, _, _ => fun _ _ _ _ h => nomatch h
  | .listVec _, _, _, _, _, _, hst => nomatch hst
  | .optionVec _, _, _, _, _, _, _ => fun _ _ _ _ h => nomatch h
  | .box r, hw, hr, hu, hb, hm, hst => fun v e v' c hin hs hl => by
    obtain ⟨c', h1, h2⟩ := csInsideRev ρ r hw hr hu hb hm hst v e v' c hin hs hl
    refine ⟨c', ?_, h2⟩
    have hP : (Ty.box r.rd).csPerform ρ = r.rd.csPerform ρ := by funext act v; simp only [Ty.csPerform]
    have hB : (Ty.box r.rd).csBelow ρ = r.rd.csBelow ρ := by funext act k path v; simp only [Ty.csBelow]
    show csEntry ((Ty.box r.rd).csPerform ρ) ((Ty.box r.rd).csBelow ρ) c e = .ok c'
    rw [hP, hB]
    exact h1
  | .boxed r, hw, hr, hu, hb, hm, hst => fun v e v' c hin hs hl => by
    obtain ⟨c', h1, h2⟩ := csInsideRev ρ r hw hr hu hb hm hst v e v' c hin hs hl
    refine ⟨c', ?_, h2⟩
    have hP : (Ty.box r.rd).csPerform ρ = r.rd.csPerform ρ := by funext act v; simp only [Ty.csPerform]
    have hB : (Ty.box r.rd).csBelow ρ = r.rd.csBelow ρ := by funext act k path v; simp only [Ty.csBelow]
    show csEntry ((Ty.box r.rd).csPerform ρ) ((Ty.box r.rd).csBelow ρ) c e = .ok c'
    rw [hP, hB]
    exact h1
  | .unboxed r, hw, hr, hu, hb, hm, hst => fun v e v' c hin hs hl => csInsideRev ρ r hw hr hu hb hm hst v e v' c hin hs hl
  | .list r, hw, hr, hu, hb, hm, hst => csInsideRev_list hw hr hu hb hm hst (csInsideRev ρ r hw.2 hr.2 hu hb hm hst)
  | .map _ _ r, hw, hr, hu, hb, hm, hst => csInsideRev_map hw hr hu.2 hb hm hst (csInsideRev ρ r hw.2 hr.2 hu.2 hb hm hst)
  | .struct false _ _ _ _, _, _, _, _, _, _ => fun _ _ _ _ h => nomatch h
  | .struct true _ ds' cached' fs, hw, hr, hu, hb, hm, hst => fun v e v' c hin hs hl => by
    obtain ⟨c', h1, h2⟩ := csInsideRevFields ρ fs true ds' hu.1 hw.2 hr.2 hu.2 hb hm hst v.fields e v'.fields c hin hs hl
    refine ⟨c', ?_, h2⟩
    have hP : (Ty.struct ds' cached' fs.rd).csPerform ρ = fs.rd.csPerform ρ := by
      funext act v; simp only [Ty.csPerform]
    have hB : (Ty.struct ds' cached' fs.rd).csBelow ρ = fs.rd.csBelow ρ := by
      funext act k path v; simp only [Ty.csBelow]
    show csEntry ((Ty.struct ds' cached' fs.rd).csPerform ρ) ((Ty.struct ds' cached' fs.rd).csBelow ρ) c e = .ok c'
    rw [hP, hB]
    exact h1
  | .enum false _ _ _ _ _, _, _, _, _, _, _ => fun _ _ _ _ h => nomatch h
  | .enum true _ ds' _ fs vs, hw, hr, hu, hb, hm, hst =>
    csInsideRev_enum hw.2.2.2.1 (csInsideRevFields ρ fs true ds' hu.1 hw.2.1 hr.2.1 hu.2.1 hb.1 hm.1 hst.1)
      (csInsideRevVariants ρ vs true ds' hw.2.2.2.2 hr.2.2.2.2 hu.2.2 hb.2.1 hm.2 hst.2)

theorem csInsideRevFields (ρ : Bytes → Str) : (fs : RevFields) → (ds ds' : Bool) → fs.tags.Nodup → fs.wr.WF ds → fs.rd.WF ds' →
    fs.Rules → fs.Bare → MirroredFields fs.rd → fs.Steady → CsInsideRevFields ρ fs
  | .nil, _, _, _, _, _, _, _, _, _ => fun _ _ _ _ h => nomatch h
  | .keep _ _ _ r fs, ds, ds', hn, h, h', hu, hb, hm, hst =>
    csInsideRev_keep (List.nodup_cons.1 hn).1 h.2.2.1 h'.2.2.1 hu.1 hb.1 hm.2.1 hst.1
      (fun hs => csInsideRev ρ r h.2.2.1 h'.2.2.1 hu.1 hb.1 hm.2.1 (hst.1 hs))
      (csInsideRevFields ρ fs ds ds' (List.nodup_cons.1 hn).2 h.2.2.2 h'.2.2.2 hu.2 hb.2 hm.2.2 hst.2)
  | .add _ _ _ fs, ds, ds', hn, h, h', hu, hb, hm, hst =>
    csInsideRev_add (List.nodup_cons.1 hn).1 (csInsideRevFields ρ fs ds ds' (List.nodup_cons.1 hn).2 h.2.2.2 h' hu hb hm hst)
  | .drop _ _ _ fs, ds, ds', hn, h, h', hu, hb, hm, hst =>
    csInsideRev_drop (List.nodup_cons.1 hn).1
      (csInsideRevFields ρ fs ds ds' (List.nodup_cons.1 hn).2 h h'.2.2.2 hu hb.2 hm.2.2 hst)
  | .retype _ _ _ _ _ fs, ds, ds', hn, h, h', hu, hb, hm, hst =>
    csInsideRev_retype (List.nodup_cons.1 hn).1 hst.1
      (csInsideRevFields ρ fs ds ds' (List.nodup_cons.1 hn).2 h.2.2.2 h'.2.2.2 hu.2 hb.2 hm.2.2 hst.2)

theorem csInsideRevVariants (ρ : Bytes → Str) : (vs : RevVariants) → (ds ds' : Bool) → vs.wr.WF ds → vs.rd.WF ds' → vs.Rules →
    vs.Bare → MirroredVariants vs.rd → vs.Steady → CsInsideRevVariants ρ vs
  | .nil, _, _, _, _, _, _, _, _ => fun v _ _ _ => nomatch v
  | .keep _ _ _ fs vs, ds, ds', h, h', hu, hb, hm, hst =>
    csInsideRev_vkeep (csInsideRevFields ρ fs ds ds' hu.1 h.2.2.1 h'.2.2.1 hu.2.1 hb.1 hm.1 hst.1)
      (csInsideRevVariants ρ vs ds ds' h.2.2.2 h'.2.2.2 hu.2.2 hb.2 hm.2 hst.2)
  | .add _ _ _ vs, ds, ds', h, h', hu, hb, hm, hst => csInsideRev_vadd (csInsideRevVariants ρ vs ds ds' h.2.2.2 h' hu hb hm hst)
  | .drop _ _ _ vs, ds, ds', h, h', hu, hb, hm, hst =>
    csInsideRev_vdrop (csInsideRevVariants ρ vs ds ds' h h'.2.2.2 hu hb hm.2 hst)
end

/-- The C# client does what an entry says. -/
theorem csFollowsRev (ρ : Bytes → Str) (r : Rev) (hw : r.wr.WF) (hr : r.rd.WF) (hu : r.Rules) (hb : r.Bare) (hm : Mirrored r.rd)
    (hst : r.Steady) {v v' : r.wr.El} {e : Entry} {c : r.rd.Cs} (h : Means r.wr v e v') (hs : Shows r.rd (see r v) c)
    (hl : (payload e).length < 2 ^ 31) : ∃ c', r.rd.csReplayEntry ρ c e = .ok c' ∧ Shows r.rd (see r v') c' := by
  rcases h with ⟨rfl, hx⟩ | h
  · obtain ⟨c', h1, h2⟩ := reads_sentRev ρ hw hr hu hb hm hx hl
    refine ⟨c', ?_, h1⟩
    simp only [Ty.csReplayEntry, List.getLast?_nil, h2, bind, Except.bind]
  · rw [csReplayEntry_inner ρ (inner_inside r.wr h).1]
    exact csInsideRev ρ r hw hr hu hb hm hst v e v' c h hs hl

end Steit
