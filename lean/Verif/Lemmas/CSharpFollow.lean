import Verif.Lemmas.Follow
import Verif.Lemmas.CSharpDecode
import Verif.Props.Collections

/-! # The C# client does what entries say -/

namespace Steit
open Spec

/-! ### Entries and paths -/

/-- An entry which does not replace the root, performed by a container. -/
def csEntry {β : Type} (P : CsAct → β → Except Exn β) (B : CsAct → U32 → List U32 → β → Except Exn β) (v : β) :
    Entry → Except Exn β
  | .update path value =>
    match path.getLast? with
    | none => .ok v
    | some tag => descend (P (.update tag value)) (B (.update tag value)) path.dropLast v
  | .listPush path item => descend (P (.push item)) (B (.push item)) path v
  | .listPop path => descend (P .pop) (B .pop) path v
  | .mapRemove path key => descend (P (.remove key)) (B (.remove key)) path v

/-- The entry does not replace the whole object. -/
def Inner (e : Entry) : Prop := ∀ val, e ≠ .update [] val

theorem csReplayEntry_inner (ρ : Bytes → Str) {t : Ty} {e : Entry} (h : Inner e) (v : t.Cs) :
    t.csReplayEntry ρ v e = csEntry (t.csPerform ρ) (t.csBelow ρ) v e := by
  cases e with
  | update path value =>
    simp only [Ty.csReplayEntry, csEntry, Ty.csAt]
    cases hp : path.getLast? with
    | none => rw [List.getLast?_eq_none_iff] at hp; subst hp; exact absurd rfl (h value)
    | some tag => rfl
  | listPush path item => rfl
  | listPop path => rfl
  | mapRemove path key => rfl

theorem inner_under (k : U32) (e : Entry) : Inner (under [k] e) := by
  intro val h
  cases e <;> simp [under] at h

theorem csEntry_whole {β : Type} (P : CsAct → β → Except Exn β) (B : CsAct → U32 → List U32 → β → Except Exn β) (v : β)
    (k : U32) (val : Bytes) : csEntry P B v (under [k] (.update [] val)) = P (.update k val) v := rfl

theorem csEntry_below {β γ : Type} {P : CsAct → β → Except Exn β} {B : CsAct → U32 → List U32 → β → Except Exn β}
    {p : CsAct → γ → Except Exn γ} {b : CsAct → U32 → List U32 → γ → Except Exn γ} {v : β} {y : γ} {put : γ → β} {k : U32}
    (hB : ∀ act path, B act k path v = (do
      let x ← descend (p act) (b act) path y
      .ok (put x))) {e : Entry} (he : Inner e) :
    csEntry P B v (under [k] e) = (do
      let x ← csEntry p b y e
      .ok (put x)) := by
  cases e with
  | update path value =>
    cases path with
    | nil => exact absurd rfl (he value)
    | cons j path =>
      show csEntry P B v (.update (k :: j :: path) value) = _
      simp only [csEntry, List.getLast?_cons_cons]
      cases hl : (j :: path).getLast? with
      | none => simp at hl
      | some tag =>
        simp only [List.dropLast_cons_cons]
        exact hB _ _
  | listPush path item => exact hB _ _
  | listPop path => exact hB _ _
  | mapRemove path key => exact hB _ _

theorem payload_under (p : List U32) (e : Entry) : payload (under p e) = payload e := by cases e <;> rfl

/-! ### What entries inside look like -/

theorem inner_insideFields : (fs : Fields) → ∀ {v v' : fs.El} {e : Entry}, InsideFields fs v e v' → Inner e
  | .nil, _, _, _, h => nomatch h
  | .cons tag _ _ fs, _, _, _, h => by
    rcases h with ⟨_, _, e', _, rfl⟩ | ⟨_, h⟩
    · exact inner_under tag e'
    · exact inner_insideFields fs h

theorem inner_insideVariant : (vs : Variants) → ∀ {v v' : vs.El} {e : Entry}, InsideVariant vs v e v' → Inner e
  | .nil, _, _, _, h => nomatch h
  | .cons tag _ fs vs, v, v', e, h => by
    rcases v with v | v <;> rcases v' with v' | v'
    · obtain ⟨e', rfl, _⟩ := h
      exact inner_under tag e'
    · exact nomatch h
    · exact nomatch h
    · exact inner_insideVariant vs (e := e) h

theorem inner_inside : (t : Ty) → ∀ {v v' : t.El} {e : Entry}, Inside t v e v' → Inner e ∧ t.isCsState = true
  | .uint _, _, _, _, h => nomatch h
  | .sint _, _, _, _, h => nomatch h
  | .bool, _, _, _, h => nomatch h
  | .string, _, _, _, h => nomatch h
  | .bytes, _, _, _, h => nomatch h
  | .vec _, _, _, _, h => nomatch h
  | .array _ _, _, _, _, h => nomatch h
  | .tuple _, _, _, _, h => nomatch h
  | .option _, _, _, _, h => nomatch h
  | .hashMap _ _, _, _, _, h => nomatch h
  | .struct false _ _, _, _, _, h => nomatch h
  | .enum false _ _ _, _, _, _, h => nomatch h
  | .box t, v, v', e, h => inner_inside t (v := v) (v' := v') h
  | .list t, _, _, _, h => by
    refine ⟨?_, rfl⟩
    rcases h with ⟨x, _, rfl, _⟩ | ⟨_, rfl, _⟩ | ⟨i, x, e', x', _, _, _, rfl, _⟩
    · exact fun val h => nomatch h
    · exact fun val h => nomatch h
    · exact inner_under _ _
  | .map _ t, _, _, _, h => by
    refine ⟨?_, rfl⟩
    rcases h with ⟨k, x, _, _, _, rfl, _⟩ | ⟨k, _, _, rfl, _⟩ | ⟨k, x, e', x', _, _, rfl, _⟩
    · exact fun val h => by cases h
    · exact fun val h => nomatch h
    · exact inner_under _ _
  | .struct true _ fs, _, _, _, h => ⟨inner_insideFields fs h, rfl⟩
  | .enum true c fs vs, _, _, _, h => ⟨inner_insideVariant (allVariants c fs vs) (inside_enum.1 h), rfl⟩

/-! ### Lists and dictionaries -/

theorem forall₂_set {α β : Type} {R : α → β → Prop} {xs : List α} {ys : List β} (h : List.Forall₂ R xs ys) :
    ∀ (i : Nat) {x : α} {y : β}, R x y → List.Forall₂ R (xs.set i x) (ys.set i y) := by
  induction h with
  | nil => intro i x y _; exact .nil
  | cons h1 h2 ih =>
    intro i x y hxy
    cases i with
    | zero => exact .cons hxy h2
    | succ i => exact .cons h1 (ih i hxy)

theorem forall₂_getElem? {α β : Type} {R : α → β → Prop} {xs : List α} {ys : List β} (h : List.Forall₂ R xs ys) :
    ∀ (i : Nat) {x : α}, xs[i]? = some x → ∃ y, ys[i]? = some y ∧ R x y := by
  induction h with
  | nil => intro i x hx; simp at hx
  | cons h1 h2 ih =>
    intro i x hx
    cases i with
    | zero => simp at hx; subst hx; exact ⟨_, rfl, h1⟩
    | succ i => exact ih i (by simpa using hx)

theorem forall₂_dropLast {α β : Type} {R : α → β → Prop} {xs : List α} {ys : List β} (h : List.Forall₂ R xs ys) :
    List.Forall₂ R xs.dropLast ys.dropLast := by
  rw [List.dropLast_eq_take, List.dropLast_eq_take, ← h.length_eq]
  exact List.forall₂_take _ h

theorem lookup_entriesGet {α : Type} (k : U32) : ∀ es : List (U32 × α), es.lookup k = entriesGet k es
  | [] => rfl
  | (k', x) :: es => by
    simp only [List.lookup, entriesGet]
    by_cases h : k' = k
    · subst h; simp
    · rw [if_neg h, ← lookup_entriesGet k es]
      have : (k == k') = false := by simp [Ne.symm h]
      rw [this]

theorem lookup_insert {α : Type} (k j : U32) (x : α) (es : List (U32 × α)) :
    (entriesInsert k x es).lookup j = if j = k then some x else es.lookup j := by
  rw [lookup_entriesGet, lookup_entriesGet]
  exact entriesGet_insert_if k j x es

theorem lookup_remove {α : Type} (k j : U32) (es : List (U32 × α)) (h : (es.map (·.1)).Nodup) :
    (entriesRemove k es).lookup j = if j = k then none else es.lookup j := by
  rw [lookup_entriesGet, lookup_entriesGet]
  have := C34_remove (α := α) ⟨Rt.dflt, es⟩ h k ⟨fun _ => ⟨0, []⟩, fun _ _ => 0⟩
  obtain ⟨v', w', h1, h2, _⟩ := this
  have h3 : v' = ⟨Rt.dflt, entriesRemove k es⟩ := by
    cases h1; rfl
  subst h3
  exact h2 j

/-! ### Doing what entries say -/

theorem reads_sent (ρ : Bytes → Str) {t : Ty} (ht : t.WF) (hm : Mirrored t) {x : t.El} (hx : Sendable t x)
    (hl : (encode t x).length < 2 ^ 31) : ∃ c, Shows t x c ∧ t.csDeserialize ρ (encode t x) = .ok (c, []) := by
  obtain ⟨c, h1, h2⟩ := readable ρ t ht hm x (carried_legible t x hx.1) hl
  have := h2 [] (fun _ => rfl)
  rw [List.append_nil] at this
  exact ⟨c, h1, this⟩

/-- The C# object does what entries about its inside say. -/
def CsInside (ρ : Bytes → Str) (t : Ty) : Prop :=
  ∀ v e v' c, Inside t v e v' → Shows t v c → (payload e).length < 2 ^ 31 →
    ∃ c', csEntry (t.csPerform ρ) (t.csBelow ρ) c e = .ok c' ∧ Shows t v' c'

/-- As `CsInside`, for the fields of a message. -/
def CsInsideFields (ρ : Bytes → Str) (fs : Fields) : Prop :=
  ∀ v e v' c, InsideFields fs v e v' → ShowsFields fs v c → (payload e).length < 2 ^ 31 →
    ∃ c', csEntry (fs.csPerform ρ) (fs.csBelow ρ) c e = .ok c' ∧ ShowsFields fs v' c'

/-- As `CsInside`, for the current variant of an enum, which is reached through its tag. -/
def CsInsideVariants (ρ : Bytes → Str) (vs : Variants) : Prop :=
  ∀ v e v' c, InsideVariant vs v e v' → ShowsVariant vs v c → (payload e).length < 2 ^ 31 →
    ∃ k e' c', e = under [k] e' ∧ Inner e' ∧ ShowsVariant vs v' c' ∧
      ∀ {β : Type} (P : CsAct → β → Except Exn β) (B : CsAct → U32 → List U32 → β → Except Exn β) (y : β) (put : vs.Cs → β),
        (∀ act path, B act k path y = (do
          let x ← vs.csBelow ρ act k path c
          .ok (put x))) → csEntry P B y e = .ok (put c')

variable {ρ : Bytes → Str}

theorem csInside_list {t : Ty} (ht : (Ty.list t).WF) (hm : Mirrored t) (ih : CsInside ρ t) : CsInside ρ (.list t) := by
  intro v e v' c hin hs hl
  change List.Forall₂ (Shows t) v.items c at hs
  change ∃ c', _ ∧ List.Forall₂ (Shows t) v'.items c'
  rcases hin with ⟨x, hx, rfl, hv⟩ | ⟨hne, rfl, hv⟩ | ⟨i, x, e', x', hi, hx, hw, rfl, hv⟩
  · obtain ⟨y, h1, h2⟩ := reads_sent ρ ht.2 hm hx hl
    refine ⟨c ++ [y], ?_, ?_⟩
    · simp only [csEntry, descend, Ty.csPerform, h2, bind, Except.bind]
    · rw [hv]
      exact List.rel_append hs (.cons h1 .nil)
  · refine ⟨c.dropLast, ?_, ?_⟩
    · have : c ≠ [] := by
        rintro rfl
        exact hne (List.forall₂_nil_right_iff.1 hs)
      simp only [csEntry, descend, Ty.csPerform, if_neg this]
    · rw [hv]
      exact forall₂_dropLast hs
  · obtain ⟨y, hy, hxy⟩ := forall₂_getElem? hs i hx
    have hlt : i < c.length := (List.getElem?_eq_some_iff.1 hy).1
    have hk : (fieldNo i).toNat = i := fieldNo_toNat hi
    rw [payload_under] at hl
    rcases hw with ⟨rfl, hx'⟩ | hw
    · obtain ⟨y', h1, h2⟩ := reads_sent ρ ht.2 hm hx' hl
      refine ⟨c.set i y', ?_, ?_⟩
      · rw [csEntry_whole]
        simp only [Ty.csPerform, hk, if_neg (show ¬ c.length ≤ i by omega), h2, bind, Except.bind]
      · rw [hv]; exact forall₂_set hs i h1
    · obtain ⟨y', h1, h2⟩ := ih x e' x' y hw hxy hl
      obtain ⟨hin, hst⟩ := inner_inside t hw
      refine ⟨c.set i y', ?_, ?_⟩
      · rw [csEntry_below (p := t.csPerform ρ) (b := t.csBelow ρ) (y := y) (put := fun z => c.set i z) ?_ hin, h1]
        · rfl
        · intro act path
          simp only [Ty.csBelow, hst, if_true, hk, hy]
      · rw [hv]; exact forall₂_set hs i h2

theorem csInside_map {kt : KeyTy} {t : Ty} (ht : (Ty.map kt t).WF) (hm : Mirrored t) (ih : CsInside ρ t) :
    CsInside ρ (.map kt t) := by
  intro v e v' c hin hs hl
  change ∀ k, Option.Rel (Shows t) (v.entries.lookup k) (c.lookup k) at hs
  change ∃ c' : List (U32 × t.Cs), _ ∧ ∀ k, Option.Rel (Shows t) (v'.entries.lookup k) (c'.lookup k)
  have put : ∀ (k : U32) (x : t.El) (y : t.Cs), Shows t x y → v'.entries = entriesInsert k x v.entries →
      ∀ j, Option.Rel (Shows t) (v'.entries.lookup j) ((dictSet k y c).lookup j) := by
    intro k x y hxy hv j
    rw [hv, lookup_insert, lookup_dictSet]
    split
    · exact .some hxy
    · exact hs j
  rcases hin with ⟨k, x, hk, hk', hx, rfl, hv⟩ | ⟨k, hk, hn, rfl, hv⟩ | ⟨k, x, e', x', hx, hw, rfl, hv⟩
  · obtain ⟨y, h1, h2⟩ := reads_sent ρ ht.2 hm hx hl
    refine ⟨dictSet k y c, ?_, put k x y h1 hv⟩
    show Ty.csPerform ρ (.map kt t) (.update k (encode t x)) c = _
    simp only [Ty.csPerform, h2, bind, Except.bind]
  · refine ⟨dictRemove k c, ?_, ?_⟩
    · obtain ⟨x, hx⟩ := entriesGet_some_of_mem hk
      have hg := hs k
      rw [lookup_entriesGet, hx] at hg
      have : (c.lookup k).isNone = false := by
        cases h : c.lookup k with
        | none => rw [h] at hg; cases hg
        | some y => rfl
      simp [csEntry, descend, Ty.csPerform, this]
    · intro j
      rw [hv, lookup_remove _ _ _ hn, lookup_dictRemove]
      split
      · exact .none
      · exact hs j
  · have hg := hs k
    rw [lookup_entriesGet, hx] at hg
    obtain ⟨y, hy, hxy⟩ : ∃ y, c.lookup k = some y ∧ Shows t x y := by
      cases h : c.lookup k with
      | none => rw [h] at hg; cases hg
      | some y => rw [h] at hg; cases hg with | some h => exact ⟨y, rfl, h⟩
    rw [payload_under] at hl
    rcases hw with ⟨rfl, hx'⟩ | hw
    · obtain ⟨y', h1, h2⟩ := reads_sent ρ ht.2 hm hx' hl
      refine ⟨dictSet k y' c, ?_, put k x' y' h1 hv⟩
      rw [csEntry_whole]
      simp only [Ty.csPerform, h2, bind, Except.bind]
    · obtain ⟨y', h1, h2⟩ := ih x e' x' y hw hxy hl
      obtain ⟨hin, hst⟩ := inner_inside t hw
      refine ⟨dictPut k y' c, ?_, fun j => ?_⟩
      rotate_left
      · rw [hv, lookup_insert, lookup_dictPut, hy]
        split
        · exact .some h2
        · exact hs j
      rw [csEntry_below (p := t.csPerform ρ) (b := t.csBelow ρ) (y := y) (put := fun z => dictPut k z c) ?_ hin, h1]
      · rfl
      · intro act path
        simp only [Ty.csBelow, hst, if_true, hy]

/-- An entry for a later field. -/
theorem csEntry_tail {tag : U32} {attrs : FieldAttrs} {t : Ty} {fs : Fields} {tags : List U32} (hnew : tag ∉ tags) {e : Entry}
    (he : Headed tags e) (c : (Fields.cons tag attrs t fs).Cs) :
    csEntry ((Fields.cons tag attrs t fs).csPerform ρ) ((Fields.cons tag attrs t fs).csBelow ρ) c e = (do
      let y ← csEntry (fs.csPerform ρ) (fs.csBelow ρ) c.2 e
      .ok (c.1, y)) := by
  obtain ⟨tag', hm, p, hp⟩ := he
  have hne : tag' ≠ tag := fun h => hnew (h ▸ hm)
  have below : ∀ act path, (Fields.cons tag attrs t fs).csBelow ρ act tag' path c = (do
      let y ← fs.csBelow ρ act tag' path c.2
      .ok (c.1, y)) := by
    intro act path
    simp only [Fields.csBelow, if_neg hne]
  have perform : ∀ value, (Fields.cons tag attrs t fs).csPerform ρ (.update tag' value) c = (do
      let y ← fs.csPerform ρ (.update tag' value) c.2
      .ok (c.1, y)) := by
    intro value
    simp only [Fields.csPerform, Fields.csGetWireType, if_neg hne, Fields.csReplaceAt]
    cases fs.csGetWireType tag' with
    | none => rfl
    | some w =>
      simp only [bind, Except.bind]
      cases fs.csReplaceAt ρ tag' w value c.2 <;> rfl
  cases e with
  | update path value =>
    cases hp
    simp only [csEntry]
    cases p with
    | nil => exact perform value
    | cons j p =>
      cases hl : (tag' :: j :: p).getLast? with
      | none => simp at hl
      | some last => exact below _ _
  | listPush path item => cases hp; exact below _ _
  | listPop path => cases hp; exact below _ _
  | mapRemove path key => cases hp; exact below _ _

theorem csInside_fields_cons {tag : U32} {attrs : FieldAttrs} {t : Ty} {fs : Fields} (hnew : tag ∉ fs.tags) (ht : t.WF)
    (hm : Mirrored t) (iht : CsInside ρ t) (ihf : CsInsideFields ρ fs) : CsInsideFields ρ (.cons tag attrs t fs) := by
  intro v e v' c hin hs hl
  rcases hin with ⟨_, h2, e', hw, rfl⟩ | ⟨h1, hin⟩
  · rw [payload_under] at hl
    rcases hw with ⟨rfl, hx'⟩ | hw
    · obtain ⟨y', h3, h4⟩ := reads_sent ρ ht hm hx' hl
      refine ⟨(y', c.2), ?_, h3, by rw [h2]; exact hs.2⟩
      rw [csEntry_whole]
      simp only [Fields.csPerform, Fields.csGetWireType, if_true, Fields.csReplaceAt, h4, bind, Except.bind]
    · obtain ⟨y', h3, h4⟩ := iht v.1 e' v'.1 c.1 hw hs.1 hl
      obtain ⟨hin, hst⟩ := inner_inside t hw
      refine ⟨(y', c.2), ?_, h4, by rw [h2]; exact hs.2⟩
      rw [csEntry_below (p := t.csPerform ρ) (b := t.csBelow ρ) (y := c.1) (put := fun z => (z, c.2)) ?_ hin, h3]
      · rfl
      · intro act path
        simp only [Fields.csBelow, hst, if_true]
  · obtain ⟨y', h3, h4⟩ := ihf v.2 e v'.2 c.2 hin hs.2 hl
    refine ⟨(c.1, y'), ?_, by rw [h1]; exact hs.1, h4⟩
    rw [csEntry_tail hnew (headed_inside fs hin), h3]
    rfl

theorem csInside_variants_cons {tag : U32} {cached : Bool} {fs : Fields} {vs : Variants} (ihf : CsInsideFields ρ fs)
    (ihv : CsInsideVariants ρ vs) : CsInsideVariants ρ (.cons tag cached fs vs) := by
  intro v e v' c hin hs hl
  rcases v with v | v <;> rcases v' with v' | v'
  · obtain ⟨e', rfl, hin⟩ := hin
    rw [payload_under] at hl
    rcases c with c | c
    · obtain ⟨c', h1, h2⟩ := ihf v e' v' c hin hs hl
      refine ⟨tag, e', .inl c', rfl, inner_insideFields fs hin, h2, ?_⟩
      intro β P B y put hB
      rw [csEntry_below (p := fs.csPerform ρ) (b := fs.csBelow ρ) (y := c) (put := fun z => put (.inl z)) ?_
        (inner_insideFields fs hin), h1]
      · rfl
      · intro act path
        rw [hB act path]
        simp only [Variants.csBelow, if_true, bind, Except.bind]
        cases descend (fs.csPerform ρ act) (fun k path v => fs.csBelow ρ act k path v) path c <;> rfl
    · exact nomatch hs
  · exact nomatch hin
  · exact nomatch hin
  · rcases c with c | c
    · exact nomatch hs
    · obtain ⟨k, e', c', rfl, he', h1, h2⟩ := ihv v e v' c hin hs hl
      refine ⟨k, e', .inr c', rfl, he', h1, ?_⟩
      intro β P B y put hB
      refine h2 P B y (fun z => put (.inr z)) ?_
      intro act path
      rw [hB act path]
      simp only [Variants.csBelow, bind, Except.bind]
      cases vs.csBelow ρ act k path c <;> rfl

theorem csBelow_enum (d cached : Bool) (fs : Fields) (vs : Variants) (act : CsAct) (k : U32) (path : List U32)
    (c : (Ty.enum d cached fs vs).Cs) :
    (Ty.enum d cached fs vs).csBelow ρ act k path c = (allVariants cached fs vs).csBelow ρ act k path c := by
  rcases c with c | c <;> rfl

theorem shows_enum {cached : Bool} {fs : Fields} {vs : Variants} {a : (Ty.enum true cached fs vs).El}
    {c : (Ty.enum true cached fs vs).Cs} :
    Shows (.enum true cached fs vs) a c ↔ ShowsVariant (allVariants cached fs vs) a.val c := by
  rcases a with ⟨_, x | x⟩ <;> rcases c with c | c <;> exact Iff.rfl

theorem csInside_enum {cached : Bool} {fs : Fields} {vs : Variants} (ih : CsInsideVariants ρ (allVariants cached fs vs)) :
    CsInside ρ (.enum true cached fs vs) := by
  intro v e v' c hin hs hl
  obtain ⟨k, e', c', rfl, he', h1, h2⟩ := ih v.val e v'.val c (inside_enum.1 hin) (shows_enum.1 hs) hl
  refine ⟨c', ?_, shows_enum.2 h1⟩
  refine h2 _ _ c id ?_
  intro act path
  rw [csBelow_enum]
  cases (allVariants cached fs vs).csBelow ρ act k path c <;> rfl

mutual
theorem csInside (ρ : Bytes → Str) : (t : Ty) → t.WF → Mirrored t → CsInside ρ t
  | .uint _, _, _ => fun _ _ _ _ h => nomatch h
  | .sint _, _, _ => fun _ _ _ _ h => nomatch h
  | .bool, _, _ => fun _ _ _ _ h => nomatch h
  | .string, _, _ => fun _ _ _ _ h => nomatch h
  | .bytes, _, _ => fun _ _ _ _ h => nomatch h
  | .vec _, _, _ => fun _ _ _ _ h => nomatch h
  | .array _ _, _, _ => fun _ _ _ _ h => nomatch h
  | .tuple _, _, _ => fun _ _ _ _ h => nomatch h
  | .option _, _, _ => fun _ _ _ _ h => nomatch h
  | .hashMap _ _, _, _ => fun _ _ _ _ h => nomatch h
  | .struct false _ _, _, _ => fun _ _ _ _ h => nomatch h
  | .enum false _ _ _, _, _ => fun _ _ _ _ h => nomatch h
  | .box t, ht, hm => fun v e v' c hin hs hl => by
    obtain ⟨c', h1, h2⟩ := csInside ρ t ht hm v e v' c hin hs hl
    refine ⟨c', ?_, h2⟩
    rw [← h1]
    have hP : (Ty.box t).csPerform ρ = t.csPerform ρ := by funext act v; simp only [Ty.csPerform]
    have hB : (Ty.box t).csBelow ρ = t.csBelow ρ := by funext act k path v; simp only [Ty.csBelow]
    rw [hP, hB]
  | .list t, ht, hm => csInside_list ht hm (csInside ρ t ht.2 hm)
  | .map _ t, ht, hm => csInside_map ht hm (csInside ρ t ht.2 hm)
  | .struct true _ fs, ht, hm => fun v e v' c hin hs hl => by
    obtain ⟨c', h1, h2⟩ := csInsideFields ρ fs true ht.2 ht.1 hm v.fields e v'.fields c hin hs hl
    refine ⟨c', ?_, h2⟩
    rw [← h1]
    have hP : ∀ cached, (Ty.struct true cached fs).csPerform ρ = fs.csPerform ρ := by
      intro _; funext act v; simp only [Ty.csPerform]
    have hB : ∀ cached, (Ty.struct true cached fs).csBelow ρ = fs.csBelow ρ := by
      intro _; funext act k path v; simp only [Ty.csBelow]
    rw [hP, hB]
  | .enum true _ fs vs, ht, hm =>
    csInside_enum (csInside_variants_cons (csInsideFields ρ fs true ht.2.1 ht.1 hm.1)
      (csInsideVariants ρ vs true ht.2.2.2.2 hm.2))

theorem csInsideFields (ρ : Bytes → Str) : (fs : Fields) → (ds : Bool) → fs.WF ds → fs.tags.Nodup → MirroredFields fs →
    CsInsideFields ρ fs
  | .nil, _, _, _, _ => fun _ _ _ _ h => nomatch h
  | .cons _ _ t fs, ds, hf, hn, hm =>
    csInside_fields_cons (List.nodup_cons.1 hn).1 hf.2.2.1 hm.2.1 (csInside ρ t hf.2.2.1 hm.2.1)
      (csInsideFields ρ fs ds hf.2.2.2 (List.nodup_cons.1 hn).2 hm.2.2)

theorem csInsideVariants (ρ : Bytes → Str) : (vs : Variants) → (ds : Bool) → vs.WF ds → MirroredVariants vs →
    CsInsideVariants ρ vs
  | .nil, _, _, _ => fun _ _ _ _ h => nomatch h
  | .cons _ _ fs vs, ds, hv, hm =>
    csInside_variants_cons (csInsideFields ρ fs ds hv.2.2.1 hv.2.1 hm.1) (csInsideVariants ρ vs ds hv.2.2.2 hm.2)
end

/-- The C# client does what an entry says. -/
theorem csFollows (ρ : Bytes → Str) (t : Ty) (ht : t.WF) (hm : Mirrored t) {v v' : t.El} {e : Entry} {c : t.Cs}
    (h : Means t v e v') (hs : Shows t v c) (hl : (payload e).length < 2 ^ 31) :
    ∃ c', t.csReplayEntry ρ c e = .ok c' ∧ Shows t v' c' := by
  rcases h with ⟨rfl, hx⟩ | h
  · obtain ⟨c', h1, h2⟩ := reads_sent ρ ht hm hx hl
    refine ⟨c', ?_, h1⟩
    simp only [Ty.csReplayEntry, List.getLast?_nil, h2, bind, Except.bind]
  · rw [csReplayEntry_inner ρ (inner_inside t h).1]
    exact csInside ρ t ht hm v e v' c h hs hl

end Steit
