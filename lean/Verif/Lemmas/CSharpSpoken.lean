import Verif.Lemmas.CSharpFollow
import Verif.Lemmas.CSharpHeard
import Verif.Lemmas.CSharpPlaced

/-! # Entries Rust logs are never passed over in silence -/

namespace Steit
open Spec

/-- Not the event of an enum. -/
def Plain : CsEvent → Prop
  | .variantUpdate _ _ _ _ _ => False
  | _ => True

/-- Something is raised, not by an enum, unless an exception is thrown. -/
def Loud {β : Type} (r : Except Exn (β × List CsEvent)) : Prop := ∀ s, r = .ok s → ∃ event ∈ s.2, Plain event

/-- As `csEntry`, with the events raised. -/
def csEntryObj {β : Type} (P : CsAct → β → Except Exn (β × List CsEvent))
    (B : CsAct → U32 → List U32 → β → Except Exn (β × List CsEvent)) (v : β) : Entry → Except Exn (β × List CsEvent)
  | .update path value =>
    match path.getLast? with
    | none => .ok (v, [])
    | some tag => descendObj (P (.update tag value)) (B (.update tag value)) path.dropLast v
  | .listPush path item => descendObj (P (.push item)) (B (.push item)) path v
  | .listPop path => descendObj (P .pop) (B .pop) path v
  | .mapRemove path key => descendObj (P (.remove key)) (B (.remove key)) path v

theorem csReplayEntryObj_inner (ρ : Bytes → Str) {t : Ty} {e : Entry} (h : Inner e) (v : t.CsObj) :
    t.csReplayEntryObj ρ v e = csEntryObj (t.csPerformObj ρ) (t.csBelowObj ρ) v e := by
  cases e with
  | update path value =>
    simp only [Ty.csReplayEntryObj, csEntryObj, Ty.csAtObj]
    cases hp : path.getLast? with
    | none => rw [List.getLast?_eq_none_iff] at hp; subst hp; exact absurd rfl (h value)
    | some tag => rfl
  | listPush path item => rfl
  | listPop path => rfl
  | mapRemove path key => rfl

theorem loud_bind {α β : Type} {x : Except Exn (α × List CsEvent)} (h : Loud x) (f : α → β) :
    Loud (x >>= fun s => Except.ok (f s.1, s.2)) := by
  intro s hs
  cases x with
  | error e => cases hs
  | ok r => cases hs; exact h r rfl

/-- Something is raised after something was read. -/
theorem loud_read {α β : Type} {x : Except Exn α} {f : α → β} {g : α → List CsEvent} (h : ∀ a, ∃ event ∈ g a, Plain event) :
    ∀ s, (x >>= fun a => Except.ok (f a, g a)) = .ok s → ∃ event ∈ s.2, Plain event := by
  intro s hs
  cases x with
  | error e => cases hs
  | ok r => cases hs; exact h r

theorem loud_below {β γ : Type} {P : CsAct → β → Except Exn (β × List CsEvent)}
    {B : CsAct → U32 → List U32 → β → Except Exn (β × List CsEvent)} {p : CsAct → γ → Except Exn (γ × List CsEvent)}
    {b : CsAct → U32 → List U32 → γ → Except Exn (γ × List CsEvent)} {v : β} {y : γ} (put : γ → β) {k : U32}
    (hB : ∀ act path, B act k path v = (do
      let x ← descendObj (p act) (b act) path y
      .ok (put x.1, x.2))) {e : Entry} (he : Inner e) (h : Loud (csEntryObj p b y e)) :
    Loud (csEntryObj P B v (under [k] e)) := by
  have : csEntryObj P B v (under [k] e) = (do
      let x ← csEntryObj p b y e
      .ok (put x.1, x.2)) := by
    cases e with
    | update path value =>
      cases path with
      | nil => exact absurd rfl (he value)
      | cons j path =>
        show csEntryObj P B v (.update (k :: j :: path) value) = _
        simp only [csEntryObj, List.getLast?_cons_cons]
        cases hl : (j :: path).getLast? with
        | none => simp at hl
        | some tag =>
          simp only [List.dropLast_cons_cons]
          exact hB _ _
    | listPush path item => exact hB _ _
    | listPop path => exact hB _ _
    | mapRemove path key => exact hB _ _
  rw [this]
  exact loud_bind h put

/-- `GetNested` of a message, going on inside its properties. -/
def belowMessage (ρ : Bytes → Str) (fs : Fields) (act : CsAct) (k : U32) (path : List U32) (o : Obj fs.CsObj) :
    Except Exn (Obj fs.CsObj × List CsEvent) := do
  let (v, events) ← fs.csBelowObj ρ act k path o.data
  .ok (⟨o.path, v⟩, events)

/-- Entries about the inside of a C# object raise something. -/
def Speaks (ρ : Bytes → Str) (t : Ty) : Prop :=
  ∀ v e v' c p, Inside t v e v' → Shows t v c → Loud (csEntryObj (t.csPerformObj ρ) (t.csBelowObj ρ) (t.place p c) e)

/-- As `Speaks`, for a message. -/
def SpeaksFields (ρ : Bytes → Str) (fs : Fields) : Prop :=
  ∀ v e v' c p, InsideFields fs v e v' → ShowsFields fs v c →
    Loud (csEntryObj (fs.csPerformObj ρ) (belowMessage ρ fs) ⟨p, fs.place p c⟩ e)

/-- As `Speaks`, for the current variant of an enum, which is reached through its tag. -/
def SpeaksVariants (ρ : Bytes → Str) (vs : Variants) : Prop :=
  ∀ v e v' c p, InsideVariant vs v e v' → ShowsVariant vs v c →
    ∃ k e', e = under [k] e' ∧ Inner e' ∧
      ∀ {β : Type} (P : CsAct → β → Except Exn (β × List CsEvent)) (B : CsAct → U32 → List U32 → β → Except Exn (β × List CsEvent))
        (y : β) (put : vs.CsObj → β), (∀ act path, B act k path y = (do
          let x ← vs.csBelowObj ρ act k path (vs.place p c)
          .ok (put x.1, x.2))) → Loud (csEntryObj P B y e)

variable {ρ : Bytes → Str}

theorem plain_last {events : List CsEvent} {event : CsEvent} (h : Plain event) : ∃ x ∈ events ++ [event], Plain x :=
  ⟨event, by simp, h⟩

theorem speaks_list {t : Ty} (ih : Speaks ρ t) : Speaks ρ (.list t) := by
  intro v e v' c p hin hs
  change List.Forall₂ (Shows t) v.items c at hs
  rcases hin with ⟨x, hx, rfl, hv⟩ | ⟨hne, rfl, hv⟩ | ⟨i, x, e', x', hi, hx, hw, rfl, hv⟩
  · exact loud_read (fun _ => plain_last trivial)
  · simp only [csEntryObj, descendObj, Ty.csPerformObj]
    intro s hs'
    split at hs'
    · cases hs'
    · cases hs'; exact ⟨_, List.mem_singleton_self _, trivial⟩
  · obtain ⟨y, hy, hxy⟩ := forall₂_getElem? hs i hx
    have hk : (fieldNo i).toNat = i := fieldNo_toNat hi
    rcases hw with ⟨rfl, hx'⟩ | hw
    · show Loud (Ty.csPerformObj ρ (.list t) (.update (fieldNo i) _) _)
      simp only [Ty.csPerformObj]
      split
      · exact fun s hs' => nomatch hs'
      · exact loud_read (fun _ => plain_last trivial)
    · obtain ⟨hin, hst⟩ := inner_inside t hw
      refine loud_below (p := t.csPerformObj ρ) (b := t.csBelowObj ρ) (y := t.place (p ++ [fieldNo i]) y)
        (fun z => (⟨p, ((Ty.list t).place p c).data.set i z⟩ : (Ty.list t).CsObj)) ?_ hin
        (ih x e' x' y (p ++ [fieldNo i]) hw hxy)
      intro act path
      have : ((Ty.list t).place p c).data[(fieldNo i).toNat]? = some (t.place (p ++ [fieldNo i]) y) := by
        rw [hk]
        show (c.mapIdx fun i x => t.place (p ++ [BitVec.ofNat 32 i]) x)[i]? = _
        rw [List.getElem?_mapIdx, hy]
        rfl
      simp only [Ty.csBelowObj, hst, if_true, this]
      rw [hk]
      rfl

theorem speaks_map {kt : KeyTy} {t : Ty} (ih : Speaks ρ t) : Speaks ρ (.map kt t) := by
  intro v e v' c p hin hs
  change ∀ k, Option.Rel (Shows t) (v.entries.lookup k) (c.lookup k) at hs
  have put : ∀ (k : U32) (value : Bytes) (o : (Ty.map kt t).CsObj), Loud (Ty.csPerformObj ρ (.map kt t) (.update k value) o) := by
    intro k value o
    simp only [Ty.csPerformObj]
    refine loud_read (fun a => ?_)
    cases o.data.lookup k <;> exact plain_last trivial
  rcases hin with ⟨k, x, hk, hk', hx, rfl, hv⟩ | ⟨k, hk, hn, rfl, hv⟩ | ⟨k, x, e', x', hx, hw, rfl, hv⟩
  · exact put k _ _
  · simp only [csEntryObj, descendObj, Ty.csPerformObj]
    intro s hs'
    split at hs'
    · cases hs'
    · cases hs'; exact ⟨_, List.mem_singleton_self _, trivial⟩
  · have hg := hs k
    rw [lookup_entriesGet, hx] at hg
    obtain ⟨y, hy, hxy⟩ : ∃ y, c.lookup k = some y ∧ Shows t x y := by
      cases h : c.lookup k with
      | none => rw [h] at hg; cases hg
      | some y => rw [h] at hg; cases hg with | some h => exact ⟨y, rfl, h⟩
    rcases hw with ⟨rfl, hx'⟩ | hw
    · exact put k _ _
    · obtain ⟨hin, hst⟩ := inner_inside t hw
      refine loud_below (p := t.csPerformObj ρ) (b := t.csBelowObj ρ) (y := t.place (p ++ [k]) y)
        (fun z => (⟨p, dictPut k z ((Ty.map kt t).place p c).data⟩ : (Ty.map kt t).CsObj)) ?_ hin
        (ih x e' x' y (p ++ [k]) hw hxy)
      intro act path
      have : ((Ty.map kt t).place p c).data.lookup k = some (t.place (p ++ [k]) y) := by
        show (c.map fun e => (e.1, t.place (p ++ [e.1]) e.2)).lookup k = _
        rw [lookup_placed (fun k x => t.place (p ++ [k]) x), hy]
        rfl
      simp only [Ty.csBelowObj, hst, if_true, this]
      rfl

/-- An entry for a later field. -/
theorem loud_tail {tag : U32} {attrs : FieldAttrs} {t : Ty} {fs : Fields} (hnew : tag ∉ fs.tags) {e : Entry}
    (he : Headed fs.tags e) (p : List U32) (c : (Fields.cons tag attrs t fs).CsObj)
    (h : Loud (csEntryObj (fs.csPerformObj ρ) (belowMessage ρ fs) ⟨p, c.2⟩ e)) :
    Loud (csEntryObj ((Fields.cons tag attrs t fs).csPerformObj ρ) (belowMessage ρ (.cons tag attrs t fs)) ⟨p, c⟩ e) := by
  obtain ⟨tag', hm, q, hp⟩ := he
  have hne : tag' ≠ tag := fun h => hnew (h ▸ hm)
  have below : ∀ act path, belowMessage ρ (.cons tag attrs t fs) act tag' path ⟨p, c⟩ = (do
      let y ← belowMessage ρ fs act tag' path ⟨p, c.2⟩
      .ok (⟨p, (c.1, y.1.data)⟩, y.2)) := by
    intro act path
    simp only [belowMessage, Fields.csBelowObj, if_neg hne, bind, Except.bind]
    cases fs.csBelowObj ρ act tag' path c.2 <;> rfl
  have perform : ∀ value, (Fields.cons tag attrs t fs).csPerformObj ρ (.update tag' value) ⟨p, c⟩ = (do
      let y ← fs.csPerformObj ρ (.update tag' value) ⟨p, c.2⟩
      .ok (⟨p, (c.1, y.1.data)⟩, y.2)) := by
    intro value
    simp only [Fields.csPerformObj, Fields.csGetWireType, if_neg hne, Fields.csReplaceAtObj]
    cases fs.csGetWireType tag' with
    | none => rfl
    | some w =>
      simp only [bind, Except.bind]
      cases fs.csReplaceAtObj ρ true p tag' w value (c.2, []) <;> rfl
  cases e with
  | update path value =>
    cases hp
    simp only [csEntryObj] at h ⊢
    cases q with
    | nil =>
      change Loud (Fields.csPerformObj ρ fs (.update tag' value) ⟨p, c.2⟩) at h
      change Loud (Fields.csPerformObj ρ (.cons tag attrs t fs) (.update tag' value) ⟨p, c⟩)
      rw [perform value]
      exact loud_bind h (fun y => (⟨p, (c.1, y.data)⟩ : Obj (Fields.cons tag attrs t fs).CsObj))
    | cons j q =>
      cases hl : (tag' :: j :: q).getLast? with
      | none => simp at hl
      | some last =>
        rw [hl] at h
        change Loud (belowMessage ρ _ _ _ _ _) at h ⊢
        rw [below]
        exact loud_bind h (fun y => (⟨p, (c.1, y.data)⟩ : Obj (Fields.cons tag attrs t fs).CsObj))
  | listPush path item =>
    cases hp
    change Loud (belowMessage ρ _ _ _ _ _) at h ⊢
    rw [below]
    exact loud_bind h (fun y => (⟨p, (c.1, y.data)⟩ : Obj (Fields.cons tag attrs t fs).CsObj))
  | listPop path =>
    cases hp
    change Loud (belowMessage ρ _ _ _ _ _) at h ⊢
    rw [below]
    exact loud_bind h (fun y => (⟨p, (c.1, y.data)⟩ : Obj (Fields.cons tag attrs t fs).CsObj))
  | mapRemove path key =>
    cases hp
    change Loud (belowMessage ρ _ _ _ _ _) at h ⊢
    rw [below]
    exact loud_bind h (fun y => (⟨p, (c.1, y.data)⟩ : Obj (Fields.cons tag attrs t fs).CsObj))

theorem speaks_fields_cons {tag : U32} {attrs : FieldAttrs} {t : Ty} {fs : Fields} (hnew : tag ∉ fs.tags)
    (iht : Speaks ρ t) (ihf : SpeaksFields ρ fs) : SpeaksFields ρ (.cons tag attrs t fs) := by
  intro v e v' c p hin hs
  rcases hin with ⟨_, h2, e', hw, rfl⟩ | ⟨h1, hin⟩
  · rcases hw with ⟨rfl, hx'⟩ | hw
    · show Loud (Fields.csPerformObj ρ _ (.update tag _) _)
      simp only [Fields.csPerformObj, Fields.csGetWireType, if_true, Fields.csReplaceAtObj]
      intro s hs'
      cases hd : t.csDeserializeAt ρ (p ++ [tag]) (encode t v'.1) with
      | error e => rw [hd] at hs'; cases hs'
      | ok r => rw [hd] at hs'; cases hs'; exact plain_last trivial
    · obtain ⟨hin, hst⟩ := inner_inside t hw
      refine loud_below (p := t.csPerformObj ρ) (b := t.csBelowObj ρ) (y := t.place (p ++ [tag]) c.1)
        (fun z => (⟨p, (z, fs.place p c.2)⟩ : Obj (Fields.cons tag attrs t fs).CsObj)) ?_ hin
        (iht v.1 e' v'.1 c.1 (p ++ [tag]) hw hs.1)
      intro act path
      simp only [belowMessage, Fields.csBelowObj, hst, if_true, Fields.place, bind, Except.bind]
      cases descendObj (t.csPerformObj ρ act) (fun k path o => t.csBelowObj ρ act k path o) path (t.place (p ++ [tag]) c.1) <;> rfl
  · exact loud_tail hnew (headed_inside fs hin) p _ (ihf v.2 e v'.2 c.2 p hin hs.2)

theorem speaks_variants_cons {tag : U32} {cached : Bool} {fs : Fields} {vs : Variants} (ihf : SpeaksFields ρ fs)
    (ihv : SpeaksVariants ρ vs) : SpeaksVariants ρ (.cons tag cached fs vs) := by
  intro v e v' c p hin hs
  rcases v with v | v <;> rcases v' with v' | v'
  · obtain ⟨e', rfl, hin⟩ := hin
    rcases c with c | c
    · refine ⟨tag, e', rfl, inner_insideFields fs hin, ?_⟩
      intro β P B y put hB
      refine loud_below (p := fs.csPerformObj ρ) (b := belowMessage ρ fs) (y := ⟨p ++ [tag], fs.place (p ++ [tag]) c⟩)
        (fun z => put (.inl z)) ?_ (inner_insideFields fs hin) (ihf v e' v' c (p ++ [tag]) hin hs)
      intro act path
      rw [hB act path]
      simp only [Variants.csBelowObj, Variants.place, if_true, bind, Except.bind]
      show _ = Except.bind (descendObj (fs.csPerformObj ρ act) (fun k path o => belowMessage ρ fs act k path o) path _) _
      cases hd : descendObj (fs.csPerformObj ρ act) (fun k path o => belowMessage ρ fs act k path o) path
        (⟨p ++ [tag], fs.place (p ++ [tag]) c⟩ : Obj fs.CsObj) with
      | error e => simp only [belowMessage, bind, Except.bind] at hd; simp only [hd]; rfl
      | ok r => simp only [belowMessage, bind, Except.bind] at hd; simp only [hd]; rfl
    · exact nomatch hs
  · exact nomatch hin
  · exact nomatch hin
  · rcases c with c | c
    · exact nomatch hs
    · obtain ⟨k, e', rfl, he', h2⟩ := ihv v e v' c p hin hs
      refine ⟨k, e', rfl, he', ?_⟩
      intro β P B y put hB
      refine h2 P B y (fun z => put (.inr z)) ?_
      intro act path
      rw [hB act path]
      simp only [Variants.csBelowObj, Variants.place, bind, Except.bind]
      cases vs.csBelowObj ρ act k path (vs.place p c) <;> rfl

theorem place_enum {d cached : Bool} {fs : Fields} {vs : Variants} (p : List U32) (c : (Ty.enum d cached fs vs).Cs) :
    (Ty.enum d cached fs vs).place p c = (⟨p, (allVariants cached fs vs).place p c⟩ : Obj (allVariants cached fs vs).CsObj) := by
  rcases c with c | c <;> rfl

theorem speaks_enum {cached : Bool} {fs : Fields} {vs : Variants} (ih : SpeaksVariants ρ (allVariants cached fs vs)) :
    Speaks ρ (.enum true cached fs vs) := by
  intro v e v' c p hin hs
  obtain ⟨k, e', rfl, he', h2⟩ := ih v.val e v'.val c p (inside_enum.1 hin) (shows_enum.1 hs)
  refine h2 _ _ _ (fun x => (⟨p, x⟩ : (Ty.enum true cached fs vs).CsObj)) ?_
  intro act path
  rw [csBelowObj_enum, place_enum]

mutual
theorem speaks (ρ : Bytes → Str) : (t : Ty) → t.WF → Speaks ρ t
  | .uint _, _ => fun _ _ _ _ _ h => nomatch h
  | .sint _, _ => fun _ _ _ _ _ h => nomatch h
  | .bool, _ => fun _ _ _ _ _ h => nomatch h
  | .string, _ => fun _ _ _ _ _ h => nomatch h
  | .bytes, _ => fun _ _ _ _ _ h => nomatch h
  | .vec _, _ => fun _ _ _ _ _ h => nomatch h
  | .array _ _, _ => fun _ _ _ _ _ h => nomatch h
  | .tuple _, _ => fun _ _ _ _ _ h => nomatch h
  | .option _, _ => fun _ _ _ _ _ h => nomatch h
  | .hashMap _ _, _ => fun _ _ _ _ _ h => nomatch h
  | .struct false _ _, _ => fun _ _ _ _ _ h => nomatch h
  | .enum false _ _ _, _ => fun _ _ _ _ _ h => nomatch h
  | .box t, ht => fun v e v' c p hin hs => by
    have h := speaks ρ t ht v e v' c p hin hs
    have hP : (Ty.box t).csPerformObj ρ = t.csPerformObj ρ := by funext act v; simp only [Ty.csPerformObj]
    have hB : (Ty.box t).csBelowObj ρ = t.csBelowObj ρ := by funext act k path v; simp only [Ty.csBelowObj]
    rw [hP, hB]
    exact h
  | .list t, ht => speaks_list (speaks ρ t ht.2)
  | .map _ t, ht => speaks_map (speaks ρ t ht.2)
  | .struct true cached fs, ht => fun v e v' c p hin hs => by
    have h := speaksFields ρ fs true ht.2 ht.1 v.fields e v'.fields c p hin hs
    have hP : (Ty.struct true cached fs).csPerformObj ρ = fs.csPerformObj ρ := by funext act v; simp only [Ty.csPerformObj]
    have hB : (Ty.struct true cached fs).csBelowObj ρ = belowMessage ρ fs := by
      funext act k path v; simp only [Ty.csBelowObj, belowMessage]
    rw [hP, hB]
    exact h
  | .enum true _ fs vs, ht => speaks_enum (speaks_variants_cons (speaksFields ρ fs true ht.2.1 ht.1) (speaksVariants ρ vs true ht.2.2.2.2))

theorem speaksFields (ρ : Bytes → Str) : (fs : Fields) → (ds : Bool) → fs.WF ds → fs.tags.Nodup → SpeaksFields ρ fs
  | .nil, _, _, _ => fun _ _ _ _ _ h => nomatch h
  | .cons _ _ t fs, ds, hf, hn =>
    speaks_fields_cons (List.nodup_cons.1 hn).1 (speaks ρ t hf.2.2.1) (speaksFields ρ fs ds hf.2.2.2 (List.nodup_cons.1 hn).2)

theorem speaksVariants (ρ : Bytes → Str) : (vs : Variants) → (ds : Bool) → vs.WF ds → SpeaksVariants ρ vs
  | .nil, _, _ => fun _ _ _ _ _ h => nomatch h
  | .cons _ _ fs vs, ds, hv => speaks_variants_cons (speaksFields ρ fs ds hv.2.2.1 hv.2.1) (speaksVariants ρ vs ds hv.2.2.2)
end

end Steit
