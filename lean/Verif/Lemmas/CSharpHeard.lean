import Verif.Lemmas.CSharpEvents
import Verif.Lemmas.CSharpDecode
import Verif.Lemmas.OpsAt

/-! # What is changed by replay is announced -/

namespace Steit
open Spec

/-- An event of the kind an action calls for. -/
def Fit : CsAct → CsEvent → Prop
  | .update tag _, .fieldUpdate _ k _ _ _ => k = tag
  | .update tag _, .mapInsert _ k _ _ => k = tag
  | .update tag _, .variantUpdate _ k _ _ _ => k = tag
  | .push _, .listPush _ _ _ _ => True
  | .pop, .listPop _ _ _ _ => True
  | .remove key, .mapRemove _ k _ _ => k = key
  | _, _ => False

/-- Either nothing happens, or one change is announced. -/
def Heard {β : Type} (held : List U32 → β → Option Held) (act : CsAct) (tags : List U32) (o : β) (r : β × List CsEvent) : Prop :=
  (r.2 = [] ∧ r.1 = o) ∨ ∃ event, r.2 = [event] ∧ Fit act event ∧ Announces held tags o event r.1

/-- `Roomy` at one place. -/
def RoomAt {β : Type} (held : List U32 → β → Option Held) (tags : List U32) (o : β) : Prop :=
  ∀ t x, held tags o = some (.value t x) → t.count x < 2 ^ 32

theorem Heard.none {β : Type} {held : List U32 → β → Option Held} {act : CsAct} {tags : List U32} {o : β} :
    Heard held act tags o (o, []) := .inl ⟨rfl, rfl⟩

theorem apart_cons {k : U32} {p q : List U32} (h : Apart (k :: p) (k :: q)) : Apart p q :=
  ⟨fun h' => h.1 (List.cons_prefix_cons.2 ⟨rfl, h'⟩), fun h' => h.2 (List.cons_prefix_cons.2 ⟨rfl, h'⟩)⟩

theorem not_apart_nil {q : List U32} (h : Apart [] q) : False := h.1 List.nil_prefix

theorem Spec.Announces.lift {β γ : Type} {heldB : List U32 → β → Option Held} {heldC : List U32 → γ → Option Held} {o o' : β} {y y' : γ}
    {k : U32} {tags : List U32} {event : CsEvent} (h1 : ∀ path, heldB (k :: path) o = heldC path y)
    (h2 : ∀ path, heldB (k :: path) o' = heldC path y') (h3 : ∀ j path, j ≠ k → heldB (j :: path) o' = heldB (j :: path) o)
    (h : Announces heldC tags y event y') : Announces heldB (k :: tags) o event o' where
  container := by
    obtain ⟨x, hx, hp⟩ := h.container
    exact ⟨x, by rw [h1, hx], hp⟩
  before := by rw [List.cons_append, h1]; exact h.before
  after := by rw [List.cons_append, h2]; exact h.after
  gone hne := by rw [List.cons_append, h2]; exact h.gone hne
  others q ha hb := by
    cases q with
    | nil => exact (not_apart_nil ha).elim
    | cons j q =>
      by_cases hj : j = k
      · subst hj
        rw [h1, h2]
        exact h.others q (apart_cons ha) (apart_cons hb)
      · exact h3 j q hj

theorem Heard.lift {β γ : Type} {heldB : List U32 → β → Option Held} {heldC : List U32 → γ → Option Held} {act : CsAct} {o : β} {y : γ}
    {k : U32} {tags : List U32} {r : γ × List CsEvent} (put : γ → β) (h1 : ∀ path, heldB (k :: path) o = heldC path y)
    (h2 : ∀ path y', heldB (k :: path) (put y') = heldC path y')
    (h3 : ∀ j path y', j ≠ k → heldB (j :: path) (put y') = heldB (j :: path) o) (h4 : put y = o)
    (h : Heard heldC act tags y r) : Heard heldB act (k :: tags) o (put r.1, r.2) := by
  rcases h with ⟨h5, h6⟩ | ⟨event, h5, h6, h7⟩
  · exact .inl ⟨h5, by rw [← h4, ← h6]⟩
  · exact .inr ⟨event, h5, h6, h7.lift h1 (fun p => h2 p _) (fun j p hj => h3 j p _ hj)⟩

/-- A change of an object held elsewhere as well. -/
theorem Spec.Announces.congr {β γ : Type} {heldB : List U32 → β → Option Held} {heldC : List U32 → γ → Option Held} {o o' : β} {y y' : γ}
    {tags : List U32} {event : CsEvent}
    (hc : ∀ h, heldC tags y = some h → ∃ h', heldB tags o = some h' ∧ h'.path = h.path)
    (h1 : ∀ k path, heldB (k :: path) o = heldC (k :: path) y) (h2 : ∀ k path, heldB (k :: path) o' = heldC (k :: path) y')
    (h : Announces heldC tags y event y') : Announces heldB tags o event o' := by
  have e1 : ∀ k, heldB (tags ++ [k]) o = heldC (tags ++ [k]) y := by
    intro k
    cases tags with
    | nil => exact h1 _ _
    | cons j tags => exact h1 _ _
  have e2 : ∀ k, heldB (tags ++ [k]) o' = heldC (tags ++ [k]) y' := by
    intro k
    cases tags with
    | nil => exact h2 _ _
    | cons j tags => exact h2 _ _
  refine ⟨?_, by rw [e1]; exact h.before, by rw [e2]; exact h.after, fun hne => by rw [e2]; exact h.gone hne, ?_⟩
  · obtain ⟨x, hx, hp⟩ := h.container
    obtain ⟨x', hx', hp'⟩ := hc x hx
    exact ⟨x', hx', by rw [hp', hp]⟩
  · intro q ha hb
    cases q with
    | nil => exact (not_apart_nil ha).elim
    | cons j q => rw [h1, h2]; exact h.others _ ha hb

/-- A change at one tag of an object. -/
theorem announces_here {β : Type} {held : List U32 → β → Option Held} {o o' : β} {event : CsEvent} {h : Held}
    (hw : held [] o = some h) (hp : h.path = some event.container) (hb : held [event.before.1] o = event.before.2)
    (ha : held [event.after.1] o' = event.after.2) (hg : event.before.1 ≠ event.after.1 → held [event.before.1] o' = none)
    (ho : ∀ j path, j ≠ event.before.1 → j ≠ event.after.1 → held (j :: path) o' = held (j :: path) o) :
    Announces held [] o event o' := by
  refine ⟨⟨h, hw, hp⟩, hb, ha, hg, ?_⟩
  intro q h1 h2
  cases q with
  | nil => exact (not_apart_nil h1).elim
  | cons j q =>
    have n1 : j ≠ event.before.1 := by
      intro hj
      refine h1.2 ?_
      rw [List.nil_append, hj]
      exact List.cons_prefix_cons.2 ⟨rfl, List.nil_prefix⟩
    have n2 : j ≠ event.after.1 := by
      intro hj
      refine h2.2 ?_
      rw [List.nil_append, hj]
      exact List.cons_prefix_cons.2 ⟨rfl, List.nil_prefix⟩
    exact ho j q n1 n2

/-! ### Messages -/

/-- What a message holds; `whole` says how the message itself is held. -/
def heldMessage (fs : Fields) (whole : Obj fs.CsObj → Held) (tags : List U32) (o : Obj fs.CsObj) : Option Held :=
  heldFrom (whole o) (fun k path => fs.heldIn k path o.data) tags

theorem replaceAt_heard (ρ : Bytes → Str) (this : List U32) : (fs : Fields) → ∀ {tag : U32} {wire w : WireType} {bs : Bytes} {v v' : fs.CsObj}
    {evs evs' : List CsEvent} {rest : Bytes}, fs.csGetWireType tag = some w →
    fs.csReplaceAtObj ρ true this tag wire bs (v, evs) = .ok ((v', evs'), rest) →
    ∃ (t : Ty) (x old : t.CsObj), evs' = evs ++ [.fieldUpdate this tag t x old] ∧ fs.heldIn tag [] v = some (.value t old) ∧
      fs.heldIn tag [] v' = some (.value t x) ∧ ∀ j path, j ≠ tag → fs.heldIn j path v' = fs.heldIn j path v
  | .nil, _, _, _, _, _, _, _, _, _, h, _ => nomatch h
  | .cons tag' attrs t fs, tag, wire, w, bs, v, v', evs, evs', rest, hw, h => by
    simp only [Fields.csReplaceAtObj] at h
    split at h
    · rename_i heq
      subst heq
      rw [csDeserializeAt_place] at h
      cases hd : t.csDeserialize ρ bs with
      | error e => rw [hd] at h; cases h
      | ok r =>
        rw [hd] at h
        simp only [quiet, bind, Except.bind, Except.ok.injEq, Prod.mk.injEq] at h
        obtain ⟨⟨rfl, rfl⟩, _⟩ := h
        refine ⟨t, t.place (this ++ [tag]) r.1, v.1, by simp [raised], ?_, ?_, ?_⟩
        · simp only [Fields.heldIn, if_true, heldFrom]
        · simp only [Fields.heldIn, if_true, heldFrom]
        · intro j path hj
          simp only [Fields.heldIn, if_neg hj]
    · rename_i hne
      simp only [Fields.csGetWireType, if_neg hne] at hw
      cases hr : fs.csReplaceAtObj ρ true this tag wire bs (v.2, evs) with
      | error e => rw [hr] at h; cases h
      | ok r =>
        obtain ⟨⟨y, evs2⟩, rest2⟩ := r
        rw [hr] at h
        simp only [bind, Except.bind, Except.ok.injEq, Prod.mk.injEq] at h
        obtain ⟨⟨rfl, rfl⟩, _⟩ := h
        obtain ⟨t', x, old, h1, h2, h3, h4⟩ := replaceAt_heard ρ this fs hw hr
        refine ⟨t', x, old, h1, ?_, ?_, ?_⟩
        · simp only [Fields.heldIn, if_neg hne, h2]
        · simp only [Fields.heldIn, if_neg hne, h3]
        · intro j path hj
          simp only [Fields.heldIn]
          split
          · rfl
          · exact h4 j path hj

theorem message_heard (ρ : Bytes → Str) (fs : Fields) (whole : Obj fs.CsObj → Held) (hwhole : ∀ o, (whole o).path = some o.path) (act : CsAct)
    (o : Obj fs.CsObj) (r : Obj fs.CsObj × List CsEvent) (h : fs.csPerformObj ρ act o = .ok r) : Heard (heldMessage fs whole) act [] o r := by
  unfold Fields.csPerformObj at h
  cases act with
  | update tag value =>
    simp only at h
    cases hw : fs.csGetWireType tag with
    | none => rw [hw] at h; cases h; exact .none
    | some wire =>
      rw [hw] at h
      simp only [bind, Except.bind] at h
      cases hr : fs.csReplaceAtObj ρ true o.path tag wire value (o.data, []) with
      | error e => rw [hr] at h; cases h
      | ok s =>
        obtain ⟨⟨v, events⟩, rest⟩ := s
        rw [hr] at h
        cases h
        obtain ⟨t, x, old, h1, h2, h3, h4⟩ := replaceAt_heard ρ o.path fs hw hr
        refine .inr ⟨_, h1, rfl, ?_⟩
        exact announces_here (h := whole o) rfl (hwhole o) h2 h3 (fun hne => absurd rfl hne) (fun j path hj _ => h4 j path hj)
  | push item => cases h
  | pop => cases h
  | remove key => cases h

/-! ### Containers -/

theorem heldIn_box {t : Ty} (k : U32) (path : List U32) (o : t.CsObj) : (Ty.box t).held (k :: path) o = t.held (k :: path) o := by
  simp only [Ty.held, heldFrom, Ty.heldIn]

theorem set_getElem? {α : Type} (xs : List α) (i j : Nat) (x : α) (h : j ≠ i) : (xs.set i x)[j]? = xs[j]? :=
  List.getElem?_set_ne (Ne.symm h)

theorem lookup_dictSet_self {α : Type} {k : U32} {d : List (U32 × α)} {x : α} : (dictSet k x d).lookup k = some x := by
  rw [lookup_dictSet]; simp

theorem toNat_ne {j k : U32} (h : j ≠ k) : j.toNat ≠ k.toNat := fun h' => h (BitVec.eq_of_toNat_eq h')

theorem list_heard (ρ : Bytes → Str) (t : Ty) (act : CsAct) (o : (Ty.list t).CsObj) (r : (Ty.list t).CsObj × List CsEvent)
    (hroom : o.data.length < 2 ^ 32) (h : (Ty.list t).csPerformObj ρ act o = .ok r) : Heard (Ty.list t).held act [] o r := by
  cases act with
  | update tag value =>
    simp only [Ty.csPerformObj] at h
    cases hold : o.data[tag.toNat]? with
    | none => rw [hold] at h; cases h
    | some old =>
      rw [hold] at h
      simp only [csDeserializeAt_place] at h
      cases hd : t.csDeserialize ρ value with
      | error e => rw [hd] at h; cases h
      | ok x =>
        rw [hd] at h
        cases h
        have hlt := (List.getElem?_eq_some_iff.1 hold).1
        refine .inr ⟨_, rfl, rfl, announces_here (h := .value _ o) rfl rfl ?_ ?_ (fun hne => absurd rfl hne) ?_⟩
        · simp [Ty.held, heldFrom, Ty.heldIn, CsEvent.before, hold]
        · simp [Ty.held, heldFrom, Ty.heldIn, CsEvent.after, hlt]
        · intro j path hj _
          simp only [Ty.held, heldFrom, Ty.heldIn]
          rw [set_getElem? _ _ _ _ (toNat_ne (k := tag) hj)]
  | push item =>
    simp only [Ty.csPerformObj, csDeserializeAt_place] at h
    cases hd : t.csDeserialize ρ item with
    | error e => rw [hd] at h; cases h
    | ok x =>
      rw [hd] at h
      cases h
      have hn : (BitVec.ofNat 32 o.data.length).toNat = o.data.length := by
        rw [BitVec.toNat_ofNat, Nat.mod_eq_of_lt hroom]
      refine .inr ⟨_, rfl, trivial, announces_here (h := .value _ o) rfl rfl ?_ ?_ (fun hne => absurd rfl hne) ?_⟩
      · simp [Ty.held, heldFrom, Ty.heldIn, CsEvent.before, Nat.mod_eq_of_lt hroom]
      · simp [Ty.held, heldFrom, Ty.heldIn, CsEvent.after, Nat.mod_eq_of_lt hroom]
      · intro j path hj _
        have hj' := toNat_ne hj
        simp only [CsEvent.before, hn] at hj'
        simp only [Ty.held, heldFrom, Ty.heldIn]
        have : (o.data ++ [t.place (o.path ++ [BitVec.ofNat 32 o.data.length]) x.1])[j.toNat]? = o.data[j.toNat]? := by
          rcases Nat.lt_or_gt_of_ne hj' with hlt | hgt
          · rw [List.getElem?_append_left hlt]
          · rw [List.getElem?_eq_none (by simp; omega), List.getElem?_eq_none (by omega)]
        rw [this]
  | pop =>
    simp only [Ty.csPerformObj] at h
    cases hl : o.data.getLast? with
    | none => rw [hl] at h; cases h
    | some x =>
      rw [hl] at h
      cases h
      have hne : o.data ≠ [] := by
        intro hn; rw [hn] at hl; cases hl
      have hpos : 0 < o.data.length := List.length_pos_iff.2 hne
      have hn : (BitVec.ofNat 32 (o.data.length - 1)).toNat = o.data.length - 1 := by
        rw [BitVec.toNat_ofNat, Nat.mod_eq_of_lt (by omega)]
      have hlast : o.data[o.data.length - 1]? = some x := by rw [← List.getLast?_eq_getElem?]; exact hl
      refine .inr ⟨_, rfl, trivial, announces_here (h := .value _ o) rfl rfl ?_ ?_ (fun hne => absurd rfl hne) ?_⟩
      · simp only [Ty.held, heldFrom, Ty.heldIn, CsEvent.before, hn, hlast, Option.bind_some]
      · simp only [Ty.held, heldFrom, Ty.heldIn, CsEvent.after, hn]
        rw [List.getElem?_eq_none (by simp)]
        rfl
      · intro j path hj _
        have hj' := toNat_ne hj
        simp only [CsEvent.before, hn] at hj'
        simp only [Ty.held, heldFrom, Ty.heldIn]
        have : o.data.dropLast[j.toNat]? = o.data[j.toNat]? := by
          rw [List.getElem?_dropLast]
          split
          · rfl
          · rw [List.getElem?_eq_none (by omega)]
        rw [this]
  | remove key => cases h

theorem map_heard (ρ : Bytes → Str) (kt : KeyTy) (t : Ty) (act : CsAct) (o : (Ty.map kt t).CsObj) (r : (Ty.map kt t).CsObj × List CsEvent)
    (h : (Ty.map kt t).csPerformObj ρ act o = .ok r) : Heard (Ty.map kt t).held act [] o r := by
  cases act with
  | update tag value =>
    simp only [Ty.csPerformObj, csDeserializeAt_place] at h
    cases hd : t.csDeserialize ρ value with
    | error e => rw [hd] at h; cases h
    | ok x =>
      rw [hd] at h
      simp only [quiet, bind, Except.bind, Except.ok.injEq] at h
      subst h
      have others : ∀ (j : U32) (path : List U32), j ≠ tag →
          (Ty.map kt t).held (j :: path) ⟨o.path, dictSet tag (t.place (o.path ++ [tag]) x.1) o.data⟩ = (Ty.map kt t).held (j :: path) o := by
        intro j path hj
        simp only [Ty.held, heldFrom, Ty.heldIn]
        rw [lookup_dictSet, if_neg hj]
      cases hl : o.data.lookup tag with
      | some old =>
        refine .inr ⟨_, rfl, rfl, announces_here (h := .value _ o) rfl rfl ?_ ?_ (fun hne => absurd rfl hne)
          (fun j path hj _ => others j path hj)⟩
        · simp [Ty.held, heldFrom, Ty.heldIn, CsEvent.before, hl]
        · simp [Ty.held, heldFrom, Ty.heldIn, CsEvent.after, lookup_dictSet_self]
      | none =>
        refine .inr ⟨_, rfl, rfl, announces_here (h := .value _ o) rfl rfl ?_ ?_ (fun hne => absurd rfl hne)
          (fun j path hj _ => others j path hj)⟩
        · simp [Ty.held, heldFrom, Ty.heldIn, CsEvent.before, hl]
        · simp [Ty.held, heldFrom, Ty.heldIn, CsEvent.after, lookup_dictSet_self]
  | push item => cases h
  | pop => cases h
  | remove key =>
    simp only [Ty.csPerformObj] at h
    cases hl : o.data.lookup key with
    | none => rw [hl] at h; cases h
    | some x =>
      rw [hl] at h
      cases h
      refine .inr ⟨_, rfl, rfl, announces_here (h := .value _ o) rfl rfl ?_ ?_ (fun hne => absurd rfl hne) ?_⟩
      · simp [Ty.held, heldFrom, Ty.heldIn, CsEvent.before, hl]
      · simp [Ty.held, heldFrom, Ty.heldIn, CsEvent.after, lookup_dictRemove]
      · intro j path hj _
        simp only [Ty.held, heldFrom, Ty.heldIn]
        rw [lookup_dictRemove, if_neg (show j ≠ key from hj)]

/-! ### Enums -/

theorem variant_held : (vs : Variants) → (x : vs.CsObj) → vs.heldIn (vs.csCurrent x).1 [] x =
    some (.variant (vs.csCurrent x).2.fs (vs.csCurrent x).2.obj)
  | .cons _ _ _ _, .inl _ => by simp only [Variants.heldIn, Variants.csCurrent, if_true, heldFrom]
  | .cons _ _ _ vs, .inr x => by
    simp only [Variants.heldIn, Variants.csCurrent]
    exact variant_held vs x

theorem variant_only : (vs : Variants) → (x : vs.CsObj) → ∀ (j : U32) (path : List U32), j ≠ (vs.csCurrent x).1 → vs.heldIn j path x = none
  | .cons _ _ _ _, .inl _, j, path, h => by
    simp only [Variants.csCurrent] at h
    simp only [Variants.heldIn, if_neg h]
  | .cons _ _ _ vs, .inr x, j, path, h => by
    simp only [Variants.csCurrent] at h
    simp only [Variants.heldIn]
    exact variant_only vs x j path h

theorem enum_held {ds c : Bool} (fs : Fields) (vs : Variants) (o : (Ty.enum ds c fs vs).CsObj) :
    (Ty.enum ds c fs vs).held [(csCurrent fs vs o.data).1] o =
      some (.variant (csCurrent fs vs o.data).2.fs (csCurrent fs vs o.data).2.obj) := by
  obtain ⟨p, x | x⟩ := o
  · simp only [Ty.held, heldFrom, Ty.heldIn, csCurrent, if_true]
  · simp only [Ty.held, heldFrom, Ty.heldIn, csCurrent]
    exact variant_held vs x

theorem enum_only {ds c : Bool} (fs : Fields) (vs : Variants) (o : (Ty.enum ds c fs vs).CsObj) (j : U32) (path : List U32)
    (h : j ≠ (csCurrent fs vs o.data).1) : (Ty.enum ds c fs vs).held (j :: path) o = none := by
  obtain ⟨p, x | x⟩ := o
  · simp only [csCurrent] at h
    simp only [Ty.held, heldFrom, Ty.heldIn, if_neg h]
  · simp only [csCurrent] at h
    simp only [Ty.held, heldFrom, Ty.heldIn]
    exact variant_only vs x j path h

theorem enum_announces {ds c : Bool} (fs : Fields) (vs : Variants) (o : (Ty.enum ds c fs vs).CsObj) (x : Obj fs.CsObj ⊕ vs.CsObj)
    (value : Bytes) : Heard (Ty.enum ds c fs vs).held (.update (csCurrent fs vs x).1 value) [] o
      (⟨o.path, x⟩, csVariantEvent fs vs true o.path x o.data) := by
  refine .inr ⟨_, rfl, rfl, announces_here (h := .value _ o) rfl rfl (enum_held fs vs o) (enum_held fs vs ⟨o.path, x⟩) ?_ ?_⟩
  · intro hne
    exact enum_only fs vs ⟨o.path, x⟩ _ [] hne
  · intro j path h1 h2
    rw [enum_only fs vs o j path h1]
    exact enum_only fs vs ⟨o.path, x⟩ j path h2

theorem variantAt_tag (ρ : Bytes → Str) (path : List U32) (variant : U32) (bs : Bytes) : (vs : Variants) → ∀ {x : vs.Cs},
    vs.csVariant ρ variant bs = .ok (some x) → (vs.csCurrent (vs.place path x)).1 = variant
  | .nil, _, h => nomatch h
  | .cons tag _ fs vs, x, h => by
    simp only [Variants.csVariant] at h
    split at h
    · rename_i heq
      cases hu : untilEnd (csReplaceStep fs.csGetWireType (fun tag wire bs v => fs.csReplaceAt ρ tag wire bs v)) bs.length fs.csNew bs with
      | error e => rw [hu] at h; cases h
      | ok v => rw [hu] at h; cases h; exact heq.symm
    · cases hv : vs.csVariant ρ variant bs with
      | error e => rw [hv] at h; cases h
      | ok y =>
        rw [hv] at h
        cases y with
        | none => cases h
        | some y => cases h; exact variantAt_tag ρ path variant bs vs hv

theorem enum_heard (ρ : Bytes → Str) (ds c : Bool) (fs : Fields) (vs : Variants) (act : CsAct) (o : (Ty.enum ds c fs vs).CsObj)
    (r : (Ty.enum ds c fs vs).CsObj × List CsEvent) (h : (Ty.enum ds c fs vs).csPerformObj ρ act o = .ok r) :
    Heard (Ty.enum ds c fs vs).held act [] o r := by
  cases act with
  | update tag value =>
    simp only [Ty.csPerformObj] at h
    split at h
    · rename_i heq
      subst heq
      rw [csDeserializeAt_place] at h
      cases hd : (Ty.struct false false fs).csDeserialize ρ value with
      | error e => rw [hd] at h; cases h
      | ok x =>
        rw [hd] at h
        cases h
        exact enum_announces fs vs o (.inl _) value
    · rw [csVariantAt_place] at h
      cases hv : vs.csVariant ρ tag value with
      | error e => rw [hv] at h; cases h
      | ok x =>
        rw [hv] at h
        cases x with
        | none => cases h; exact .none
        | some x =>
          cases h
          have := enum_announces (ds := ds) (c := c) fs vs o (.inr (vs.place o.path x)) value
          rw [show (csCurrent fs vs (.inr (vs.place o.path x))).1 = tag from variantAt_tag ρ o.path tag value vs hv] at this
          exact this
  | push item => cases h
  | pop => cases h
  | remove key => cases h

/-! ### All types -/

/-- Actions on an object, or inside. -/
def HeardAll (ρ : Bytes → Str) (t : Ty) : Prop :=
  ∀ act tags o r, RoomAt t.held tags o → descendObj (t.csPerformObj ρ act) (fun k path o => t.csBelowObj ρ act k path o) tags o = .ok r →
    Heard t.held act tags o r

theorem perform_heard (ρ : Bytes → Str) (act : CsAct) : (t : Ty) → ∀ (o : t.CsObj) (r : t.CsObj × List CsEvent), t.count o < 2 ^ 32 →
    t.csPerformObj ρ act o = .ok r → Heard t.held act [] o r
  | .list t, o, r, hroom, h => list_heard ρ t act o r hroom h
  | .map kt t, o, r, _, h => map_heard ρ kt t act o r h
  | .struct ds c fs, o, r, _, h => by
    have := message_heard ρ fs (fun o => .value (.struct ds c fs) o) (fun _ => rfl) act o r (by simpa only [Ty.csPerformObj] using h)
    exact this
  | .enum ds c fs vs, o, r, _, h => enum_heard ρ ds c fs vs act o r h
  | .box t, o, r, hroom, h => by
    have ih := perform_heard ρ act t o r hroom (by simpa only [Ty.csPerformObj] using h)
    rcases ih with h1 | ⟨event, h1, h2, h3⟩
    · exact .inl h1
    · refine .inr ⟨event, h1, h2, Announces.congr (β := (Ty.box t).CsObj) (γ := t.CsObj) (heldB := (Ty.box t).held) (heldC := t.held) (h := h3)
        ?_ (fun k path => heldIn_box k path o) (fun k path => heldIn_box k path r.1)⟩
      intro h hh
      cases hh
      exact ⟨_, rfl, rfl⟩
  | .uint _, o, r, _, h => by cases act <;> cases h; exact .none
  | .sint _, o, r, _, h => by cases act <;> cases h; exact .none
  | .bool, o, r, _, h => by cases act <;> cases h; exact .none
  | .string, o, r, _, h => by cases act <;> cases h; exact .none
  | .bytes, o, r, _, h => by cases act <;> cases h; exact .none
  | .vec _, o, r, _, h => by cases act <;> cases h; exact .none
  | .array _ _, o, r, _, h => by cases act <;> cases h; exact .none
  | .tuple _, o, r, _, h => by cases act <;> cases h; exact .none
  | .option _, o, r, _, h => by cases act <;> cases h; exact .none
  | .hashMap _ _, o, r, _, h => by cases act <;> cases h; exact .none

/-- `HeardAll` for a message, reached through a field. -/
def HeardFields (ρ : Bytes → Str) (fs : Fields) : Prop :=
  ∀ (whole : Obj fs.CsObj → Held) act k path p v r, RoomAt (heldMessage fs whole) (k :: path) ⟨p, v⟩ →
    fs.csBelowObj ρ act k path v = .ok r → Heard (heldMessage fs whole) act (k :: path) ⟨p, v⟩ (⟨p, r.1⟩, r.2)

/-- What an enum holds; `whole` says how the enum itself is held. -/
def heldEnum (vs : Variants) (whole : Obj vs.CsObj → Held) (tags : List U32) (o : Obj vs.CsObj) : Option Held :=
  heldFrom (whole o) (fun k path => vs.heldIn k path o.data) tags

/-- `HeardAll` for an enum, reached through its variant. -/
def HeardVariants (ρ : Bytes → Str) (vs : Variants) : Prop :=
  ∀ (whole : Obj vs.CsObj → Held) act k path p v r, RoomAt (heldEnum vs whole) (k :: path) ⟨p, v⟩ →
    vs.csBelowObj ρ act k path v = .ok r → Heard (heldEnum vs whole) act (k :: path) ⟨p, v⟩ (⟨p, r.1⟩, r.2)

theorem room_here {t : Ty} {o : t.CsObj} (h : RoomAt t.held [] o) : t.count o < 2 ^ 32 := h t o rfl

theorem heardAll_of {ρ : Bytes → Str} {t : Ty} (h : ∀ act k path o r, RoomAt t.held (k :: path) o →
    t.csBelowObj ρ act k path o = .ok r → Heard t.held act (k :: path) o r) : HeardAll ρ t := by
  intro act tags o r hroom hr
  cases tags with
  | nil => exact perform_heard ρ act t o r (room_here hroom) hr
  | cons k path => exact h act k path o r hroom hr

theorem map_ok {α β : Type} {x : Except Exn (α × List CsEvent)} {f : α → β} {r : β × List CsEvent}
    (h : (x >>= fun s => Except.ok (ε := Exn) (f s.1, s.2)) = .ok r) : ∃ s, x = .ok s ∧ r = (f s.1, s.2) := by
  cases x with
  | error e => cases h
  | ok s => cases h; exact ⟨s, rfl, rfl⟩

theorem heardAll_list (ρ : Bytes → Str) (t : Ty) (ih : HeardAll ρ t) : HeardAll ρ (.list t) := by
  refine heardAll_of fun act k path o r hroom h => ?_
  simp only [Ty.csBelowObj] at h
  split at h
  · cases hx : o.data[k.toNat]? with
    | none => rw [hx] at h; cases h; exact .none
    | some x =>
      rw [hx] at h
      obtain ⟨s, hs, rfl⟩ := map_ok (f := fun y => (⟨o.path, o.data.set k.toNat y⟩ : (Ty.list t).CsObj)) h
      have hlt := (List.getElem?_eq_some_iff.1 hx).1
      have h1 : ∀ path, (Ty.list t).held (k :: path) o = t.held path x := by
        intro path
        simp only [Ty.held, heldFrom, Ty.heldIn, hx, Option.bind_some]
      refine Heard.lift (β := (Ty.list t).CsObj) (heldB := (Ty.list t).held) (heldC := t.held)
        (fun y => (⟨o.path, o.data.set k.toNat y⟩ : (Ty.list t).CsObj)) h1 ?_ ?_ ?_
        (ih act path x s (fun t' x' hx' => hroom t' x' (by rw [h1]; exact hx')) hs)
      · intro path y
        simp only [Ty.held, heldFrom, Ty.heldIn, List.getElem?_set_self hlt, Option.bind_some]
      · intro j path y hj
        simp only [Ty.held, heldFrom, Ty.heldIn, set_getElem? _ _ _ _ (toNat_ne hj)]
      · have hx' : o.data[k.toNat]'hlt = x := (List.getElem?_eq_some_iff.1 hx).2
        rw [← hx', List.set_getElem_self]
  · cases h; exact .none

theorem dictPut_same {α : Type} {k : U32} {x : α} : ∀ {d : List (U32 × α)}, d.lookup k = some x → dictPut k x d = d
  | [], h => nomatch h
  | (j, y) :: d, h => by
    unfold dictPut
    rw [List.lookup_cons] at h
    by_cases hj : j = k
    · subst hj
      simp only [BEq.rfl, Option.some.injEq] at h
      rw [if_pos rfl, h]
    · have : (k == j) = false := by simpa using fun h => hj h.symm
      rw [this] at h
      rw [if_neg hj, dictPut_same h]

theorem heardAll_map (ρ : Bytes → Str) (kt : KeyTy) (t : Ty) (ih : HeardAll ρ t) : HeardAll ρ (.map kt t) := by
  refine heardAll_of fun act k path o r hroom h => ?_
  simp only [Ty.csBelowObj] at h
  split at h
  · cases hx : o.data.lookup k with
    | none => rw [hx] at h; cases h; exact .none
    | some x =>
      rw [hx] at h
      obtain ⟨s, hs, rfl⟩ := map_ok (f := fun y => (⟨o.path, dictPut k y o.data⟩ : (Ty.map kt t).CsObj)) h
      have h1 : ∀ path, (Ty.map kt t).held (k :: path) o = t.held path x := by
        intro path
        simp only [Ty.held, heldFrom, Ty.heldIn, hx, Option.bind_some]
      refine Heard.lift (β := (Ty.map kt t).CsObj) (heldB := (Ty.map kt t).held) (heldC := t.held)
        (fun y => (⟨o.path, dictPut k y o.data⟩ : (Ty.map kt t).CsObj)) h1 ?_ ?_ ?_
        (ih act path x s (fun t' x' hx' => hroom t' x' (by rw [h1]; exact hx')) hs)
      · intro path y
        simp only [Ty.held, heldFrom, Ty.heldIn, lookup_dictPut, if_true, hx, Option.map_some, Option.bind_some]
      · intro j path y hj
        simp only [Ty.held, heldFrom, Ty.heldIn, lookup_dictPut, if_neg hj]
      · rw [dictPut_same hx]
  · cases h; exact .none

theorem heardFields_cons (ρ : Bytes → Str) (tag : U32) (attrs : FieldAttrs) (t : Ty) (fs : Fields) (iht : HeardAll ρ t)
    (ihf : HeardFields ρ fs) : HeardFields ρ (.cons tag attrs t fs) := by
  intro whole act k path p v r hroom h
  simp only [Fields.csBelowObj] at h
  split at h
  · rename_i heq
    subst heq
    split at h
    · obtain ⟨s, hs, rfl⟩ := map_ok (f := fun y => ((y, v.2) : (Fields.cons k attrs t fs).CsObj)) h
      have h1 : ∀ path (w : (Fields.cons k attrs t fs).CsObj), heldMessage (.cons k attrs t fs) whole (k :: path) ⟨p, w⟩ = t.held path w.1 := by
        intro path w
        simp only [heldMessage, heldFrom, Fields.heldIn, if_true]
        rfl
      refine Heard.lift (heldB := heldMessage (.cons k attrs t fs) whole) (heldC := t.held)
        (fun y => (⟨p, (y, v.2)⟩ : Obj (Fields.cons k attrs t fs).CsObj)) (fun path => h1 path v) (fun path y => h1 path (y, v.2)) ?_ rfl
        (iht act path v.1 s (fun t' x' hx' => hroom t' x' (by rw [h1]; exact hx')) hs)
      intro j path y hj
      simp only [heldMessage, heldFrom, Fields.heldIn, if_neg hj]
    · cases h; exact .none
  · rename_i hne
    obtain ⟨s, hs, rfl⟩ := map_ok (f := fun y => ((v.1, y) : (Fields.cons tag attrs t fs).CsObj)) h
    have h1 : ∀ j path (w : (Fields.cons tag attrs t fs).CsObj), j ≠ tag →
        heldMessage (.cons tag attrs t fs) whole (j :: path) ⟨p, w⟩ = heldMessage fs (fun o => .variant fs o) (j :: path) ⟨p, w.2⟩ := by
      intro j path w hj
      simp only [heldMessage, heldFrom, Fields.heldIn, if_neg hj]
    have ih := ihf (fun o => .variant fs o) act k path p v.2 s (fun t' x' hx' => hroom t' x' (by rw [h1 _ _ _ hne]; exact hx')) hs
    rcases ih with ⟨h2, h3⟩ | ⟨event, h2, h3, h4⟩
    · refine .inl ⟨h2, ?_⟩
      have : s.1 = v.2 := congrArg Obj.data h3
      rw [this]
    · refine .inr ⟨event, h2, h3, ?_⟩
      refine ⟨?_, ?_, ?_, ?_, ?_⟩
      · obtain ⟨x, hx, hp⟩ := h4.container
        exact ⟨x, by rw [h1 _ _ _ hne]; exact hx, hp⟩
      · exact (h1 _ _ v hne).trans h4.before
      · exact (h1 _ _ (v.1, s.1) hne).trans h4.after
      · exact fun hg => (h1 _ _ (v.1, s.1) hne).trans (h4.gone hg)
      · intro q ha hb
        cases q with
        | nil => exact (not_apart_nil ha).elim
        | cons j q =>
          by_cases hj : j = tag
          · simp only [heldMessage, heldFrom, Fields.heldIn, if_pos hj]
          · rw [h1 _ _ _ hj, h1 _ _ _ hj]
            exact h4.others _ ha hb

/-- A message as the variant of an enum. -/
theorem heard_message (ρ : Bytes → Str) (fs : Fields) (ihf : HeardFields ρ fs) (whole : Obj fs.CsObj → Held)
    (hwhole : ∀ o, (whole o).path = some o.path) (act : CsAct) (path : List U32) (x : Obj fs.CsObj) (r : Obj fs.CsObj × List CsEvent)
    (hroom : RoomAt (heldMessage fs whole) path x)
    (h : descendObj (fs.csPerformObj ρ act) (fun k path o => do
        let (v, events) ← fs.csBelowObj ρ act k path o.data
        .ok (⟨o.path, v⟩, events)) path x = .ok r) : Heard (heldMessage fs whole) act path x r := by
  cases path with
  | nil => exact message_heard ρ fs whole hwhole act x r h
  | cons k path =>
    obtain ⟨s, hs, rfl⟩ := map_ok (f := fun v => Obj.mk x.path v) h
    exact ihf whole act k path x.path x.data s hroom hs

theorem heardVariants_cons (ρ : Bytes → Str) (tag : U32) (cached : Bool) (fs : Fields) (vs : Variants) (ihf : HeardFields ρ fs)
    (ihv : HeardVariants ρ vs) : HeardVariants ρ (.cons tag cached fs vs) := by
  intro whole act k path p v r hroom h
  simp only [Variants.csBelowObj] at h
  rcases v with x | x
  · simp only at h
    split at h
    · rename_i heq
      subst heq
      obtain ⟨s, hs, rfl⟩ := map_ok (f := fun x => Sum.inl x) h
      have h1 : ∀ path (w : Obj fs.CsObj), heldEnum (.cons k cached fs vs) whole (k :: path) ⟨p, .inl w⟩ =
          heldMessage fs (fun o => .variant fs o) path w := by
        intro path w
        simp only [heldEnum, heldMessage, heldFrom, Variants.heldIn, if_true]
      refine Heard.lift (heldB := heldEnum (.cons k cached fs vs) whole) (heldC := heldMessage fs (fun o => .variant fs o))
        (fun y => (⟨p, .inl y⟩ : Obj (Variants.cons k cached fs vs).CsObj)) (fun path => h1 path x) (fun path y => h1 path y) ?_ rfl
        (heard_message ρ fs ihf _ (fun _ => rfl) act path x s (fun t' x' hx' => hroom t' x' (by rw [h1]; exact hx')) hs)
      intro j path y hj
      simp only [heldEnum, heldFrom, Variants.heldIn, if_neg hj]
    · cases h; exact .none
  · obtain ⟨s, hs, rfl⟩ := map_ok (f := fun x => Sum.inr x) h
    have h1 : ∀ k path (w : vs.CsObj), heldEnum (.cons tag cached fs vs) whole (k :: path) ⟨p, .inr w⟩ =
        heldEnum vs (fun o => whole ⟨o.path, .inr o.data⟩) (k :: path) ⟨p, w⟩ := by
      intro k path w
      simp only [heldEnum, heldFrom, Variants.heldIn]
    have ih := ihv (fun o => whole ⟨o.path, .inr o.data⟩) act k path p x s (fun t' x' hx' => hroom t' x' (by rw [h1]; exact hx')) hs
    rcases ih with ⟨h2, h3⟩ | ⟨event, h2, h3, h4⟩
    · refine .inl ⟨h2, ?_⟩
      have : s.1 = x := congrArg Obj.data h3
      rw [this]
    · refine .inr ⟨event, h2, h3, h4.congr ?_ (fun k path => h1 k path x) (fun k path => h1 k path s.1)⟩
      intro h hh
      exact ⟨h, by rw [h1]; exact hh, rfl⟩

theorem csBelowObj_enum (ρ : Bytes → Str) (d cached : Bool) (fs : Fields) (vs : Variants) (act : CsAct) (k : U32) (path : List U32)
    (o : (Ty.enum d cached fs vs).CsObj) :
    (Ty.enum d cached fs vs).csBelowObj ρ act k path o = (do
      let (x, events) ← (allVariants cached fs vs).csBelowObj ρ act k path o.data
      .ok (⟨o.path, x⟩, events)) := by
  obtain ⟨p, x | x⟩ := o
  · simp only [Ty.csBelowObj, allVariants, Variants.csBelowObj]
    split
    · simp only [bind, Except.bind]
      cases descendObj (fs.csPerformObj ρ act) _ path x <;> rfl
    · rfl
  · simp only [Ty.csBelowObj, allVariants, Variants.csBelowObj, bind, Except.bind]
    cases vs.csBelowObj ρ act k path x <;> rfl

theorem heldEnum_all {d cached : Bool} {fs : Fields} {vs : Variants} (tags : List U32) (o : (Ty.enum d cached fs vs).CsObj) :
    (Ty.enum d cached fs vs).held tags o = heldEnum (allVariants cached fs vs) (fun o => .value (.enum d cached fs vs) o) tags o := by
  cases tags with
  | nil => rfl
  | cons k path =>
    obtain ⟨p, x | x⟩ := o
    · simp only [Ty.held, heldFrom, Ty.heldIn, heldEnum, allVariants, Variants.heldIn]
    · simp only [Ty.held, heldFrom, Ty.heldIn, heldEnum, allVariants, Variants.heldIn]

theorem heardAll_enum (ρ : Bytes → Str) (d cached : Bool) (fs : Fields) (vs : Variants) (ih : HeardVariants ρ (allVariants cached fs vs)) :
    HeardAll ρ (.enum d cached fs vs) := by
  refine heardAll_of fun act k path o r hroom h => ?_
  rw [csBelowObj_enum] at h
  obtain ⟨s, hs, rfl⟩ := map_ok (f := fun x => Obj.mk o.path x) h
  have heq : (Ty.enum d cached fs vs).held = heldEnum (allVariants cached fs vs) (fun o => .value (.enum d cached fs vs) o) := by
    funext tags o
    exact heldEnum_all tags o
  rw [heq] at hroom ⊢
  exact ih _ act k path o.path o.data s hroom hs

mutual
theorem heardAll (ρ : Bytes → Str) : (t : Ty) → HeardAll ρ t
  | .uint _ => heardAll_of fun _ _ _ _ _ _ h => by cases h; exact .none
  | .sint _ => heardAll_of fun _ _ _ _ _ _ h => by cases h; exact .none
  | .bool => heardAll_of fun _ _ _ _ _ _ h => by cases h; exact .none
  | .string => heardAll_of fun _ _ _ _ _ _ h => by cases h; exact .none
  | .bytes => heardAll_of fun _ _ _ _ _ _ h => by cases h; exact .none
  | .vec _ => heardAll_of fun _ _ _ _ _ _ h => by cases h; exact .none
  | .array _ _ => heardAll_of fun _ _ _ _ _ _ h => by cases h; exact .none
  | .tuple _ => heardAll_of fun _ _ _ _ _ _ h => by cases h; exact .none
  | .option _ => heardAll_of fun _ _ _ _ _ _ h => by cases h; exact .none
  | .hashMap _ _ => heardAll_of fun _ _ _ _ _ _ h => by cases h; exact .none
  | .list t => heardAll_list ρ t (heardAll ρ t)
  | .map kt t => heardAll_map ρ kt t (heardAll ρ t)
  | .box t => by
    have ih := heardAll ρ t
    refine heardAll_of fun act k path o r hroom h => ?_
    have ih := ih act (k :: path) o r (fun t' x' hx' => hroom t' x' (by rw [heldIn_box]; exact hx')) (by simpa only [descendObj, Ty.csBelowObj] using h)
    rcases ih with h1 | ⟨event, h1, h2, h3⟩
    · exact .inl h1
    · refine .inr ⟨event, h1, h2, Announces.congr (β := (Ty.box t).CsObj) (γ := t.CsObj) (heldB := (Ty.box t).held) (heldC := t.held) (h := h3)
        ?_ (fun k path => heldIn_box k path o) (fun k path => heldIn_box k path r.1)⟩
      intro h hh
      exact ⟨h, by rw [heldIn_box]; exact hh, rfl⟩
  | .struct ds c fs => by
    have ih := heardFields ρ fs
    refine heardAll_of fun act k path o r hroom h => ?_
    simp only [Ty.csBelowObj] at h
    obtain ⟨s, hs, rfl⟩ := map_ok (f := fun x => Obj.mk o.path x) h
    exact ih (fun o => .value (.struct ds c fs) o) act k path o.path o.data s hroom hs
  | .enum d cached fs vs => heardAll_enum ρ d cached fs vs (heardVariants_cons ρ 0#32 cached fs vs (heardFields ρ fs) (heardVariants ρ vs))

theorem heardFields (ρ : Bytes → Str) : (fs : Fields) → HeardFields ρ fs
  | .nil => fun _ _ _ _ _ _ _ _ h => by cases h; exact .none
  | .cons tag attrs t fs => heardFields_cons ρ tag attrs t fs (heardAll ρ t) (heardFields ρ fs)

theorem heardVariants (ρ : Bytes → Str) : (vs : Variants) → HeardVariants ρ vs
  | .nil => fun _ _ _ _ _ v => nomatch v
  | .cons tag cached fs vs => heardVariants_cons ρ tag cached fs vs (heardFields ρ fs) (heardVariants ρ vs)
end

end Steit
