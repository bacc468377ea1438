import Verif.Lemmas.CSharpHeard
import Verif.Lemmas.CSharpFollow

/-! # Replaying on objects with the right paths: the data is that of the model without paths, and the paths stay right -/

namespace Steit
open Spec

/-! ### Every object is where its path says -/

theorem held_nil {t : Ty} {o : t.CsObj} : t.held [] o = some (.value t o) := rfl

theorem held_cons {t : Ty} {o : t.CsObj} {k : U32} {path : List U32} : t.held (k :: path) o = t.heldIn k path o := rfl

theorem pathOf_place : (t : Ty) → (p : List U32) → (v : t.Cs) → ∀ q, t.pathOf (t.place p v) = some q → q = p
  | .uint _, _, _, _, h => nomatch h
  | .sint _, _, _, _, h => nomatch h
  | .bool, _, _, _, h => nomatch h
  | .string, _, _, _, h => nomatch h
  | .bytes, _, _, _, h => by cases h; rfl
  | .vec _, _, _, _, h => by cases h; rfl
  | .array _ _, _, _, _, h => by cases h; rfl
  | .tuple _, _, _, _, h => nomatch h
  | .option _, _, _, _, h => by cases h; rfl
  | .box t, p, v, q, h => pathOf_place t p v q h
  | .hashMap _ _, _, _, _, h => nomatch h
  | .list _, _, _, _, h => by cases h; rfl
  | .map _ _, _, _, _, h => by cases h; rfl
  | .struct _ _ _, _, _, _, h => by cases h; rfl
  | .enum _ _ _ _, _, _, _, h => by cases h; rfl

/-- What is inside an object placed at `p` is where it says. -/
def In (heldIn : U32 → List U32 → Option Held) (p : List U32) : Prop :=
  ∀ k path h q, heldIn k path = some h → h.path = some q → q = p ++ k :: path

theorem from_in {whole : Held} {heldIn : U32 → List U32 → Option Held} {p : List U32} (h1 : ∀ q, whole.path = some q → q = p)
    (h2 : In heldIn p) (path : List U32) (h : Held) (q : List U32) (hh : heldFrom whole heldIn path = some h) (hq : h.path = some q) :
    q = p ++ path := by
  cases path with
  | nil =>
    cases hh
    rw [List.append_nil]
    exact h1 q hq
  | cons k path => exact h2 k path h q hh hq

theorem items_in {t : Ty} {p : List U32} {v : List t.Cs} (ih : ∀ p v, In (fun k path => t.heldIn k path (t.place p v)) p) :
    In (fun k path => ((v.mapIdx fun i x => t.place (p ++ [BitVec.ofNat 32 i]) x)[k.toNat]?).bind fun x =>
      heldFrom (.value t x) (fun k path => t.heldIn k path x) path) p := by
  intro k path h q hh hq
  simp only [List.getElem?_mapIdx] at hh
  cases hv : v[k.toNat]? with
  | none => rw [hv] at hh; cases hh
  | some x =>
    rw [hv] at hh
    simp only [Option.map_some, Option.bind_some, BitVec.ofNat_toNat, BitVec.setWidth_eq] at hh
    have := from_in (whole := .value t (t.place (p ++ [k]) x)) (fun q hq => pathOf_place t (p ++ [k]) x q hq) (ih (p ++ [k]) x) path h q hh hq
    rw [this, List.append_assoc]
    rfl

mutual
theorem place_in : (t : Ty) → (p : List U32) → (v : t.Cs) → In (fun k path => t.heldIn k path (t.place p v)) p
  | .uint _, _, _ => fun _ _ _ _ h => nomatch h
  | .sint _, _, _ => fun _ _ _ _ h => nomatch h
  | .bool, _, _ => fun _ _ _ _ h => nomatch h
  | .string, _, _ => fun _ _ _ _ h => nomatch h
  | .bytes, _, _ => fun _ _ _ _ h => nomatch h
  | .vec t, p, v => items_in (fun p v => place_in t p v)
  | .array _ t, p, v => items_in (fun p v => place_in t p v)
  | .tuple _, _, _ => fun _ _ _ _ h => nomatch h
  | .option t, p, v => by
    intro k path h q hh hq
    simp only [Ty.heldIn, Ty.place] at hh
    split at hh
    · rename_i hk
      subst hk
      cases v with
      | none => cases hh
      | some x =>
        have := from_in (whole := .value t (t.place (p ++ [0#32]) x)) (fun q hq => pathOf_place t (p ++ [0#32]) x q hq) (place_in t (p ++ [0#32]) x) path h q hh hq
        rw [this, List.append_assoc]
        rfl
    · cases hh
  | .box t, p, v => place_in t p v
  | .hashMap _ _, _, _ => fun _ _ _ _ h => nomatch h
  | .list t, p, v => items_in (fun p v => place_in t p v)
  | .map _ t, p, v => by
    intro k path h q hh hq
    simp only [Ty.heldIn, Ty.place] at hh
    rw [lookup_placed (fun k x => t.place (p ++ [k]) x)] at hh
    cases hv : v.lookup k with
    | none => rw [hv] at hh; cases hh
    | some x =>
      rw [hv] at hh
      have := from_in (whole := .value t (t.place (p ++ [k]) x)) (fun q hq => pathOf_place t (p ++ [k]) x q hq) (place_in t (p ++ [k]) x) path h q hh hq
      rw [this, List.append_assoc]
      rfl
  | .struct _ _ fs, p, v => placeFields_in fs p v
  | .enum _ _ fs vs, p, v => by
    intro k path h q hh hq
    rcases v with x | x
    · simp only [Ty.heldIn, Ty.place] at hh
      split at hh
      · rename_i hk
        subst hk
        have := from_in (whole := .variant fs ⟨p ++ [0#32], fs.place (p ++ [0#32]) x⟩) (fun q hq => by cases hq; rfl)
          (placeFields_in fs (p ++ [0#32]) x) path h q hh hq
        rw [this, List.append_assoc]
        rfl
      · cases hh
    · exact placeVariants_in vs p x k path h q hh hq

theorem placeFields_in : (fs : Fields) → (p : List U32) → (v : fs.Cs) → In (fun k path => fs.heldIn k path (fs.place p v)) p
  | .nil, _, _ => fun _ _ _ _ h => nomatch h
  | .cons tag _ t fs, p, v => by
    intro k path h q hh hq
    simp only [Fields.heldIn, Fields.place] at hh
    split at hh
    · rename_i hk
      subst hk
      have := from_in (whole := .value t (t.place (p ++ [k]) v.1)) (fun q hq => pathOf_place t (p ++ [k]) v.1 q hq) (place_in t (p ++ [k]) v.1) path h q hh hq
      rw [this, List.append_assoc]
      rfl
    · exact placeFields_in fs p v.2 k path h q hh hq

theorem placeVariants_in : (vs : Variants) → (p : List U32) → (v : vs.Cs) → In (fun k path => vs.heldIn k path (vs.place p v)) p
  | .nil, _, v => nomatch v
  | .cons tag _ fs vs, p, v => by
    intro k path h q hh hq
    rcases v with x | x
    · simp only [Variants.heldIn, Variants.place] at hh
      split at hh
      · rename_i hk
        subst hk
        have := from_in (whole := .variant fs ⟨p ++ [k], fs.place (p ++ [k]) x⟩) (fun q hq => by cases hq; rfl)
          (placeFields_in fs (p ++ [k]) x) path h q hh hq
        rw [this, List.append_assoc]
        rfl
      · cases hh
    · exact placeVariants_in vs p x k path h q hh hq
end

theorem place_situated (t : Ty) (p : List U32) (v : t.Cs) : Situated t p (t.place p v) := by
  intro tags h q hh hq
  exact from_in (whole := .value t (t.place p v)) (fun q hq => pathOf_place t p v q hq) (place_in t p v) tags h q hh hq

/-! ### The same data -/

theorem bind_map_fst {α β γ δ : Type} {x : Except Exn (α × List CsEvent)} {y : Except Exn γ} {f : γ → α} {g : α → β} {g' : γ → δ} {f' : δ → β}
    (h : x.map Prod.fst = y.map f) (hg : ∀ c, g (f c) = f' (g' c)) :
    (x >>= fun s => Except.ok (g s.1, s.2)).map Prod.fst = (y >>= fun c => Except.ok (g' c)).map f' := by
  cases x with
  | error e =>
    cases y with
    | error e' => cases h; rfl
    | ok c => cases h
  | ok s =>
    cases y with
    | error e' => cases h
    | ok c =>
      have : s.1 = f c := by simpa [Except.map] using h
      simp only [bind, Except.bind, Except.map, this, hg]

theorem csReplaceAtObj_notify (ρ : Bytes → Str) (p : List U32) (wire : WireType) (bs : Bytes) (tag : U32) : (fs : Fields) → ∀ (v : fs.Cs) (evs),
    (fs.csReplaceAtObj ρ true p tag wire bs (fs.place p v, evs)).map (fun s => (s.1.1, s.2)) =
      (fs.csReplaceAt ρ tag wire bs v).map fun s => (fs.place p s.1, s.2)
  | .nil, v, evs => by
    simp only [Fields.csReplaceAtObj, Fields.csReplaceAt]
    cases csSkipField wire bs <;> rfl
  | .cons tag' _ t fs, v, evs => by
    simp only [Fields.csReplaceAtObj, Fields.csReplaceAt]
    split
    · rw [csDeserializeAt_place]
      cases t.csDeserialize ρ bs <;> rfl
    · have ih := csReplaceAtObj_notify ρ p wire bs tag fs v.2 evs
      simp only [Fields.place]
      cases h1 : fs.csReplaceAtObj ρ true p tag wire bs (fs.place p v.2, evs) with
      | error e =>
        cases h2 : fs.csReplaceAt ρ tag wire bs v.2 with
        | error e' => rw [h1, h2] at ih; cases ih; rfl
        | ok s => rw [h1, h2] at ih; cases ih
      | ok r =>
        cases h2 : fs.csReplaceAt ρ tag wire bs v.2 with
        | error e' => rw [h1, h2] at ih; cases ih
        | ok s =>
          rw [h1, h2] at ih
          simp only [Except.map, Except.ok.injEq, Prod.mk.injEq] at ih
          simp only [bind, Except.bind, Except.map, ih.1, ih.2]

theorem message_data (ρ : Bytes → Str) (fs : Fields) (act : CsAct) (p : List U32) (v : fs.Cs) :
    (fs.csPerformObj ρ act ⟨p, fs.place p v⟩).map Prod.fst = (fs.csPerform ρ act v).map fun v => ⟨p, fs.place p v⟩ := by
  unfold Fields.csPerformObj Fields.csPerform
  cases act with
  | update tag value =>
    simp only
    cases fs.csGetWireType tag with
    | none => rfl
    | some wire =>
      have := csReplaceAtObj_notify ρ p wire value tag fs v []
      cases h1 : fs.csReplaceAtObj ρ true p tag wire value (fs.place p v, []) with
      | error e =>
        cases h2 : fs.csReplaceAt ρ tag wire value v with
        | error e' => rw [h1, h2] at this; cases this; simp only [h1, h2]; rfl
        | ok s => rw [h1, h2] at this; cases this
      | ok r =>
        cases h2 : fs.csReplaceAt ρ tag wire value v with
        | error e' => rw [h1, h2] at this; cases this
        | ok s =>
          rw [h1, h2] at this
          simp only [Except.map, Except.ok.injEq, Prod.mk.injEq] at this
          simp only [h1, h2, bind, Except.bind, Except.map, this.1]
  | push item => rfl
  | pop => rfl
  | remove key => rfl

theorem getLast?_mapIdx' {α β : Type} (f : Nat → α → β) (xs : List α) :
    (xs.mapIdx f).getLast? = xs.getLast?.map (f (xs.length - 1)) := by
  rw [List.getLast?_eq_getElem?, List.getLast?_eq_getElem?, List.getElem?_mapIdx, List.length_mapIdx]

theorem dropLast_mapIdx {α β : Type} (f : Nat → α → β) (xs : List α) : (xs.mapIdx f).dropLast = xs.dropLast.mapIdx f := by
  apply List.ext_getElem?
  intro i
  rw [List.getElem?_dropLast, List.getElem?_mapIdx, List.getElem?_mapIdx, List.getElem?_dropLast, List.length_mapIdx]
  split <;> rfl

theorem set_mapIdx {α β : Type} (f : Nat → α → β) (xs : List α) (i : Nat) (x : α) : (xs.mapIdx f).set i (f i x) = (xs.set i x).mapIdx f := by
  rw [List.mapIdx_set]

theorem ofNat_toNat' (k : U32) : BitVec.ofNat 32 k.toNat = k := by simp

theorem perform_data (ρ : Bytes → Str) : (t : Ty) → (act : CsAct) → (p : List U32) → (v : t.Cs) →
    (t.csPerformObj ρ act (t.place p v)).map Prod.fst = (t.csPerform ρ act v).map (t.place p)
  | .list t, act, p, v => by
    cases act with
    | update tag value =>
      simp only [Ty.csPerformObj, Ty.csPerform, Ty.place, List.getElem?_mapIdx]
      by_cases hl : v.length ≤ tag.toNat
      · rw [if_pos hl, List.getElem?_eq_none hl]
        rfl
      · rw [if_neg hl, List.getElem?_eq_getElem (by omega)]
        simp only [Option.map_some, csDeserializeAt_place]
        cases t.csDeserialize ρ value with
        | error e => rfl
        | ok x =>
          have := set_mapIdx (fun i x => t.place (p ++ [BitVec.ofNat 32 i]) x) v tag.toNat x.1
          simp only [ofNat_toNat'] at this
          simp only [quiet, bind, Except.bind, Except.map, this, Ty.place]
    | push item =>
      simp only [Ty.csPerformObj, Ty.csPerform, Ty.place, csDeserializeAt_place, List.length_mapIdx]
      cases t.csDeserialize ρ item with
      | error e => rfl
      | ok x => simp only [quiet, bind, Except.bind, Except.map, Ty.place, mapIdx_concat]
    | pop =>
      simp only [Ty.csPerformObj, Ty.csPerform, Ty.place, getLast?_mapIdx']
      by_cases hv : v = []
      · subst hv; rfl
      · rw [if_neg hv, List.getLast?_eq_some_getLast hv]
        simp only [Option.map_some, Except.map, Ty.place, dropLast_mapIdx]
    | remove key => rfl
  | .map kt t, act, p, v => by
    cases act with
    | update tag value =>
      simp only [Ty.csPerformObj, Ty.csPerform, Ty.place, csDeserializeAt_place]
      cases t.csDeserialize ρ value with
      | error e => rfl
      | ok x => simp only [quiet, bind, Except.bind, Except.map, Ty.place, dictSet_map (fun k x => t.place (p ++ [k]) x)]
    | push item => rfl
    | pop => rfl
    | remove key =>
      simp only [Ty.csPerformObj, Ty.csPerform, Ty.place, lookup_placed (fun k x => t.place (p ++ [k]) x)]
      cases v.lookup key with
      | none => rfl
      | some x =>
        simp only [Option.map_some, Option.isNone_some, Except.map, dictRemove_map (fun k x => t.place (p ++ [k]) x)]
        rfl
  | .struct _ _ fs, act, p, v => by
    simp only [Ty.csPerformObj, Ty.csPerform, Ty.place]
    rw [message_data]
  | .enum ds c fs vs, act, p, v => by
    cases act with
    | update tag value =>
      simp only [Ty.csPerformObj, Ty.csPerform]
      split
      · rw [csDeserializeAt_place]
        cases (Ty.struct false false fs).csDeserialize ρ value <;> rfl
      · rw [csVariantAt_place]
        cases vs.csVariant ρ tag value with
        | error e => rfl
        | ok x => cases x <;> rfl
    | push item => rfl
    | pop => rfl
    | remove key => rfl
  | .box t, act, p, v => by
    have := perform_data ρ t act p v
    simpa only [Ty.csPerformObj, Ty.csPerform, Ty.place] using this
  | .uint _, act, _, _ => by cases act <;> rfl
  | .sint _, act, _, _ => by cases act <;> rfl
  | .bool, act, _, _ => by cases act <;> rfl
  | .string, act, _, _ => by cases act <;> rfl
  | .bytes, act, _, _ => by cases act <;> rfl
  | .vec _, act, _, _ => by cases act <;> rfl
  | .array _ _, act, _, _ => by cases act <;> rfl
  | .tuple _, act, _, _ => by cases act <;> rfl
  | .option _, act, _, _ => by cases act <;> rfl
  | .hashMap _ _, act, _, _ => by cases act <;> rfl

theorem descend_data {β γ : Type} {f : β → γ} {P : β → Except Exn β} {B : U32 → List U32 → β → Except Exn β}
    {P' : γ → Except Exn (γ × List CsEvent)} {B' : U32 → List U32 → γ → Except Exn (γ × List CsEvent)} {v : β}
    (hP : (P' (f v)).map Prod.fst = (P v).map f) (hB : ∀ k path, (B' k path (f v)).map Prod.fst = (B k path v).map f) (path : List U32) :
    (descendObj P' B' path (f v)).map Prod.fst = (descend P B path v).map f := by
  cases path with
  | nil => exact hP
  | cons k path => exact hB k path

theorem belowMessage_data {fs : Fields} {x : Except Exn (fs.CsObj × List CsEvent)} {y : Except Exn fs.Cs} {p : List U32}
    (h : x.map Prod.fst = y.map (fs.place p)) :
    (x >>= fun s => Except.ok ((⟨p, s.1⟩ : Obj fs.CsObj), s.2)).map Prod.fst = y.map fun v => (⟨p, fs.place p v⟩ : Obj fs.CsObj) := by
  cases x with
  | error e =>
    cases y with
    | error e' => cases h; rfl
    | ok c => cases h
  | ok s =>
    cases y with
    | error e' => cases h
    | ok c =>
      have : s.1 = fs.place p c := by simpa [Except.map] using h
      simp only [bind, Except.bind, Except.map, this]

mutual
theorem below_data (ρ : Bytes → Str) (act : CsAct) : (t : Ty) → (k : U32) → (path : List U32) → (p : List U32) → (v : t.Cs) →
    (t.csBelowObj ρ act k path (t.place p v)).map Prod.fst = (t.csBelow ρ act k path v).map (t.place p)
  | .list t, k, path, p, v => by
    simp only [Ty.csBelowObj, Ty.csBelow, Ty.place, List.getElem?_mapIdx]
    split
    · cases hv : v[k.toNat]? with
      | none => rfl
      | some x =>
        simp only [Option.map_some, ofNat_toNat']
        refine bind_map_fst (g := fun y => (⟨p, (v.mapIdx fun i x => t.place (p ++ [BitVec.ofNat 32 i]) x).set k.toNat y⟩ : (Ty.list t).CsObj))
          (g' := fun y => v.set k.toNat y) (f' := fun v : List t.Cs => (⟨p, v.mapIdx fun i x => t.place (p ++ [BitVec.ofNat 32 i]) x⟩ : (Ty.list t).CsObj))
          (descend_data (f := t.place (p ++ [k])) (perform_data ρ t act (p ++ [k]) x)
            (fun k' path => below_data ρ act t k' path (p ++ [k]) x) path) ?_
        intro c
        have := set_mapIdx (fun i x => t.place (p ++ [BitVec.ofNat 32 i]) x) v k.toNat c
        simp only [ofNat_toNat'] at this
        rw [this]
    · rfl
  | .map _ t, k, path, p, v => by
    simp only [Ty.csBelowObj, Ty.csBelow, Ty.place, lookup_placed (fun k x => t.place (p ++ [k]) x)]
    split
    · cases hv : v.lookup k with
      | none => rfl
      | some x =>
        refine bind_map_fst (g := fun y => (⟨p, dictPut k y (v.map fun e => (e.1, t.place (p ++ [e.1]) e.2))⟩ : Obj (List (U32 × t.CsObj))))
          (g' := fun y => dictPut k y v) (f' := fun v : List (U32 × t.Cs) => (⟨p, v.map fun e => (e.1, t.place (p ++ [e.1]) e.2)⟩ : Obj (List (U32 × t.CsObj))))
          (descend_data (f := t.place (p ++ [k])) (perform_data ρ t act (p ++ [k]) x)
            (fun k' path => below_data ρ act t k' path (p ++ [k]) x) path) ?_
        intro c
        rw [dictPut_map (fun k x => t.place (p ++ [k]) x)]
    · rfl
  | .struct _ _ fs, k, path, p, v => by
    have ih := belowFields_data ρ act fs k path p v
    simp only [Ty.csBelowObj, Ty.csBelow, Ty.place]
    cases h1 : fs.csBelowObj ρ act k path (fs.place p v) with
    | error e =>
      cases h2 : fs.csBelow ρ act k path v with
      | error e' => rw [h1, h2] at ih; cases ih; rfl
      | ok s => rw [h1, h2] at ih; cases ih
    | ok r =>
      cases h2 : fs.csBelow ρ act k path v with
      | error e' => rw [h1, h2] at ih; cases ih
      | ok s =>
        rw [h1, h2] at ih
        simp only [Except.map, Except.ok.injEq] at ih
        simp only [bind, Except.bind, Except.map, ih, Ty.place]
  | .enum _ _ fs vs, k, path, p, v => by
    rcases v with x | x
    · simp only [Ty.csBelowObj, Ty.csBelow, Ty.place]
      split
      · rename_i hk
        subst hk
        refine (bind_map_fst (g := fun x => (⟨p, .inl x⟩ : Obj (Obj fs.CsObj ⊕ vs.CsObj))) (g' := fun x => Sum.inl x)
          (f' := fun v : fs.Cs ⊕ vs.Cs => (⟨p, match v with
            | .inl x => .inl ⟨p ++ [0#32], fs.place (p ++ [0#32]) x⟩
            | .inr x => .inr (vs.place p x)⟩ : Obj (Obj fs.CsObj ⊕ vs.CsObj)))
          (descend_data (f := fun v : fs.Cs => (⟨p ++ [0#32], fs.place (p ++ [0#32]) v⟩ : Obj fs.CsObj))
            (B := fun k path v => fs.csBelow ρ act k path v) (B' := fun k path o => do
              let (v, events) ← fs.csBelowObj ρ act k path o.data
              .ok (⟨o.path, v⟩, events))
            (message_data ρ fs act (p ++ [0#32]) x) (fun k' path => belowMessage_data (belowFields_data ρ act fs k' path (p ++ [0#32]) x)) path)
          (fun c => rfl)).trans ?_
        cases descend (fs.csPerform ρ act) (fun k path v => fs.csBelow ρ act k path v) path x <;> rfl
      · rfl
    · have ih := belowVariants_data ρ act vs k path p x
      simp only [Ty.csBelowObj, Ty.csBelow, Ty.place]
      refine (bind_map_fst (g := fun x => (⟨p, .inr x⟩ : Obj (Obj fs.CsObj ⊕ vs.CsObj))) (g' := fun x => Sum.inr x)
        (f' := fun v : fs.Cs ⊕ vs.Cs => (⟨p, match v with
            | .inl x => .inl ⟨p ++ [0#32], fs.place (p ++ [0#32]) x⟩
            | .inr x => .inr (vs.place p x)⟩ : Obj (Obj fs.CsObj ⊕ vs.CsObj))) ih (fun c => rfl)).trans ?_
      cases vs.csBelow ρ act k path x <;> rfl
  | .box t, k, path, p, v => by
    have ih := below_data ρ act t k path p v
    simpa only [Ty.csBelowObj, Ty.csBelow, Ty.place] using ih
  | .uint _, _, _, _, _ => rfl
  | .sint _, _, _, _, _ => rfl
  | .bool, _, _, _, _ => rfl
  | .string, _, _, _, _ => rfl
  | .bytes, _, _, _, _ => rfl
  | .vec _, _, _, _, _ => rfl
  | .array _ _, _, _, _, _ => rfl
  | .tuple _, _, _, _, _ => rfl
  | .option _, _, _, _, _ => rfl
  | .hashMap _ _, _, _, _, _ => rfl

theorem belowFields_data (ρ : Bytes → Str) (act : CsAct) : (fs : Fields) → (k : U32) → (path : List U32) → (p : List U32) → (v : fs.Cs) →
    (fs.csBelowObj ρ act k path (fs.place p v)).map Prod.fst = (fs.csBelow ρ act k path v).map (fs.place p)
  | .nil, _, _, _, _ => rfl
  | .cons tag _ t fs, k, path, p, v => by
    simp only [Fields.csBelowObj, Fields.csBelow, Fields.place]
    split
    · rename_i hk
      subst hk
      split
      · exact bind_map_fst (g := fun x => (x, fs.place p v.2)) (g' := fun x => (x, v.2)) (f' := fun v : t.Cs × fs.Cs => (t.place (p ++ [k]) v.1, fs.place p v.2))
          (descend_data (f := t.place (p ++ [k])) (perform_data ρ t act (p ++ [k]) v.1)
            (fun k' path => below_data ρ act t k' path (p ++ [k]) v.1) path) (fun c => rfl)
      · rfl
    · exact bind_map_fst (g := fun x => (t.place (p ++ [tag]) v.1, x)) (g' := fun x => (v.1, x)) (f' := fun v : t.Cs × fs.Cs => (t.place (p ++ [tag]) v.1, fs.place p v.2))
        (belowFields_data ρ act fs k path p v.2) (fun c => rfl)

theorem belowVariants_data (ρ : Bytes → Str) (act : CsAct) : (vs : Variants) → (k : U32) → (path : List U32) → (p : List U32) → (v : vs.Cs) →
    (vs.csBelowObj ρ act k path (vs.place p v)).map Prod.fst = (vs.csBelow ρ act k path v).map (vs.place p)
  | .nil, _, _, _, v => nomatch v
  | .cons tag _ fs vs, k, path, p, v => by
    rcases v with x | x
    · simp only [Variants.csBelowObj, Variants.csBelow, Variants.place]
      split
      · rename_i hk
        subst hk
        refine (bind_map_fst (g := fun x => (.inl x : Obj fs.CsObj ⊕ vs.CsObj)) (g' := fun x => Sum.inl x)
          (f' := fun v : fs.Cs ⊕ vs.Cs => (match v with
            | .inl x => .inl ⟨p ++ [k], fs.place (p ++ [k]) x⟩
            | .inr x => .inr (vs.place p x) : Obj fs.CsObj ⊕ vs.CsObj))
          (descend_data (f := fun v : fs.Cs => (⟨p ++ [k], fs.place (p ++ [k]) v⟩ : Obj fs.CsObj))
            (B := fun k path v => fs.csBelow ρ act k path v) (B' := fun k path o => do
              let (v, events) ← fs.csBelowObj ρ act k path o.data
              .ok (⟨o.path, v⟩, events))
            (message_data ρ fs act (p ++ [k]) x) (fun k' path => belowMessage_data (belowFields_data ρ act fs k' path (p ++ [k]) x)) path)
          (fun c => rfl)).trans ?_
        cases descend (fs.csPerform ρ act) (fun k path v => fs.csBelow ρ act k path v) path x <;> rfl
      · rfl
    · simp only [Variants.csBelowObj, Variants.csBelow, Variants.place]
      refine (bind_map_fst (g := fun x => (.inr x : Obj fs.CsObj ⊕ vs.CsObj)) (g' := fun x => Sum.inr x)
        (f' := fun v : fs.Cs ⊕ vs.Cs => (match v with
            | .inl x => .inl ⟨p ++ [tag], fs.place (p ++ [tag]) x⟩
            | .inr x => .inr (vs.place p x) : Obj fs.CsObj ⊕ vs.CsObj)) (belowVariants_data ρ act vs k path p x) (fun c => rfl)).trans ?_
      cases vs.csBelow ρ act k path x <;> rfl
end

/-- A new root put at the path of the old one is where the old one was. -/
theorem place_csPath : (t : Ty) → (p : List U32) → (c c' : t.Cs) → t.place (t.csPath (t.place p c)) c' = t.place p c'
  | .uint _, _, _, _ => rfl
  | .sint _, _, _, _ => rfl
  | .bool, _, _, _ => rfl
  | .string, _, _, _ => rfl
  | .bytes, _, _, _ => rfl
  | .vec _, _, _, _ => rfl
  | .array _ _, _, _, _ => rfl
  | .tuple _, _, _, _ => rfl
  | .option _, _, _, _ => rfl
  | .box t, p, c, c' => place_csPath t p c c'
  | .hashMap _ _, _, _, _ => rfl
  | .list _, _, _, _ => rfl
  | .map _ _, _, _, _ => rfl
  | .struct _ _ _, _, _, _ => rfl
  | .enum _ _ _ _, _, _, _ => rfl

/-- Forgetting the paths, acting on objects is acting on data, and the paths stay right. -/
theorem at_data (ρ : Bytes → Str) (t : Ty) (act : CsAct) (path p : List U32) (c : t.Cs) :
    (t.csAtObj ρ act path (t.place p c)).map Prod.fst = (t.csAt ρ act path c).map (t.place p) :=
  descend_data (f := t.place p) (perform_data ρ t act p c) (fun k path => below_data ρ act t k path p c) path

/-- Forgetting the paths, replaying an entry on objects is replaying it on data, and the paths stay right. -/
theorem entry_data (ρ : Bytes → Str) (t : Ty) (p : List U32) (c : t.Cs) (e : Entry) :
    (t.csReplayEntryObj ρ (t.place p c) e).map Prod.fst = (t.csReplayEntry ρ c e).map (t.place p) := by
  cases e with
  | update path value =>
    simp only [Ty.csReplayEntryObj, Ty.csReplayEntry]
    cases hp : path.getLast? with
    | none =>
      simp only [csDeserializeAt_place]
      cases h : t.csDeserialize ρ value with
      | error e => rfl
      | ok s => simp only [quiet, Except.map, bind, Except.bind, place_csPath]
    | some tag => exact at_data ρ t _ _ p c
  | listPush path item => exact at_data ρ t _ _ p c
  | listPop path => exact at_data ρ t _ _ p c
  | mapRemove path key => exact at_data ρ t _ _ p c

/-- So does a round of replay. -/
theorem step_data (ρ : Bytes → Str) (t : Ty) (p : List U32) (c : t.Cs) (events : List CsEvent) (bs : Bytes) :
    (t.csReplayStepObj ρ (t.place p c, events) bs).map (fun r => (r.1.1, r.2)) =
      (t.csReplayStep ρ c bs).map fun r => (t.place p r.1, r.2) := by
  simp only [Ty.csReplayStepObj, Ty.csReplayStep]
  cases h1 : csGetNested bs with
  | error e => rfl
  | ok r1 =>
    simp only [bind, Except.bind]
    cases h2 : logEntryTy.csDeserialize ρ r1.1 with
    | error e => rfl
    | ok r2 =>
      simp only
      have h := entry_data ρ t p c (.ofCs r2.1)
      cases h3 : t.csReplayEntryObj ρ (t.place p c) (.ofCs r2.1) with
      | error e =>
        cases h4 : t.csReplayEntry ρ c (.ofCs r2.1) with
        | error e' => rw [h3, h4] at h; cases h; rfl
        | ok s => rw [h3, h4] at h; cases h
      | ok r =>
        cases h4 : t.csReplayEntry ρ c (.ofCs r2.1) with
        | error e' => rw [h3, h4] at h; cases h
        | ok s =>
          rw [h3, h4] at h
          simp only [Except.map, Except.ok.injEq] at h ⊢
          rw [h]

theorem replay_data_until (ρ : Bytes → Str) (t : Ty) (p : List U32) : (n : Nat) → (c : t.Cs) → (events : List CsEvent) → (bs : Bytes) →
    (untilEnd (t.csReplayStepObj ρ) n (t.place p c, events) bs).map Prod.fst =
      (untilEnd (t.csReplayStep ρ) n c bs).map (t.place p)
  | 0, c, events, bs => by cases bs <;> rfl
  | n + 1, c, events, [] => rfl
  | n + 1, c, events, b :: bs => by
    have h := step_data ρ t p c events (b :: bs)
    simp only [untilEnd]
    cases h1 : t.csReplayStepObj ρ (t.place p c, events) (b :: bs) with
    | error e =>
      cases h2 : t.csReplayStep ρ c (b :: bs) with
      | error e' => rw [h1, h2] at h; cases h; rfl
      | ok s => rw [h1, h2] at h; cases h
    | ok r =>
      cases h2 : t.csReplayStep ρ c (b :: bs) with
      | error e' => rw [h1, h2] at h; cases h
      | ok s =>
        rw [h1, h2] at h
        simp only [Except.map, Except.ok.injEq, Prod.mk.injEq] at h
        obtain ⟨⟨o, ev⟩, rest⟩ := r
        obtain ⟨rfl, rfl⟩ := h
        exact replay_data_until ρ t p n s.1 ev s.2

/-- Forgetting the paths, replaying a log on objects is replaying it on data, and the paths stay right. -/
theorem replay_data (ρ : Bytes → Str) (t : Ty) (p : List U32) (c : t.Cs) (bs : Bytes) :
    (t.csReplayObj ρ (t.place p c) bs).map Prod.fst = (t.csReplay ρ c bs).map (t.place p) :=
  replay_data_until ρ t p bs.length c [] bs

end Steit
