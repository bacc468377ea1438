import Verif.Spec.Events
import Verif.Lemmas.CSharpRead

/-! # Paths do not matter to the data, and are the right ones -/

namespace Steit
open Spec

/-! ### Loops -/

theorem untilEnd_map {σ τ : Type} {step : σ → Bytes → Except Exn (σ × Bytes)} {step' : τ → Bytes → Except Exn (τ × Bytes)} (f : σ → τ)
    (h : ∀ v bs, step' (f v) bs = (step v bs).map (Prod.map f id)) (n : Nat) :
    ∀ (v : σ) (bs : Bytes), untilEnd step' n (f v) bs = (untilEnd step n v bs).map f := by
  induction n with
  | zero => intro v bs; cases bs <;> rfl
  | succ n ih =>
    intro v bs
    cases bs with
    | nil => rfl
    | cons b bs =>
      simp only [untilEnd, h v (b :: bs)]
      cases step v (b :: bs) with
      | error e => rfl
      | ok r => exact ih r.1 r.2

theorem csNested_quiet {α β : Type} (f : α → β) (sized : Bool) (read : Bytes → Except Exn (α × Bytes)) (bs : Bytes) :
    csNested sized (fun bs => quiet f (read bs)) bs = quiet f (csNested sized read bs) := by
  unfold csNested
  split
  · cases csGetNested bs with
    | error e => rfl
    | ok r =>
      simp only [bind, Except.bind, quiet]
      cases read r.1 <;> rfl
  · rfl

theorem mapIdx_concat {α β : Type} (f : Nat → α → β) (xs : List α) (x : α) :
    (xs ++ [x]).mapIdx f = xs.mapIdx f ++ [f xs.length x] := by
  simp [List.mapIdx_append]

theorem csAddItemAt_map {α β : Type} (f : List U32 → α → β) {read : Bytes → Except Exn (α × Bytes)}
    {read' : List U32 → Bytes → Except Exn ((β × List CsEvent) × Bytes)} (h : ∀ p bs, read' p bs = quiet (f p) (read bs))
    (path : List U32) (v : List α) (bs : Bytes) :
    csAddItemAt read' path (v.mapIdx fun i x => f (path ++ [BitVec.ofNat 32 i]) x, []) bs =
      (csAddItem read v bs).map (Prod.map (fun v => (v.mapIdx fun i x => f (path ++ [BitVec.ofNat 32 i]) x, [])) id) := by
  unfold csAddItemAt csAddItem
  simp only [List.length_mapIdx, h]
  cases read bs with
  | error e => rfl
  | ok r => simp [bind, Except.bind, quiet, Except.map, mapIdx_concat]

theorem dictSet_map {α β : Type} (f : U32 → α → β) (k : U32) (x : α) (d : List (U32 × α)) :
    dictSet k (f k x) (d.map fun e => (e.1, f e.1 e.2)) = (dictSet k x d).map fun e => (e.1, f e.1 e.2) := by
  unfold dictSet
  simp only [List.map_cons, List.filter_map]
  rfl

theorem dictPut_map {α β : Type} (f : U32 → α → β) (k : U32) (x : α) :
    ∀ d : List (U32 × α), dictPut k (f k x) (d.map fun e => (e.1, f e.1 e.2)) = (dictPut k x d).map fun e => (e.1, f e.1 e.2)
  | [] => rfl
  | (j, y) :: d => by
    simp only [List.map_cons, dictPut]
    split
    · rename_i h; subst h; rfl
    · rw [dictPut_map f k x d]; rfl

theorem dictRemove_map {α β : Type} (f : U32 → α → β) (k : U32) (d : List (U32 × α)) :
    dictRemove k (d.map fun e => (e.1, f e.1 e.2)) = (dictRemove k d).map fun e => (e.1, f e.1 e.2) := by
  unfold dictRemove
  simp only [List.filter_map]
  rfl

theorem lookup_placed {α β : Type} (f : U32 → α → β) (k : U32) :
    ∀ d : List (U32 × α), (d.map fun e => (e.1, f e.1 e.2)).lookup k = (d.lookup k).map (f k)
  | [] => rfl
  | (j, x) :: d => by
    simp only [List.map_cons, List.lookup]
    by_cases h : k = j
    · subst h; simp
    · have : (k == j) = false := by simpa using h
      simp only [this]
      exact lookup_placed f k d

theorem csAddEntryAt_map {α β : Type} (f : List U32 → α → β) {read : Bytes → Except Exn (α × Bytes)}
    {read' : List U32 → Bytes → Except Exn ((β × List CsEvent) × Bytes)} (h : ∀ p bs, read' p bs = quiet (f p) (read bs))
    (path : List U32) (v : List (U32 × α)) (bs : Bytes) :
    csAddEntryAt read' path (v.map fun e => (e.1, f (path ++ [e.1]) e.2), []) bs =
      (csAddEntry read v bs).map (Prod.map (fun v => (v.map fun e => (e.1, f (path ++ [e.1]) e.2), [])) id) := by
  unfold csAddEntryAt csAddEntry
  cases csReadKey bs with
  | error e => rfl
  | ok r =>
    obtain ⟨⟨tag, w⟩, rest⟩ := r
    simp only [bind, Except.bind, h]
    cases read rest with
    | error e => rfl
    | ok r => simp [quiet, bind, Except.bind, Except.map, dictSet_map (fun k x => f (path ++ [k]) x)]

theorem csReplaceStep_map {σ τ : Type} (f : σ → τ) (gw : U32 → Option WireType) {r : U32 → WireType → Bytes → σ → Except Exn (σ × Bytes)}
    {r' : U32 → WireType → Bytes → τ → Except Exn (τ × Bytes)}
    (h : ∀ tag wire bs v, r' tag wire bs (f v) = (r tag wire bs v).map (Prod.map f id)) (v : σ) (bs : Bytes) :
    csReplaceStep gw r' (f v) bs = (csReplaceStep gw r v bs).map (Prod.map f id) := by
  unfold csReplaceStep
  cases csReadKey bs with
  | error e => rfl
  | ok k =>
    obtain ⟨⟨tag, wire⟩, rest⟩ := k
    cases wire with
    | varint =>
      simp only [bind, Except.bind]
      split
      · cases csSkipField .varint rest <;> rfl
      · exact h tag .varint rest v
    | sized =>
      simp only [bind, Except.bind]
      cases csGetNested rest with
      | error e => rfl
      | ok p =>
        simp only []
        split
        · rfl
        · rw [h]
          cases r tag .sized p.1 v <;> rfl

theorem quiet_eq {α β : Type} (f : α → β) (r : Except Exn (α × Bytes)) :
    quiet f r = r.map (Prod.map (fun x => (f x, [])) id) := by
  cases r <;> rfl

/-! ### Constructing and reading -/

mutual
theorem csConstruct_place : (t : Ty) → (p : List U32) → t.csConstruct p = t.place p t.csNew
  | .uint _, _ => rfl
  | .sint _, _ => rfl
  | .bool, _ => rfl
  | .string, _ => rfl
  | .bytes, _ => rfl
  | .vec _, _ => rfl
  | .array _ _, _ => rfl
  | .tuple _, _ => rfl
  | .option _, _ => rfl
  | .box t, p => csConstruct_place t p
  | .hashMap _ _, _ => rfl
  | .list _, _ => rfl
  | .map _ _, _ => rfl
  | .struct _ _ fs, p => by
    simp only [Ty.csConstruct, Ty.place, Ty.csNew, csConstruct_placeFields fs p]
  | .enum _ _ fs _, p => by
    simp only [Ty.csConstruct, Ty.place, Ty.csNew, csConstruct_placeFields fs (p ++ [0#32])]

theorem csConstruct_placeFields : (fs : Fields) → (p : List U32) → fs.csConstruct p = fs.place p fs.csNew
  | .nil, _ => rfl
  | .cons tag _ t fs, p => by
    simp only [Fields.csConstruct, Fields.place, Fields.csNew, csConstruct_place t, csConstruct_placeFields fs p]
end

/-- Reading a list of items with paths. -/
theorem items_place {α β : Type} (f : List U32 → α → β) (sized : Bool) {read : Bytes → Except Exn (α × Bytes)}
    {read' : List U32 → Bytes → Except Exn ((β × List CsEvent) × Bytes)} (h : ∀ p bs, read' p bs = quiet (f p) (read bs))
    (path : List U32) (bs : Bytes) :
    untilEnd (csAddItemAt (fun path bs => csNested sized (fun bs => read' path bs) bs) path) bs.length ([], []) bs =
      (untilEnd (csAddItem (csNested sized (fun bs => read bs))) bs.length [] bs).map fun v =>
        (v.mapIdx fun i x => f (path ++ [BitVec.ofNat 32 i]) x, []) :=
  untilEnd_map (fun v : List α => (v.mapIdx fun i x => f (path ++ [BitVec.ofNat 32 i]) x, ([] : List CsEvent)))
    (fun v bs => csAddItemAt_map f (fun p bs => by simp only [h]; exact csNested_quiet (f p) sized read bs) path v bs) bs.length [] bs

/-- Reading the entries of a map with paths. -/
theorem entries_place {α β : Type} (f : List U32 → α → β) (sized : Bool) {read : Bytes → Except Exn (α × Bytes)}
    {read' : List U32 → Bytes → Except Exn ((β × List CsEvent) × Bytes)} (h : ∀ p bs, read' p bs = quiet (f p) (read bs))
    (path : List U32) (bs : Bytes) :
    untilEnd (csAddEntryAt (fun path bs => csNested sized (fun bs => read' path bs) bs) path) bs.length ([], []) bs =
      (untilEnd (csAddEntry (csNested sized (fun bs => read bs))) bs.length [] bs).map fun v =>
        (v.map fun e => (e.1, f (path ++ [e.1]) e.2), []) :=
  untilEnd_map (fun v : List (U32 × α) => (v.map fun e => (e.1, f (path ++ [e.1]) e.2), ([] : List CsEvent)))
    (fun v bs => csAddEntryAt_map f (fun p bs => by simp only [h]; exact csNested_quiet (f p) sized read bs) path v bs) bs.length [] bs

/-- Reading a message with paths, given its `ReplaceAt`. -/
theorem message_place (ρ : Bytes → Str) (fs : Fields) (path : List U32)
    (h : ∀ tag wire bs v, fs.csReplaceAtObj ρ false path tag wire bs (fs.place path v, []) =
      quiet (fs.place path) (fs.csReplaceAt ρ tag wire bs v)) (bs : Bytes) :
    untilEnd (csReplaceStep fs.csGetWireType (fun tag wire bs v => fs.csReplaceAtObj ρ false path tag wire bs v)) bs.length
        (fs.csConstruct path, []) bs =
      (untilEnd (csReplaceStep fs.csGetWireType (fun tag wire bs v => fs.csReplaceAt ρ tag wire bs v)) bs.length fs.csNew bs).map
        fun v => (fs.place path v, []) := by
  rw [csConstruct_placeFields]
  exact untilEnd_map (fun v : fs.Cs => (fs.place path v, ([] : List CsEvent)))
    (fun v bs => csReplaceStep_map (fun v : fs.Cs => (fs.place path v, ([] : List CsEvent))) _
      (fun tag wire bs v => by rw [h, quiet_eq]) v bs) bs.length fs.csNew bs

mutual
theorem csDeserializeAt_place (ρ : Bytes → Str) : (t : Ty) → (path : List U32) → (bs : Bytes) →
    t.csDeserializeAt ρ path bs = quiet (t.place path) (t.csDeserialize ρ bs)
  | .uint _, _, _ => rfl
  | .sint _, _, _ => rfl
  | .bool, _, _ => rfl
  | .string, _, _ => rfl
  | .bytes, _, _ => rfl
  | .vec t, path, bs => by
    simp only [Ty.csDeserializeAt, Ty.csDeserialize,
      items_place t.place _ (fun p bs => csDeserializeAt_place ρ t p bs) path bs]
    cases untilEnd (csAddItem (csNested (t.isCsState || t.isCsString) fun bs => t.csDeserialize ρ bs)) bs.length [] bs <;> rfl
  | .array _ t, path, bs => by
    simp only [Ty.csDeserializeAt, Ty.csDeserialize,
      items_place t.place _ (fun p bs => csDeserializeAt_place ρ t p bs) path bs]
    cases untilEnd (csAddItem (csNested (t.isCsState || t.isCsString) fun bs => t.csDeserialize ρ bs)) bs.length [] bs <;> rfl
  | .tuple _, _, _ => rfl
  | .option t, path, bs => by
    simp only [Ty.csDeserializeAt, Ty.csDeserialize]
    split
    · rfl
    · have h : csNested (t.isCsState || t.isCsString) (fun bs => t.csDeserializeAt ρ (path ++ [0#32]) bs) bs =
          quiet (t.place (path ++ [0#32])) (csNested (t.isCsState || t.isCsString) (fun bs => t.csDeserialize ρ bs) bs) := by
        simp only [csDeserializeAt_place ρ t (path ++ [0#32])]
        exact csNested_quiet _ _ _ _
      rw [h]
      cases csNested (t.isCsState || t.isCsString) (fun bs => t.csDeserialize ρ bs) bs <;> rfl
  | .box t, path, bs => csDeserializeAt_place ρ t path bs
  | .hashMap _ _, _, _ => rfl
  | .list t, path, bs => by
    simp only [Ty.csDeserializeAt, Ty.csDeserialize,
      items_place t.place _ (fun p bs => csDeserializeAt_place ρ t p bs) path bs]
    cases untilEnd (csAddItem (csNested (t.isCsState || t.isCsString) fun bs => t.csDeserialize ρ bs)) bs.length [] bs <;> rfl
  | .map _ t, path, bs => by
    simp only [Ty.csDeserializeAt, Ty.csDeserialize,
      entries_place t.place _ (fun p bs => csDeserializeAt_place ρ t p bs) path bs]
    cases untilEnd (csAddEntry (csNested (t.isCsState || t.isCsString) fun bs => t.csDeserialize ρ bs)) bs.length [] bs <;> rfl
  | .struct _ _ fs, path, bs => by
    simp only [Ty.csDeserializeAt, Ty.csDeserialize,
      message_place ρ fs path (fun tag wire bs v => csReplaceAtObj_place ρ fs path tag wire bs v) bs]
    cases untilEnd (csReplaceStep fs.csGetWireType (fun tag wire bs v => fs.csReplaceAt ρ tag wire bs v)) bs.length fs.csNew bs <;> rfl
  | .enum _ _ fs vs, path, bs => by
    simp only [Ty.csDeserializeAt, Ty.csDeserialize]
    cases csReadUInt32 bs with
    | error e => rfl
    | ok r =>
      obtain ⟨variant, bs⟩ := r
      simp only [bind, Except.bind]
      split
      · simp only [message_place ρ fs (path ++ [0#32]) (fun tag wire bs v => csReplaceAtObj_place ρ fs (path ++ [0#32]) tag wire bs v) bs]
        cases untilEnd (csReplaceStep fs.csGetWireType (fun tag wire bs v => fs.csReplaceAt ρ tag wire bs v)) bs.length fs.csNew bs <;> rfl
      · simp only [csVariantAt_place ρ vs path variant bs]
        cases vs.csVariant ρ variant bs with
        | error e => rfl
        | ok r =>
          cases r with
          | none => simp only [Except.map, Option.map, quiet, bind, Except.bind, Ty.place, csConstruct_placeFields]
          | some x => rfl

theorem csReplaceAtObj_place (ρ : Bytes → Str) : (fs : Fields) → (path : List U32) → (tag : U32) → (wire : WireType) → (bs : Bytes) →
    (v : fs.Cs) → fs.csReplaceAtObj ρ false path tag wire bs (fs.place path v, []) = quiet (fs.place path) (fs.csReplaceAt ρ tag wire bs v)
  | .nil, path, tag, wire, bs, v => by
    simp only [Fields.csReplaceAtObj, Fields.csReplaceAt]
    cases csSkipField wire bs <;> rfl
  | .cons tag' _ t fs, path, tag, wire, bs, v => by
    simp only [Fields.csReplaceAtObj, Fields.csReplaceAt]
    split
    · rw [csDeserializeAt_place ρ t (path ++ [tag']) bs]
      cases t.csDeserialize ρ bs <;> rfl
    · have := csReplaceAtObj_place ρ fs path tag wire bs v.2
      simp only [Fields.place, this]
      cases fs.csReplaceAt ρ tag wire bs v.2 <;> rfl

theorem csVariantAt_place (ρ : Bytes → Str) : (vs : Variants) → (path : List U32) → (variant : U32) → (bs : Bytes) →
    vs.csVariantAt ρ path variant bs = (vs.csVariant ρ variant bs).map (Option.map fun x => (vs.place path x, []))
  | .nil, _, _, _ => rfl
  | .cons tag _ fs vs, path, variant, bs => by
    simp only [Variants.csVariantAt, Variants.csVariant]
    split
    · simp only [message_place ρ fs (path ++ [tag]) (fun tag' wire bs v => csReplaceAtObj_place ρ fs (path ++ [tag]) tag' wire bs v) bs]
      cases untilEnd (csReplaceStep fs.csGetWireType (fun tag wire bs v => fs.csReplaceAt ρ tag wire bs v)) bs.length fs.csNew bs <;> rfl
    · rw [csVariantAt_place ρ vs path variant bs]
      cases vs.csVariant ρ variant bs with
      | error e => rfl
      | ok r => cases r <;> rfl
end

end Steit
