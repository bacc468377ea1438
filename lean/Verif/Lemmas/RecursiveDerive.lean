import Verif.Lemmas.RecursiveDict

/-! # Two implementations that cannot be told apart: generated code -/

namespace Steit
open Spec

/-- Both absent, or both present and corresponding, for results of reading. -/
def RO {α β : Type} (P : α → β → Prop) (k : Nat) (r : Option (Res α)) (r' : Option (Res β)) : Prop :=
  (r = none ∧ r' = none) ∨ ∃ x y, r = some x ∧ r' = some y ∧ RR P k x y

/-- Both absent, or both present and corresponding, for results of replaying. -/
def SO {α β : Type} (P : α → β → Prop) (r : Option (Res α)) (r' : Option (Res β)) : Prop :=
  (r = none ∧ r' = none) ∨ ∃ x y, r = some x ∧ r' = some y ∧ SameRes P x y

/-- The generated code for the fields agrees. -/
structure FieldsRel {α β : Type} (P : α → β → Prop) (j : Nat) (fs : FieldsD α) (fs' : FieldsD β) : Prop where
  sizes : ∀ m l i size {v w}, P v w → fs.sizes m l i size v = fs'.sizes m l i size w
  serialize : ∀ m l i {v w}, P v w → fs.serialize m l i v = fs'.serialize m l i w
  init : 1 ≤ j → ∀ rt, P (fs.init rt) (fs'.init rt)
  mergeField : ∀ m n wt {v w} {bs : Bytes}, P v w → bs.length < j + 1 →
    RO P bs.length (fs.mergeField m n wt v bs) (fs'.mergeField m n wt w bs)
  setRuntime : ∀ rt {v w}, P v w → P (fs.setRuntime rt v) (fs'.setRuntime rt w)
  handleField : ∀ m n {v w} {path : List U32} kind key {bs : Bytes}, P v w → path.length + bs.length + 1 < j →
    SO P (fs.handleField m n v path kind key bs) (fs'.handleField m n w path kind key bs)

theorem fieldsNil_rel (j : Nat) : FieldsRel (fun _ _ => True) j fieldsNil fieldsNil :=
  ⟨fun _ _ _ _ _ _ _ => rfl, fun _ _ _ _ _ _ => rfl, fun _ _ => trivial, fun _ _ _ _ _ _ _ _ => .inl ⟨rfl, rfl⟩,
    fun _ _ _ _ => trivial, fun _ _ _ _ _ _ _ _ _ _ => .inl ⟨rfl, rfl⟩⟩

section
variable {α β α' β' : Type} {P : α → α' → Prop} {Q : β → β' → Prop} {j : Nat} {d : Dict α} {d' : Dict α'} {fs : FieldsD β}
  {fs' : FieldsD β'}

theorem fieldsCons_rel (ds : Bool) (tag : U32) (attrs : FieldAttrs) (h : Rel P j d d') (hf : FieldsRel Q j fs fs') :
    FieldsRel (SamePair P Q) j (fieldsCons ds tag attrs d fs) (fieldsCons ds tag attrs d' fs') where
  sizes := fun m l i size v w hv => by
    simp only [fieldsCons, h.1.computeSizeNested m _ (some tag) true hv.1, fun i n => hf.sizes m l i n hv.2]
  serialize := fun m l i v w hv => by
    simp only [fieldsCons, h.1.serializeNested m _ (some tag) true hv.1, fun i => hf.serialize m l i hv.2]
  init := fun hj rt => by
    refine ⟨?_, hf.init hj rt⟩
    simp only [fieldsCons]
    split
    · exact h.1.withRuntime hj _
    · exact h.1.dflt hj
  mergeField := fun m n wt v w bs hv hb => by
    simp only [fieldsCons]
    split
    · exact .inr ⟨_, _, rfl, rfl, (h.mergeNested m wt hv.1 hb).map (fun _ _ hx => ⟨hx, hv.2⟩) (Nat.le_refl _)⟩
    · rcases hf.mergeField m n wt hv.2 hb with ⟨h1, h2⟩ | ⟨x, y, h1, h2, h3⟩
      · rw [h1, h2]; exact .inl ⟨rfl, rfl⟩
      · rw [h1, h2]; exact .inr ⟨_, _, rfl, rfl, h3.map (fun _ _ hx => ⟨hv.1, hx⟩) (Nat.le_refl _)⟩
  setRuntime := fun rt v w hv => by
    refine ⟨?_, hf.setRuntime rt hv.2⟩
    simp only [fieldsCons]
    split
    · exact h.1.setRuntime _ hv.1
    · exact hv.1
  handleField := fun m n v w path kind key bs hv hb => by
    simp only [fieldsCons]
    split
    · refine .inr ⟨_, _, rfl, rfl, ?_⟩
      split
      · exact sameRes_map (h.1.handle m kind key hv.1 hb) fun _ _ hx => ⟨hx, hv.2⟩
      · exact ⟨hv, rfl⟩
    · rcases hf.handleField m n kind key hv.2 hb with ⟨h1, h2⟩ | ⟨x, y, h1, h2, h3⟩
      · rw [h1, h2]; exact .inl ⟨rfl, rfl⟩
      · rw [h1, h2]; exact .inr ⟨_, _, rfl, rfl, sameRes_map h3 fun _ _ hx => ⟨hv.1, hx⟩⟩

theorem readTag_shorter {m : Mode} {bs rest : Bytes} {t : U32 × WireType} (h : readTag m bs = .ok (t, rest)) :
    rest.length < bs.length := by
  obtain ⟨c, rfl, hc⟩ := readTag_ok h
  have := hc.length_pos
  simp only [List.length_append]; omega

theorem FieldsRel.merge (h : FieldsRel Q j fs fs') (m : Mode) {v : β} {w : β'} {bs : Bytes} (hv : Q v w) (hb : bs.length < j + 1) :
    RR Q bs.length (fs.merge m v bs) (fs'.merge m w bs) := by
  refine untilEof_rel (k := j) ?_ _ hv (by omega)
  intro v w bs hv _ hb
  unfold FieldsD.mergeStep
  cases ht : readTag m bs with
  | error e => exact .err hv
  | ok x =>
    obtain ⟨⟨n, wt⟩, rest⟩ := x
    have hl := readTag_shorter ht
    dsimp only
    rcases h.mergeField m n wt (bs := rest) hv (by omega) with ⟨h1, h2⟩ | ⟨x, y, h1, h2, h3⟩
    · rw [h1, h2]
      dsimp only
      cases hs : skipField m wt rest with
      | error e => exact .err hv
      | ok rest' => exact .ok hv (by have := (skipField_ok hs).2; omega)
    · rw [h1, h2]
      exact h3.mono (by omega)

/-- The same struct. -/
def SameStructV (P : α → β → Prop) (x : StructV α) (y : StructV β) : Prop := x.rt = y.rt ∧ P x.fields y.fields

theorem structMerge_rel (h : FieldsRel Q j fs fs') (m : Mode) {v : StructV β} {w : StructV β'} {bs : Bytes} (hv : SameStructV Q v w)
    (hb : bs.length < j + 1) :
    RR (SameStructV Q) bs.length ((fs.merge m v.fields bs).map (fun fields => { v with fields }))
      ((fs'.merge m w.fields bs).map (fun fields => { w with fields })) :=
  (h.merge m hv.2 hb).map (fun _ _ hx => ⟨hv.1, hx⟩) (Nat.le_refl _)

/-- Structs, at the level of their fields or, if they can be built without them, one higher. -/
theorem struct_rel (ds cached : Bool) {k : Nat} (h : FieldsRel Q j fs fs') (hk : k ≤ j + 1)
    (hi : 1 ≤ k → ∀ rt, Q (fs.init rt) (fs'.init rt)) :
    DictRel (SameStructV Q) k (structDict ds cached fs) (structDict ds cached fs') := by
  have hs : SerRel (SameStructV Q)
      { hasCache := fun _ => cached
        computeSize := fun m l (v : StructV β) => fs.sizes m l 0 0 v.fields
        serializeCached := fun m l v => fs.serialize m l 0 v.fields }
      { hasCache := fun _ => cached
        computeSize := fun m l (v : StructV β') => fs'.sizes m l 0 0 v.fields
        serializeCached := fun m l v => fs'.serialize m l 0 v.fields } :=
    ⟨fun _ => rfl, fun m l _ _ hv => h.sizes m l 0 0 hv.2, fun m l _ _ hv => h.serialize m l 0 hv.2⟩
  unfold structDict
  cases ds with
  | false =>
    rw [if_neg (by simp), if_neg (by simp)]
    exact plain_rel hs (fun m l v w o hv => hs.isOmissibleBySize m l o hv) (fun hj => ⟨rfl, hi hj none⟩)
      fun m v w bs hv hb => structMerge_rel h m hv (by omega)
  | true =>
    rw [if_pos rfl, if_pos rfl]
    refine ⟨⟨hs.hasCache, hs.computeSize, hs.serializeCached⟩, rfl, fun m l _ _ o hv => hs.isOmissibleBySize m l o hv,
      fun hj => ⟨rfl, hi hj _⟩, fun hj rt => ⟨rfl, hi hj _⟩, fun hv => congrArg some hv.1,
      fun rt v w hv => ⟨rfl, h.setRuntime rt hv.2⟩, ?_, fun m _ _ _ hv hb => structMerge_rel h m hv (by omega), ?_, ?_⟩
    · intro v w hv
      simp only [isRootDefault, hv.1]
    · intro m v w bs hv hb
      simp only [handleUpdateDefault, hv.1]
      exact structMerge_rel h m (v := ⟨w.rt, fs.init (some w.rt)⟩) (w := ⟨w.rt, fs'.init (some w.rt)⟩) ⟨rfl, hi (by omega) _⟩
        (by omega)
    · intro m v w path bs kind key hv hb
      dsimp only
      unfold structHandle
      cases path with
      | cons tag path =>
        dsimp only
        simp only [List.length_cons] at hb
        rcases h.handleField m tag kind key (path := path) (bs := bs) hv.2 (by omega) with ⟨h1, h2⟩ | ⟨x, y, h1, h2, h3⟩
        · rw [h1, h2]; exact ⟨hv, rfl⟩
        · rw [h1, h2]; exact sameRes_map h3 fun _ _ hx => ⟨hv.1, hx⟩
      | nil =>
        simp only [List.length_nil] at hb
        cases kind <;> dsimp only
        · rw [hv.1]
          refine sameRes_map (h.merge m (bs := bs) (hi (by omega) (some w.rt)) (by omega)).same ?_
          intro x y hx
          exact ⟨rfl, hx⟩
        · exact ⟨hv, rfl⟩
        · exact ⟨hv, rfl⟩
        · exact ⟨hv, rfl⟩

end

/-! ## Enums -/

/-- The generated code for the variants agrees. -/
structure VariantsRel {α β : Type} (P : α → β → Prop) (j : Nat) (vs : VariantsD α) (vs' : VariantsD β) : Prop where
  tagOf : ∀ {v w}, P v w → vs.tagOf v = vs'.tagOf w
  hasCache : ∀ {v w}, P v w → vs.hasCache v = vs'.hasCache w
  sizes : ∀ m l size {v w}, P v w → vs.sizes m l size v = vs'.sizes m l size w
  serialize : ∀ m l {v w}, P v w → vs.serialize m l v = vs'.serialize m l w
  ctor : 1 ≤ j → ∀ tag rt, SameOption P (vs.ctor tag rt) (vs'.ctor tag rt)
  mergeFields : ∀ m {v w} {bs : Bytes}, P v w → bs.length < j + 1 → RR P bs.length (vs.mergeFields m v bs) (vs'.mergeFields m w bs)
  setRuntime : ∀ rt {v w}, P v w → P (vs.setRuntime rt v) (vs'.setRuntime rt w)
  handleFields : ∀ m {v w} {path : List U32} kind key {bs : Bytes}, P v w → path.length + bs.length < j →
    SameRes P (vs.handleFields m v path kind key bs) (vs'.handleFields m w path kind key bs)

theorem variantsNil_rel (j : Nat) : VariantsRel (fun _ _ => False) j variantsNil variantsNil :=
  ⟨fun h => h.elim, fun h => h.elim, fun _ _ _ _ _ h => h.elim, fun _ _ _ _ h => h.elim, fun _ _ _ => trivial,
    fun _ _ _ _ h => h.elim, fun _ _ _ h => h.elim, fun _ _ _ _ _ _ _ h => h.elim⟩

section
variable {α β α' β' : Type} {P : α → α' → Prop} {Q : β → β' → Prop} {j : Nat} {fs : FieldsD α} {fs' : FieldsD α'} {vs : VariantsD β}
  {vs' : VariantsD β'}

theorem variantHandle_rel (hf : FieldsRel P j fs fs') (m : Mode) {v : α} {w : α'} {path : List U32} (kind : LogKind)
    (key : Option U32) {bs : Bytes} (hv : P v w) (hb : path.length + bs.length < j) :
    SameRes P (variantHandle fs m v path kind key bs) (variantHandle fs' m w path kind key bs) := by
  unfold variantHandle
  cases path with
  | nil => exact ⟨hv, rfl⟩
  | cons tag path =>
    dsimp only
    simp only [List.length_cons] at hb
    rcases hf.handleField m tag kind key (path := path) (bs := bs) hv (by omega) with ⟨h1, h2⟩ | ⟨x, y, h1, h2, h3⟩
    · rw [h1, h2]; exact ⟨hv, rfl⟩
    · rw [h1, h2]; exact h3

theorem variantsCons_rel (tag : U32) (cached : Bool) (hf : FieldsRel P j fs fs') (h : VariantsRel Q j vs vs') :
    VariantsRel (SameSum P Q) j (variantsCons tag cached fs vs) (variantsCons tag cached fs' vs') where
  tagOf := fun {v w} hv => by
    cases v <;> cases w <;> simp only [SameSum] at hv
    · rfl
    · exact h.tagOf hv
  hasCache := fun {v w} hv => by
    cases v <;> cases w <;> simp only [SameSum] at hv
    · rfl
    · exact h.hasCache hv
  sizes := fun m l size v w hv => by
    cases v <;> cases w <;> simp only [SameSum] at hv
    · exact hf.sizes m l 0 size hv
    · exact h.sizes m l size hv
  serialize := fun m l v w hv => by
    cases v <;> cases w <;> simp only [SameSum] at hv
    · exact hf.serialize m l 0 hv
    · exact h.serialize m l hv
  ctor := fun hj tag' rt => by
    simp only [variantsCons]
    split
    · exact hf.init hj rt
    · have hc := h.ctor hj tag' rt
      cases hx : vs.ctor tag' rt <;> cases hy : vs'.ctor tag' rt <;> rw [hx, hy] at hc
      · trivial
      · exact absurd hc (by simp [SameOption])
      · exact absurd hc (by simp [SameOption])
      · exact hc
  mergeFields := fun m v w bs hv hb => by
    cases v <;> cases w <;> simp only [SameSum] at hv
    · exact (hf.merge m hv hb).map (fun _ _ hx => hx) (Nat.le_refl _)
    · exact (h.mergeFields m hv hb).map (fun _ _ hx => hx) (Nat.le_refl _)
  setRuntime := fun rt v w hv => by
    cases v <;> cases w <;> simp only [SameSum] at hv
    · exact hf.setRuntime rt hv
    · exact h.setRuntime rt hv
  handleFields := fun m v w path kind key bs hv hb => by
    cases v <;> cases w <;> simp only [SameSum] at hv
    · exact sameRes_map (variantHandle_rel hf m kind key hv hb) fun _ _ hx => hx
    · exact sameRes_map (h.handleFields m kind key hv hb) fun _ _ hx => hx

/-- The same enum value. -/
def SameEnumV (P : α → β → Prop) (x : EnumV α) (y : EnumV β) : Prop := x.rt = y.rt ∧ P x.val y.val

theorem enumMerge_rel (ds : Bool) (h : VariantsRel Q j vs vs') (m : Mode) {v : EnumV β} {w : EnumV β'} {bs : Bytes}
    (hv : SameEnumV Q v w) (hb : bs.length < j + 1) :
    RR (SameEnumV Q) bs.length (enumMerge ds vs m v bs) (enumMerge ds vs' m w bs) := by
  unfold enumMerge
  cases ht : getVarint m 32 bs with
  | error e => exact .err hv
  | ok x =>
    obtain ⟨tag, rest⟩ := x
    have hl := getVarint_shorter (by decide) ht
    dsimp only
    rw [h.tagOf hv.2]
    split
    · exact (h.mergeFields m (bs := rest) hv.2 (by omega)).map (fun _ _ hx => ⟨hv.1, hx⟩) (by omega)
    · split
      · rw [hv.1]
        cases w.rt.parent with
        | error e =>
          dsimp only
          have hc := h.ctor (by omega) tag none
          cases hx : vs.ctor tag none <;> cases hy : vs'.ctor tag none <;> rw [hx, hy] at hc
          · exact .err hv
          · exact absurd hc (by simp [SameOption])
          · exact absurd hc (by simp [SameOption])
          · exact .err hv
        | ok parent =>
          dsimp only
          have hc := h.ctor (by omega) tag (some (parent.nested tag))
          cases hx : vs.ctor tag (some (parent.nested tag)) <;> cases hy : vs'.ctor tag (some (parent.nested tag)) <;>
            rw [hx, hy] at hc
          · exact .err hv
          · exact absurd hc (by simp [SameOption])
          · exact absurd hc (by simp [SameOption])
          · exact (h.mergeFields m (bs := rest) hc (by omega)).map (fun _ _ hx => ⟨rfl, hx⟩) (by omega)
      · have hc := h.ctor (by omega) tag none
        cases hx : vs.ctor tag none <;> cases hy : vs'.ctor tag none <;> rw [hx, hy] at hc
        · exact .err hv
        · exact absurd hc (by simp [SameOption])
        · exact absurd hc (by simp [SameOption])
        · exact (h.mergeFields m (bs := rest) hc (by omega)).map (fun _ _ hx => ⟨hv.1, hx⟩) (by omega)

/-- Enums, at the level of their fields or, if the default variant can be built without them, one higher. -/
theorem enum_rel (ds : Bool) {dv : Option Rt → β} {dw : Option Rt → β'} {k : Nat} (h : VariantsRel Q j vs vs') (hk : k ≤ j + 1)
    (hi : 1 ≤ k → ∀ rt, Q (dv rt) (dw rt)) : DictRel (SameEnumV Q) k (enumDict ds vs dv) (enumDict ds vs' dw) := by
  have hs : SerRel (SameEnumV Q)
      { hasCache := fun (v : EnumV β) => vs.hasCache v.val
        computeSize := fun m l v => do
          let size ← Prog.addU32 m 0 (u32Size (vs.tagOf v.val))
          vs.sizes m l size v.val
        serializeCached := fun m l v => do
          let payload ← vs.serialize m l v.val
          pure (putVarint (vs.tagOf v.val) ++ payload) }
      { hasCache := fun (v : EnumV β') => vs'.hasCache v.val
        computeSize := fun m l v => do
          let size ← Prog.addU32 m 0 (u32Size (vs'.tagOf v.val))
          vs'.sizes m l size v.val
        serializeCached := fun m l v => do
          let payload ← vs'.serialize m l v.val
          pure (putVarint (vs'.tagOf v.val) ++ payload) } := by
    refine ⟨fun hv => h.hasCache hv.2, fun m l v w hv => ?_, fun m l v w hv => ?_⟩
    · simp only [h.tagOf hv.2, fun n => h.sizes m l n hv.2]
    · simp only [h.tagOf hv.2, h.serialize m l hv.2]
  unfold enumDict
  cases ds with
  | false =>
    rw [if_neg (by simp), if_neg (by simp)]
    exact plain_rel hs (fun m l v w o hv => hs.isOmissibleBySize m l o hv) (fun hj => ⟨rfl, hi hj none⟩)
      fun m v w bs hv hb => enumMerge_rel false h m hv (by omega)
  | true =>
    rw [if_pos rfl, if_pos rfl]
    have hu : ∀ m (v : EnumV β) (w : EnumV β') (bs : Bytes), SameEnumV Q v w → bs.length < k →
        RR (SameEnumV Q) bs.length (enumHandleUpdate vs dv m v bs) (enumHandleUpdate vs' dw m w bs) := by
      intro m v w bs hv hb
      unfold enumHandleUpdate
      rw [hv.1]
      cases w.rt.parent with
      | error e => exact .err hv
      | ok parent => exact enumMerge_rel true h m ⟨rfl, hi (by omega) _⟩ (by omega)
    refine ⟨⟨hs.hasCache, hs.computeSize, hs.serializeCached⟩, rfl, fun m l _ _ o hv => hs.isOmissibleBySize m l o hv,
      fun hj => ⟨rfl, hi hj _⟩, fun hj rt => ⟨rfl, hi hj _⟩, fun hv => congrArg some hv.1,
      ?_, ?_, fun m _ _ _ hv hb => enumMerge_rel true h m hv (by omega), fun m _ _ _ hv hb => hu m _ _ _ hv hb, ?_⟩
    · intro rt v w hv
      dsimp only
      rw [h.tagOf hv.2]
      exact ⟨rfl, h.setRuntime _ hv.2⟩
    · intro v w hv
      dsimp only
      rw [hv.1]
    · intro m v w path bs kind key hv hb
      dsimp only
      unfold enumHandle
      cases path with
      | cons tag path =>
        dsimp only
        simp only [List.length_cons] at hb
        rw [h.tagOf hv.2]
        split
        · exact sameRes_map (h.handleFields m kind key (path := path) (bs := bs) hv.2 (by omega)) fun _ _ hx => ⟨hv.1, hx⟩
        · exact ⟨hv, rfl⟩
      | nil =>
        simp only [List.length_nil] at hb
        dsimp only
        split
        · exact (hu m v w bs hv (by omega)).same
        · exact ⟨hv, rfl⟩

end

end Steit
