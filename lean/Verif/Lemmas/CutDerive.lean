import Verif.Lemmas.CutMaps

/-! # What is read from an encoding cut short: structs and enums -/

namespace Steit
open Spec

/-! ### Structs -/

/-- Reading fields one after the other, to the end or until it is given up. -/
inductive FieldEnd {β : Type} (fs : FieldsD β) (m : Mode) : β → Bytes → Option β → Prop
  | done (v : β) : FieldEnd fs m v [] (some v)
  | step {v v1 : β} {o : Option β} {bs r0 r1 : Bytes} {n : U32} {wt : WireType} :
    readTag m bs = .ok ((n, wt), r0) → fs.mergeField m n wt v r0 = some (.ok v1 r1) → r1.length < bs.length →
      FieldEnd fs m v1 r1 o → FieldEnd fs m v bs o
  | badTag {v : β} {bs : Bytes} {e : Err} : bs ≠ [] → readTag m bs = .error e → Refused e → FieldEnd fs m v bs none
  | badField {v v1 : β} {bs r0 : Bytes} {n : U32} {wt : WireType} {e : Err} : bs ≠ [] →
    readTag m bs = .ok ((n, wt), r0) → fs.mergeField m n wt v r0 = some (.err v1 e) → Refused e → FieldEnd fs m v bs none

theorem FieldEnd.untilEof {β : Type} {fs : FieldsD β} {m : Mode} {v : β} {bs : Bytes} {o : Option β}
    (h : FieldEnd fs m v bs o) : ∀ fuel, bs.length ≤ fuel →
      (∃ v', o = some v' ∧ untilEof (fs.mergeStep m) fuel v bs = .ok v' []) ∨
        ∃ v' e, untilEof (fs.mergeStep m) fuel v bs = .err v' e ∧ Refused e := by
  induction h with
  | done v => intro fuel _; exact .inl ⟨v, rfl, untilEof_nil _ _ _⟩
  | @step v v1 o bs r0 r1 n wt h1 h2 h3 _ ih =>
    intro fuel hf
    obtain ⟨f, hf', he⟩ := untilEof_step (fs.mergeStep m) fuel v v1 bs r1
      (by intro hn; rw [hn] at h3; simp at h3) (by unfold FieldsD.mergeStep; rw [h1]; simp only [h2]) h3 hf
    rw [he]; exact ih f hf'
  | @badTag v bs e h1 h2 h3 =>
    intro fuel hf
    exact .inr ⟨v, e, untilEof_err h1 hf (by unfold FieldsD.mergeStep; rw [h2]), h3⟩
  | @badField v v1 bs r0 n wt e h0 h1 h2 h3 =>
    intro fuel hf
    exact .inr ⟨v1, e, untilEof_err h0 hf (by unfold FieldsD.mergeStep; rw [h1]; simp only [h2]), h3⟩

theorem FieldRun.toEnd {β : Type} {fs : FieldsD β} {m : Mode} {v v' : β} {bs : Bytes} (h : FieldRun fs m [] v bs v') :
    FieldEnd fs m v bs (some v') := by
  induction h with
  | done v => exact .done v
  | step h1 h2 h3 _ ih => exact .step h1 h2 h3 ih
  | skip h1 hm => exact absurd hm (by simp)

theorem FieldEnd.lift {α β : Type} {d : Dict α} {fs : FieldsD β} (ds : Bool) (tag : U32) (attrs : FieldAttrs) {m : Mode} (x : α)
    {v : β} {bs : Bytes} {o : Option β} (hu : ∀ m wt v bs, fs.mergeField m tag wt v bs = none) (h : FieldEnd fs m v bs o) :
    FieldEnd (fieldsCons ds tag attrs d fs) m (x, v) bs (o.map (fun y => (x, y))) := by
  have hf : ∀ {n wt v r0} {r : Res β}, fs.mergeField m n wt v r0 = some r →
      (fieldsCons ds tag attrs d fs).mergeField m n wt (x, v) r0 = some (r.map (fun y => (x, y))) := by
    intro n wt v r0 r h2
    have hne : n ≠ tag := by intro hn; rw [hn, hu] at h2; cases h2
    show (if n = tag then _ else (fs.mergeField m n wt v r0).map (fun r => r.map (fun y => (x, y)))) = _
    rw [if_neg hne, h2]; rfl
  induction h with
  | done v => exact .done _
  | step h1 h2 h3 _ ih => exact .step h1 (hf h2) h3 ih
  | badTag h1 h2 h3 => exact .badTag h1 h2 h3
  | badField h0 h1 h2 h3 => exact .badField h0 h1 (hf h2) h3

/-- The same for the fields of a struct or variant. -/
structure FieldsCut {β : Type} (fs : FieldsD β) (enc : β → Bytes) (strip : β → β) (carried : β → Prop) (blank : β → Prop)
    (rem : β → β → Prop) : Prop where
  blank_iff : ∀ w rt, blank w ↔ strip w = strip (fs.init rt)
  whole : ∀ w v, strip w = strip v → rem w v
  cut : ∀ m rt v p, carried v → (enc v).length < 2 ^ 32 → p <+: enc v →
    ∃ o, FieldEnd fs m (fs.init rt) p o ∧ ∀ w, o = some w → rem w v
  reach : ∀ v w, carried v → (enc v).length < 2 ^ 32 → rem w v →
    ∃ p, p <+: enc v ∧ ∀ m rt, ∃ w', FieldRun fs m [] (fs.init rt) p w' ∧ strip w' = strip w

theorem fieldsCut_nil : FieldsCut fieldsNil (fun _ : Unit => []) id (fun _ => True) (fun _ => True) (fun _ _ => True) :=
  ⟨fun _ _ => ⟨fun _ => rfl, fun _ => trivial⟩, fun _ _ _ => trivial,
    fun _ _ _ _ _ _ hp => by rw [List.prefix_nil.1 hp]; exact ⟨_, .done _, fun _ _ => trivial⟩,
    fun _ _ _ _ _ => ⟨[], List.prefix_rfl, fun _ _ => ⟨(), .done _, rfl⟩⟩⟩

section
variable {α β : Type} {d : Dict α} {wire : Nat} {enc : α → Bytes} {lo : α → Bool} {strip : α → α} {carried : α → Prop}
  {blank : α → Prop} {rem : α → α → Prop} {fs : FieldsD β} {tags : List U32} {enc' : β → Bytes} {strip' : β → β}
  {carried' : β → Prop} {blank' : β → Prop} {rem' : β → β → Prop}

theorem fieldsCut_cons (ds : Bool) (tag : U32) (attrs : FieldAttrs) (htag : tag.toNat < 2 ^ 29) (hnew : tag ∉ tags)
    (h : DecLaw d wire enc lo strip carried) (c : CutLaw d wire enc lo strip carried blank rem)
    (hf : FieldsDec fs tags [] enc' strip' strip' (fun _ => carried'))
    (cf : FieldsCut fs enc' strip' carried' blank' rem') :
    FieldsCut (fieldsCons ds tag attrs d fs)
      (fun v : α × β => (if lo v.1 then [] else leb (tag.toNat * 8 + wire) ++ framed wire (enc v.1)) ++ enc' v.2)
      (fun v => (strip v.1, strip' v.2)) (fun v => carried v.1 ∧ carried' v.2) (fun v => blank v.1 ∧ blank' v.2)
      (fun w v => (strip w.1 = strip v.1 ∧ rem' w.2 v.2) ∨ ((rem w.1 v.1 ∨ blank w.1) ∧ blank' w.2)) where
  blank_iff := by
    intro w rt
    obtain ⟨r1, h1⟩ := fieldsCons_init (fs := fs) h ds tag attrs rt
    rw [h1, Prod.mk.injEq, c.blank_iff w.1 r1, cf.blank_iff w.2 rt]
  whole := fun w v hs => .inl ⟨(Prod.mk.inj hs).1, cf.whole _ _ (Prod.mk.inj hs).2⟩
  cut := by
    intro m rt v p hc hlen hp
    simp only [List.length_append] at hlen
    obtain ⟨r1, h1⟩ := fieldsCons_init (fs := fs) h ds tag attrs rt
    rw [h1]
    have hu := fun m wt v bs => hf.unknown m tag wt v bs hnew
    cases hlo : lo v.1 with
    | true =>
      simp only [hlo, if_true, List.nil_append] at hp
      obtain ⟨o, h2, h3⟩ := cf.cut m rt v.2 p hc.2 (by omega) hp
      refine ⟨_, h2.lift ds tag attrs (d.withRuntime r1) hu, ?_⟩
      intro w hw
      cases o with
      | none => cases hw
      | some y => cases hw; exact .inl ⟨h.lo_dflt v.1 r1 ⟨m, hc.1⟩ hlo, h3 y rfl⟩
    | false =>
      simp only [hlo, Bool.false_eq_true, if_false, List.length_append, List.append_assoc] at hlen hp
      by_cases hp0 : p = []
      · subst hp0
        refine ⟨_, .done _, ?_⟩
        intro w hw
        cases hw
        exact .inr ⟨.inr ((c.blank_iff _ r1).2 rfl), (cf.blank_iff _ rt).2 rfl⟩
      rcases prefix_append_cases hp with ⟨h2, h3⟩ | ⟨q, rfl, h2⟩
      · refine ⟨none, .badTag hp0 ?_ (.inl rfl), fun w hw => by cases hw⟩
        have hw : wire ≤ 7 := by rw [← h.wire_eq]; cases d.wire <;> decide
        unfold readTag
        rw [getVarint_short m h2 h3 (by decide) (by omega)]
        rfl
      · have hk := readTag_key m tag d.wire q htag
        rw [h.wire_eq] at hk
        have hm : ∀ r, d.mergeNested m (d.withRuntime r1) d.wire q = r →
            (fieldsCons ds tag attrs d fs).mergeField m tag d.wire (d.withRuntime r1, fs.init rt) q =
              some (r.map (fun x => (x, fs.init rt))) := by
          intro r hr
          show (if tag = tag then some ((d.mergeNested m (d.withRuntime r1) d.wire _).map _) else _) = _
          rw [if_pos rfl, hr]
        have hpos := leb_length_pos (tag.toNat * 8 + wire)
        rcases prefix_append_cases h2 with ⟨h3, h4⟩ | ⟨q', rfl, h3⟩
        · rcases c.cutNested h m r1 v.1 q hc.1 (by omega) h3 h4 with ⟨x, h5, h6⟩ | ⟨x, e, h5, h6⟩
          · refine ⟨_, .step hk (hm _ h5) (by simp only [List.length_append, List.length_nil]; omega) (.done _), ?_⟩
            intro w hw
            cases hw
            exact .inr ⟨.inl h6, (cf.blank_iff _ rt).2 rfl⟩
          · exact ⟨none, .badField hp0 hk (hm _ h5) h6, fun w hw => by cases hw⟩
        · obtain ⟨x, h5, h6⟩ := h.roundNested m r1 v.1 q' hc.1 (by omega)
          obtain ⟨o, h7, h8⟩ := cf.cut m rt v.2 q' hc.2 (by omega) h3
          refine ⟨_, .step hk (hm _ h5) (by simp only [List.length_append]; omega) (h7.lift ds tag attrs x hu), ?_⟩
          intro w hw
          cases o with
          | none => cases hw
          | some y => cases hw; exact .inl ⟨h6, h8 y rfl⟩
  reach := by
    intro v w hc hlen hr
    simp only [List.length_append] at hlen
    have hu := fun m wt v bs => hf.unknown m tag wt v bs hnew
    cases hlo : lo v.1 with
    | true =>
      simp only [hlo, if_true, List.nil_append]
      -- nothing was written of the field
      obtain ⟨h1, h2⟩ : strip w.1 = strip v.1 ∧ (rem' w.2 v.2 ∨ blank' w.2) := by
        rcases hr with ⟨h1, h2⟩ | ⟨h1 | h1, h2⟩
        · exact ⟨h1, .inl h2⟩
        · exact ⟨c.lo_rem _ _ hc.1 hlo h1, .inr h2⟩
        · exact ⟨by rw [(c.blank_iff _ Rt.dflt).1 h1, h.lo_dflt v.1 Rt.dflt ⟨.debug, hc.1⟩ hlo], .inr h2⟩
      obtain ⟨p, h3, h4⟩ : ∃ p, p <+: enc' v.2 ∧ ∀ m rt, ∃ w', FieldRun fs m [] (fs.init rt) p w' ∧ strip' w' = strip' w.2 := by
        rcases h2 with h2 | h2
        · exact cf.reach v.2 w.2 hc.2 (by omega) h2
        · exact ⟨[], List.nil_prefix, fun m rt => ⟨_, .done _, ((cf.blank_iff _ rt).1 h2).symm⟩⟩
      refine ⟨p, h3, fun m rt => ?_⟩
      obtain ⟨r1, h5⟩ := fieldsCons_init (fs := fs) h ds tag attrs rt
      rw [h5]
      obtain ⟨w', h6, h7⟩ := h4 m rt
      exact ⟨(d.withRuntime r1, w'), h6.lift ds tag attrs _ hu (by simp), by
        simp only [h7, h1, h.lo_dflt v.1 r1 ⟨.debug, hc.1⟩ hlo]⟩
    | false =>
      simp only [hlo, Bool.false_eq_true, if_false, List.length_append] at hlen
      simp only [Bool.false_eq_true, if_false, List.append_assoc]
      have hstep : ∀ m rt r1 q x r, d.mergeNested m (d.withRuntime r1) d.wire q = .ok x r → r.length ≤ q.length → ∀ y y',
          FieldRun (fieldsCons ds tag attrs d fs) m [] (x, y) r y' → y = fs.init rt →
          FieldRun (fieldsCons ds tag attrs d fs) m [] (d.withRuntime r1, fs.init rt) (leb (tag.toNat * 8 + wire) ++ q) y' := by
        intro m rt r1 q x r hr hl y y' hrun hy
        subst hy
        have hk := readTag_key m tag d.wire q htag
        rw [h.wire_eq] at hk
        refine .step hk ?_ ?_ hrun
        · show (if tag = tag then some ((d.mergeNested m (d.withRuntime r1) d.wire _).map _) else _) = _
          rw [if_pos rfl, hr]; rfl
        · have hpos := leb_length_pos (tag.toNat * 8 + wire)
          simp only [List.length_append]; omega
      rcases hr with ⟨h1, h2⟩ | ⟨h1 | h1, h2⟩
      · obtain ⟨p, h3, h4⟩ := cf.reach v.2 w.2 hc.2 (by omega) h2
        refine ⟨leb (tag.toNat * 8 + wire) ++ (framed wire (enc v.1) ++ p), ?_, fun m rt => ?_⟩
        · exact (List.prefix_append_right_inj _).2 ((List.prefix_append_right_inj _).2 h3)
        · obtain ⟨r1, h5⟩ := fieldsCons_init (fs := fs) h ds tag attrs rt
          rw [h5]
          obtain ⟨x, h6, h7⟩ := h.roundNested m r1 v.1 p hc.1 (by omega)
          obtain ⟨w', h8, h9⟩ := h4 m rt
          exact ⟨(x, w'), hstep m rt r1 _ x p h6 (by simp only [List.length_append]; omega) _ _
            (h8.lift ds tag attrs x hu (by simp)) rfl, by simp only [h9, h7, h1]⟩
      · obtain ⟨p, h3, _, h4⟩ := c.reachNested h v.1 w.1 hc.1 (by omega) h1
        refine ⟨leb (tag.toNat * 8 + wire) ++ p, ?_, fun m rt => ?_⟩
        · exact (List.prefix_append_right_inj _).2 (h3.trans (List.prefix_append _ _))
        · obtain ⟨r1, h5⟩ := fieldsCons_init (fs := fs) h ds tag attrs rt
          rw [h5]
          obtain ⟨x, h6, h7⟩ := h4 m r1
          exact ⟨(x, fs.init rt), hstep m rt r1 _ x [] h6 (by simp) _ _ (.done _) rfl, by
            simp only [h7, (cf.blank_iff _ rt).1 h2]⟩
      · refine ⟨[], List.nil_prefix, fun m rt => ?_⟩
        obtain ⟨r1, h5⟩ := fieldsCons_init (fs := fs) h ds tag attrs rt
        rw [h5]
        exact ⟨_, .done _, by simp only [(c.blank_iff _ r1).1 h1, (cf.blank_iff _ rt).1 h2]⟩

/-- Reading all fields from an encoding cut short. -/
theorem FieldsCut.merge (c : FieldsCut fs enc' strip' carried' blank' rem') (m : Mode) (rt : Option Rt) (v : β) (p : Bytes)
    (hc : carried' v) (hlen : (enc' v).length < 2 ^ 32) (hp : p <+: enc' v) :
    CutRes (fun w => rem' w v) (fs.merge m (fs.init rt) p) := by
  obtain ⟨o, h1, h2⟩ := c.cut m rt v p hc hlen hp
  unfold FieldsD.merge
  rcases h1.untilEof _ (Nat.le_refl _) with ⟨w, h3, h4⟩ | h3
  · exact .inl ⟨w, h4, h2 w h3⟩
  · exact .inr h3

theorem FieldsCut.reachMerge (c : FieldsCut fs enc' strip' carried' blank' rem') (v w : β)
    (hc : carried' v) (hlen : (enc' v).length < 2 ^ 32) (hr : rem' w v) :
    ∃ p, p <+: enc' v ∧ ∀ m rt, ∃ w', fs.merge m (fs.init rt) p = .ok w' [] ∧ strip' w' = strip' w := by
  obtain ⟨p, h1, h2⟩ := c.reach v w hc hlen hr
  refine ⟨p, h1, fun m rt => ?_⟩
  obtain ⟨w', h3, h4⟩ := h2 m rt
  exact ⟨w', h3.untilEof _ (Nat.le_refl _), h4⟩

theorem cutLaw_struct (ds cached : Bool) (h : FieldsDec fs tags [] enc' strip' strip' (fun _ => carried'))
    (c : FieldsCut fs enc' strip' carried' blank' rem') :
    CutLaw (structDict ds cached fs) 2 (fun v : StructV β => enc' v.fields) (fun v => (enc' v.fields).isEmpty)
      (fun v => ⟨Rt.dflt, strip' v.fields⟩) (fun v => carried' v.fields) (fun v => blank' v.fields)
      (fun w v => rem' w.fields v.fields) := by
  have hi : ∀ rt, ∃ rt' rt0, (structDict ds cached fs).withRuntime rt = ⟨rt0, fs.init rt'⟩ := by
    intro rt
    cases ds with
    | true => exact ⟨some rt, rt, rfl⟩
    | false => exact ⟨none, Rt.dflt, rfl⟩
  have hm : ∀ m rt x p, (structDict ds cached fs).merge m ⟨rt, x⟩ p = (fs.merge m x p).map (fun x => ⟨rt, x⟩) := by
    intro m rt x p
    cases ds <;> rfl
  refine CutLaw.ofSized (readLaw_struct ds cached h) ?_ ?_ ?_ ?_
  · intro w rt
    obtain ⟨rt', rt0, h1⟩ := hi rt
    rw [h1, c.blank_iff w.fields rt']
    constructor
    · intro h2; rw [h2]
    · intro h2; exact (StructV.mk.inj h2).2
  · intro w v h1
    exact c.whole _ _ (StructV.mk.inj h1).2
  · intro m rt v p hc hlen hp _
    obtain ⟨rt', rt0, h1⟩ := hi rt
    rw [h1, hm]
    exact (c.merge m rt' v.fields p hc hlen hp).map _ (fun _ h => h)
  · intro v w hc hlen hr
    obtain ⟨p, h1, h2⟩ := c.reachMerge v.fields w.fields hc hlen hr
    refine ⟨p, h1, fun m rt => ?_⟩
    obtain ⟨rt', rt0, h3⟩ := hi rt
    obtain ⟨w', h4, h5⟩ := h2 m rt'
    exact ⟨⟨rt0, w'⟩, by rw [h3, hm, h4]; rfl, by simp only [h5]⟩

end

/-! ### Enums -/

/-- The same for the variants of an enum. -/
structure VariantsCut {γ : Type} (vs : VariantsD γ) (enc : γ → Bytes) (strip : γ → γ) (carried : γ → Prop)
    (rem : γ → γ → Prop) : Prop where
  whole : ∀ w v, strip w = strip v → rem w v
  parts : ∀ v, carried v → (enc v).length < 2 ^ 32 → ∃ (tag : U32) (payload : Bytes), enc v = leb tag.toNat ++ payload ∧
    (∀ m rt p, p <+: payload → ∃ v0, vs.ctor tag rt = some v0 ∧ CutRes (fun w => rem w v) (vs.mergeFields m v0 p)) ∧
    ∀ w, rem w v → ∃ p, p <+: payload ∧
      ∀ m rt, ∃ v0 w', vs.ctor tag rt = some v0 ∧ vs.mergeFields m v0 p = .ok w' [] ∧ strip w' = strip w

theorem variantsCut_nil : VariantsCut variantsNil (fun v : Empty => nomatch v) id (fun _ => True) (fun _ _ => True) :=
  ⟨fun v => (nomatch v), fun v => (nomatch v)⟩

section
variable {β γ : Type} {fs : FieldsD β} {enc : β → Bytes} {strip : β → β} {carried : β → Prop} {blank : β → Prop}
  {rem : β → β → Prop} {vs : VariantsD γ} {tags : List U32} {enc' : γ → Bytes} {strip' : γ → γ} {see' : γ → Option γ}
  {carried' : γ → Prop} {rem' : γ → γ → Prop}

/-- The same variant on both sides. -/
def SumRem (rem : β → β → Prop) (rem' : γ → γ → Prop) : β ⊕ γ → β ⊕ γ → Prop
  | .inl x, .inl y => rem x y
  | .inr x, .inr y => rem' x y
  | _, _ => False

theorem variantsCut_cons (tag : U32) (cached : Bool) (hnew : tag ∉ tags) (cf : FieldsCut fs enc strip carried blank rem)
    (hv : VariantsDec vs tags enc' strip' see' (fun _ => carried')) (cv : VariantsCut vs enc' strip' carried' rem') :
    VariantsCut (variantsCons tag cached fs vs) (Sum.elim (fun x => leb tag.toNat ++ enc x) enc') (Sum.map strip strip')
      (Sum.elim carried carried') (SumRem rem rem') where
  whole := by
    rintro (w | w) (v | v) h
    · exact cf.whole _ _ (Sum.inl.inj h)
    · cases h
    · cases h
    · exact cv.whole _ _ (Sum.inr.inj h)
  parts := by
    rintro (v | v) hc hlen
    · simp only [Sum.elim_inl, List.length_append] at hlen hc
      have hctor : ∀ rt, (variantsCons tag cached fs vs).ctor tag rt = some (.inl (fs.init rt)) := by
        intro rt
        show (if tag = tag then some (Sum.inl (fs.init rt)) else _) = _
        rw [if_pos rfl]
      refine ⟨tag, enc v, rfl, fun m rt p hp => ⟨_, hctor rt, ?_⟩, ?_⟩
      · show CutRes _ ((fs.merge m (fs.init rt) p).map Sum.inl)
        exact (cf.merge m rt v p hc (by omega) hp).map _ (fun _ h => h)
      · rintro (w | w) hr
        · obtain ⟨p, h1, h2⟩ := cf.reachMerge v w hc (by omega) hr
          refine ⟨p, h1, fun m rt => ?_⟩
          obtain ⟨w', h3, h4⟩ := h2 m rt
          refine ⟨_, .inl w', hctor rt, ?_, by simp only [Sum.map_inl, h4]⟩
          show (fs.merge m (fs.init rt) p).map Sum.inl = _
          rw [h3]; rfl
        · exact hr.elim
    · simp only [Sum.elim_inr] at hlen hc
      obtain ⟨t, payload, h1, h2, h3⟩ := cv.parts v hc hlen
      have hne : t ≠ tag := by
        intro he
        obtain ⟨v0, h4, _⟩ := h2 .debug none [] List.nil_prefix
        rw [he, hv.ctor_none tag none hnew] at h4
        cases h4
      have hctor : ∀ rt v0, vs.ctor t rt = some v0 → (variantsCons tag cached fs vs).ctor t rt = some (.inr v0) := by
        intro rt v0 h
        show (if t = tag then _ else (vs.ctor t rt).map Sum.inr) = _
        rw [if_neg hne, h]; rfl
      refine ⟨t, payload, h1, fun m rt p hp => ?_, ?_⟩
      · obtain ⟨v0, h4, h5⟩ := h2 m rt p hp
        refine ⟨_, hctor rt v0 h4, ?_⟩
        show CutRes _ ((vs.mergeFields m v0 p).map Sum.inr)
        exact h5.map _ (fun _ h => h)
      · rintro (w | w) hr
        · exact hr.elim
        · obtain ⟨p, h4, h5⟩ := h3 w hr
          refine ⟨p, h4, fun m rt => ?_⟩
          obtain ⟨v0, w', h6, h7, h8⟩ := h5 m rt
          refine ⟨_, .inr w', hctor rt v0 h6, ?_, by simp only [Sum.map_inr, h8]⟩
          show (vs.mergeFields m v0 p).map Sum.inr = _
          rw [h7]; rfl

end

theorem cutLaw_enum {γ : Type} {vs : VariantsD γ} {tags : List U32} {enc : γ → Bytes} {strip : γ → γ} {see : γ → Option γ}
    {carried : γ → Prop} {blank : γ → Prop} {rem : γ → γ → Prop} (ds : Bool) (dfltVal : Option Rt → γ)
    (h : VariantsDec vs tags enc strip see (fun _ => carried)) (c : VariantsCut vs enc strip carried rem)
    (hl : DecLaw (enumDict ds vs dfltVal) 2 (fun v : EnumV γ => enc v.val) (fun v => (enc v.val).isEmpty)
      (fun v => ⟨Rt.dflt, strip v.val⟩) (fun v => carried v.val))
    (hd : ∀ rt, vs.ctor 0#32 rt = some (dfltVal rt)) (hb : ∀ w rt, blank w ↔ strip w = strip (dfltVal rt)) :
    CutLaw (enumDict ds vs dfltVal) 2 (fun v : EnumV γ => enc v.val) (fun v => (enc v.val).isEmpty)
      (fun v => ⟨Rt.dflt, strip v.val⟩) (fun v => carried v.val) (fun v => blank v.val) (fun w v => rem w.val v.val) := by
  have hd0 : ∀ rt, vs.tagOf (dfltVal rt) = 0#32 := fun rt => h.ctor_some _ rt _ (hd rt)
  have h8 : ∀ (u : U32), u.toNat < 2 ^ 32 := fun u => u.isLt
  have hi : ∀ rt, ∃ rt' rt0, (enumDict ds vs dfltVal).withRuntime rt = ⟨rt0, dfltVal rt'⟩ := by
    intro rt
    cases ds with
    | true => exact ⟨some (rt.nested 0#32), rt.nested 0#32, rfl⟩
    | false => exact ⟨none, Rt.dflt, rfl⟩
  -- the tag is there: the fields of its variant are read into a fresh one
  have hm : ∀ m rt tag p, ∃ rt' rt0, ∀ v0, vs.ctor tag rt' = some v0 →
      (enumDict ds vs dfltVal).merge m ((enumDict ds vs dfltVal).withRuntime rt) (leb tag.toNat ++ p) =
        (vs.mergeFields m v0 p).map (fun v => ⟨rt0, v⟩) := by
    intro m rt tag p
    cases ds with
    | true =>
      refine ⟨some (rt.nested tag), rt.nested tag, fun v0 h2 => ?_⟩
      show enumMerge true vs m ⟨rt.nested 0#32, dfltVal (some (rt.nested 0#32))⟩ _ = _
      unfold enumMerge
      rw [getVarint_leb m _ _ (h8 _) (by decide)]
      simp only [BitVec.ofNat_toNat, BitVec.setWidth_eq, hd0, if_true]
      split
      · next ht =>
        rw [ht, hd] at h2
        cases h2
        rw [ht]
      · simp only [Rt.parent_nested, h2]
    | false =>
      refine ⟨none, Rt.dflt, fun v0 h2 => ?_⟩
      show enumMerge false vs m ⟨Rt.dflt, dfltVal none⟩ _ = _
      unfold enumMerge
      rw [getVarint_leb m _ _ (h8 _) (by decide)]
      simp only [BitVec.ofNat_toNat, BitVec.setWidth_eq, hd0]
      split
      · next ht =>
        rw [ht, hd] at h2
        cases h2
        rfl
      · simp only [Bool.false_eq_true, if_false, h2]
  refine CutLaw.ofSized hl ?_ ?_ ?_ ?_
  · intro w rt
    obtain ⟨rt', rt0, h1⟩ := hi rt
    rw [h1, hb w.val rt']
    constructor
    · intro h2; rw [h2]
    · intro h2; exact (EnumV.mk.inj h2).2
  · intro w v h1
    exact c.whole _ _ (EnumV.mk.inj h1).2
  · intro m rt v p hc hlen hp hne
    obtain ⟨tag, payload, h1, h2, _⟩ := c.parts v.val hc hlen
    rw [h1] at hp hne
    rcases prefix_append_cases hp with ⟨h3, h4⟩ | ⟨q, rfl, h3⟩
    · have : (enumDict ds vs dfltVal).merge m ((enumDict ds vs dfltVal).withRuntime rt) p =
          .err ((enumDict ds vs dfltVal).withRuntime rt) .unexpectedEof := by
        have hs := getVarint_short m h3 h4 (show 0 < 32 by decide) (h8 _)
        cases ds with
        | true =>
          show enumMerge true vs m _ p = _
          unfold enumMerge; rw [hs]
        | false =>
          show enumMerge false vs m _ p = _
          unfold enumMerge; rw [hs]
      exact .inr ⟨_, _, this, .inl rfl⟩
    · obtain ⟨rt', rt0, h5⟩ := hm m rt tag q
      obtain ⟨v0, h6, h7⟩ := h2 m rt' q h3
      rw [h5 v0 h6]
      exact h7.map _ (fun _ h => h)
  · intro v w hc hlen hr
    obtain ⟨tag, payload, h1, _, h2⟩ := c.parts v.val hc hlen
    obtain ⟨p, h3, h4⟩ := h2 w.val hr
    refine ⟨leb tag.toNat ++ p, by rw [h1]; exact (List.prefix_append_right_inj _).2 h3, fun m rt => ?_⟩
    obtain ⟨rt', rt0, h5⟩ := hm m rt tag p
    obtain ⟨v0, w', h6, h7, h9⟩ := h4 m rt'
    exact ⟨⟨rt0, w'⟩, by rw [h5 v0 h6, h7]; rfl, by simp only [h9]⟩

end Steit
