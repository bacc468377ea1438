import Verif.Lemmas.ClassesGen

/-!
# Running generated classes
-/

namespace Steit.Gen

open Steit.Gen.Spec Steit.Spec

variable {D : Type} {cm : CaseMap} {setting : CSharpSetting} {S : Declarations D} {root : RTy (Inst D)} {texts : List Text}

/-- A property: its type and its name. -/
def property (cm : CaseMap) (S : Declarations D) (f : DeclField D) : Text × Text :=
  ((mirror f.ty).show S.name, toCamelCase cm f.name.csharpName.toList true)

theorem properties (hR : Ready cm setting S root texts) {d : D} {fields : List (DeclField D)} (hsub : ∀ g ∈ fields, g ∈ (S.body d).fields)
    {cfs : List CSharpField} (hcf : CSharpField.fromMetas cm (fields.map (·.fieldMeta S.name)) = some cfs) (cls : Text) :
    (classFor cls cfs).props = fields.map (property cm S) :=
  fromMetas_types (S := S) (cm := cm) (fun f hf => fieldType_mirror f.ty (hR.compiles.proper d f (hsub f hf)) fun d' _ h => by
    rcases h with h | h
    · exact (hR.names.fresh d').2.2 h
    · exact (hR.names.fresh d').2.1 (by rw [h]; decide)) hcf

theorem served (hR : Ready cm setting S root texts) {d : D} {as : List (RTy (Inst D))} (hm : Reach S.program.graph.links root (.msg (.mk d as)))
    {f : CsFile} (hF : FileFor cm S d f) {fields : List (DeclField D)} (hsub : ∀ g ∈ fields, g ∈ (S.body d).fields) {cfs : List CSharpField}
    (hcf : CSharpField.fromMetas cm (fields.map (·.fieldMeta S.name)) = some cfs)
    (hok : ∀ g ∈ fields.map (·.fieldMeta S.name), IsName g.name.csharpName.toList ∧ NamedField g.ty)
    (hn : ((fields.map (·.fieldMeta S.name)).map (propName cm)).Nodup) {k : Nat} {fs : Fields}
    (hmod : ModelsFields S k (bindParams (S.params d) as) fields fs) (ht : fs.tags.Nodup) (cls : Text) :
    Served (projectOf texts) f (rts S.name as) (classFor cls cfs) fs := by
  obtain ⟨h1, h2, h3⟩ := models_fields (isState := stateText (projectOf texts) f (rts S.name as)) hmod
    (fun g hg => hR.compiles.proper d g (hsub g hg)) (fun g hg => by rw [stateText, read_field hR hm hF (hsub g hg)]; rfl)
  refine ⟨serves cls (drawnAll h1 hcf (fromMetas_ok hR.keeps hok hcf) h2 h3) ht, ?_, ht, h2⟩
  rw [properties hR hsub hcf, List.map_map]
  rw [List.map_map] at hn
  exact hn

theorem lookup_tag {α : Type} {tag : α → U32} {name : α → Text} : ∀ {vs : List α} {v : α}, (vs.map tag).Nodup → v ∈ vs →
    (vs.map fun v => ((tag v).toNat, name v)).lookup (tag v).toNat = some (name v)
  | w :: vs, v, hn, h => by
    simp only [List.map_cons, List.nodup_cons] at hn
    rcases List.mem_cons.1 h with rfl | h
    · simp [List.lookup]
    · have hne : ((tag v).toNat == (tag w).toNat) = false := by
        simp only [beq_eq_false_iff_ne, ne_eq]
        intro e
        exact hn.1 (by rw [← BitVec.eq_of_toNat_eq e]; exact List.mem_map_of_mem h)
      simp only [List.map_cons, List.lookup, hne]
      exact lookup_tag hn.2 h

theorem lookup_some_mem {α : Type} {tag : α → U32} {name : α → Text} {n : Nat} : ∀ {vs : List α},
    ((vs.map fun v => ((tag v).toNat, name v)).lookup n).isSome → ∃ v ∈ vs, (tag v).toNat = n
  | [], h => nomatch h
  | w :: vs, h => by
    simp only [List.map_cons, List.lookup] at h
    split at h
    · rename_i e
      exact ⟨w, .head _, (by simpa using e : n = _).symm⟩
    · obtain ⟨v, hv, e⟩ := lookup_some_mem h
      exact ⟨v, .tail _ hv, e⟩

theorem find_class {vs : List VariantMeta} {cs : List Class} (h : VariantClasses cm vs cs) :
    (vs.map fun v => v.ty.name.csharpName.toList).Nodup → ∀ v ∈ vs, ∃ cfs, CSharpField.fromMetas cm v.ty.fields = some cfs ∧
      (cs.find? fun c => decide (c.name = v.ty.name.csharpName.toList)) = some (classFor v.ty.name.csharpName.toList cfs) := by
  induction h with
  | nil => intro _ v hv; cases hv
  | @cons w vs cfs cs hf _ ih =>
    intro hn v hv
    simp only [List.map_cons, List.nodup_cons] at hn
    rcases List.mem_cons.1 hv with rfl | hv
    · exact ⟨cfs, hf, by rw [List.find?_cons_of_pos]; simp [classFor]⟩
    · obtain ⟨cfs', h1, h2⟩ := ih hn.2 v hv
      refine ⟨cfs', h1, ?_⟩
      rw [List.find?_cons_of_neg]
      · exact h2
      · intro e
        exact hn.1 (by rw [(of_decide_eq_true e : w.ty.name.csharpName.toList = _)]; exact List.mem_map_of_mem hv)

/-- All there is to know about the class of a variant. -/
def VariantRuns (cm : CaseMap) (S : Declarations D) (root : RTy (Inst D)) (P : Project) (n : Text) (f : CsFile) (args : List Rt)
    (ρ : String → RTy (Inst D)) (names : List (Nat × Text)) (v : DeclVariant D) : Prop :=
  ∃ x c, names.lookup v.tag.toNat = some x ∧ readType P f args x = some (.variant n args x) ∧
    P.classOf (.variant n args x) = some (f, args, c) ∧ c.props = v.fields.map (property cm S) ∧
    (∀ k fs, ModelsFields S k ρ v.fields fs → fs.tags.Nodup → Served P f args c fs) ∧
    ∀ g ∈ v.fields, readType P f args ((mirror g.ty).show S.name) = some (rt S.name (g.ty.resolve ρ)) ∧
      Reach S.program.graph.links root (g.ty.resolve ρ)

theorem variantRuns (hR : Ready cm setting S root texts) {d : D} {as : List (RTy (Inst D))}
    (hm : Reach S.program.graph.links root (.msg (.mk d as))) {f : CsFile} (hF : FileFor cm S d f)
    (hfind : (projectOf texts).find (S.name d).csharpName.toList (rts S.name as).length = some f)
    {variants : List (DeclVariant D)} (hb : S.body d = .enum variants)
    (ht : (variants.map (·.tag)).Nodup) : ∀ v ∈ variants, VariantRuns cm S root (projectOf texts) (S.name d).csharpName.toList f (rts S.name as)
      (bindParams (S.params d) as) ((variantMetas S d variants).map fun v => (v.tag.toNat, v.ty.name.csharpName.toList)) v := by
  intro v hv
  have hd : InReach S root d := ⟨.mk d as, rfl, hm⟩
  have hc := hR.clean d hd
  have hnm := hR.named d hd
  simp only [Declarations.message, hb] at hc hnm
  obtain ⟨hid, hef, hvf⟩ := hc
  obtain ⟨dflt, _, _, hcs⟩ := hF.enum variants hb
  have hmem : (⟨⟨v.name, [], v.fields.map (·.fieldMeta S.name), S.builtin d⟩, v.tag⟩ : VariantMeta) ∈ variantMetas S d variants :=
    List.mem_map_of_mem hv
  obtain ⟨cfs, hcf, hfc⟩ := find_class hcs (by simpa [variantMetas, variantName] using hef.distinct.1) _ hmem
  have hsub : ∀ g ∈ v.fields, g ∈ (S.body d).fields := fun g hg => by
    rw [hb]; exact List.mem_flatMap.2 ⟨v, hv, hg⟩
  refine ⟨v.name.csharpName.toList, classFor v.name.csharpName.toList cfs, ?_, ?_, ?_, properties hR hsub hcf _, fun k fs hmod hfs => ?_, fun g hg => ?_⟩
  · exact lookup_tag (vs := variantMetas S d variants) (tag := (·.tag)) (name := fun v => v.ty.name.csharpName.toList)
      (by simpa [variantMetas, Function.comp_def] using ht) hmem
  · have hx : IsIdent v.name.csharpName.toList := (hid.variants _ hmem).1
    have hne : v.name.csharpName.toList ∉ paramsOf f.outer.name := by
      rw [hF.params hR hd, hR.enums d variants hd hb]
      simp
    obtain ⟨h1, h2⟩ := name_taken (x := v.name.csharpName.toList) (ident_punct hx) (rest := []) fun c r e => nomatch e
    rw [List.append_nil] at h1 h2
    simp only [readType, readTypeAt, h1, h2, look, argFor_none hne]
    rw [if_pos]
    · simp [hF.bare hR hd]
    · rw [hF.nested, hb]
      exact List.mem_map_of_mem hv
  · simp only [Project.classOf, hfind, Option.bind_some]
    simp only at hfc
    rw [hfc]
    rfl
  · exact served hR hm hF hsub hcf (hnm.2.2 _ hmem).fields (hvf _ hmem).distinct hmod hfs _
  · exact ⟨read_field hR hm hF (hsub g hg), reach_field hm (hsub g hg)⟩

mutual
theorem runs (hR : Ready cm setting S root texts) : ∀ (t : Ty) {k : Nat} {a : RTy (Inst D)}, Models S k a t →
    Reach S.program.graph.links root a → Runs (projectOf texts) k t (rt S.name a)
  | .uint w, k, a, h, _ => by
    simp only [Models] at h
    obtain ⟨_, c, _, rfl, h⟩ := h
    simp only [Runs]
    cases w <;> (simp only [primitiveMeta, Option.some.injEq, TypeMeta.primitive.injEq, NameMeta.mk.injEq] at h; obtain ⟨⟨_, rfl⟩, _⟩ := h; exact ⟨_, rfl, by decide +kernel⟩)
  | .sint w, k, a, h, _ => by
    simp only [Models] at h
    obtain ⟨_, c, _, rfl, h⟩ := h
    simp only [Runs]
    cases w <;> (simp only [primitiveMeta, Option.some.injEq, TypeMeta.primitive.injEq, NameMeta.mk.injEq] at h; obtain ⟨⟨_, rfl⟩, _⟩ := h; exact ⟨_, rfl, by decide +kernel⟩)
  | .bool, k, a, h, _ => by
    simp only [Models] at h
    obtain ⟨_, c, _, rfl, h⟩ := h
    simp only [primitiveMeta, Option.some.injEq, TypeMeta.primitive.injEq, NameMeta.mk.injEq] at h; obtain ⟨⟨_, rfl⟩, _⟩ := h; exact ⟨_, rfl, by decide +kernel⟩
  | .string, k, a, h, _ => by
    simp only [Models] at h
    obtain ⟨_, c, _, rfl, h⟩ := h
    simp only [primitiveMeta, Option.some.injEq, TypeMeta.primitive.injEq, NameMeta.mk.injEq] at h; obtain ⟨⟨_, rfl⟩, _⟩ := h; exact ⟨_, rfl, by decide +kernel⟩
  | .bytes, _, _, h, _ => by simp only [Models] at h; subst h; rfl
  | .vec t, _, _, h, hr => by
    simp only [Models] at h; obtain ⟨b, rfl, h⟩ := h
    exact ⟨_, rfl, runs hR t h (hr.link (List.mem_singleton.2 rfl))⟩
  | .array _ t, _, _, h, hr => by
    simp only [Models] at h; obtain ⟨b, rfl, h⟩ := h
    exact ⟨_, rfl, runs hR t h (hr.link (List.mem_singleton.2 rfl))⟩
  | .tuple _, _, _, h, _ => by simp only [Models] at h
  | .option t, _, _, h, hr => by
    simp only [Models] at h; obtain ⟨b, rfl, h⟩ := h
    exact ⟨_, rfl, runs hR t h (hr.link (List.mem_singleton.2 rfl))⟩
  | .box t, _, _, h, hr => by
    simp only [Models] at h; obtain ⟨b, rfl, h⟩ := h
    simp only [Runs, rt]
    exact runs hR t h (hr.link (List.mem_singleton.2 rfl))
  | .hashMap _ _, _, _, h, _ => by simp only [Models] at h
  | .list t, _, _, h, hr => by
    simp only [Models] at h; obtain ⟨b, rfl, h⟩ := h
    exact ⟨_, rfl, runs hR t h (hr.link (List.mem_singleton.2 rfl))⟩
  | .map _ t, _, _, h, hr => by
    simp only [Models] at h; obtain ⟨_, b, rfl, h⟩ := h
    exact ⟨_, rfl, runs hR t h (hr.link (List.mem_singleton.2 rfl))⟩
  | .struct _ _ fs, k, _, h, hr => by
    simp only [Models] at h
    obtain ⟨d, as, rfl, h⟩ := h
    simp only [Runs, rt, rtMessage]
    refine ⟨_, _, rfl, fun hk => ?_⟩
    obtain ⟨fields, hb, hmod, ht⟩ := h hk
    have hd : InReach S root d := ⟨.mk d as, rfl, hr⟩
    obtain ⟨f, hfind, hF⟩ := find_message hR hd
    have hfit := reach_fits hR.compiles hR.fits hr
    simp only [Spec.Fits, FitsInst] at hfit
    obtain ⟨cfs, hcf, hout⟩ := hF.struct fields hb
    have hc := hR.clean d hd
    have hnm := hR.named d hd
    simp only [Declarations.message, hb] at hc hnm
    have hsub : ∀ g ∈ fields, g ∈ (S.body d).fields := fun g hg => by rw [hb]; exact hg
    refine ⟨f, by rw [rts_length, hfit.1]; exact hfind, ?_, ?_⟩
    · rw [hout]
      exact served hR hr hF hsub hcf hnm.fields hc.2.distinct hmod ht _
    · rw [hout, properties hR hsub hcf]
      exact runsFields hR fs hmod fun g hg => ⟨read_field hR hr hF (hsub g hg), reach_field hr (hsub g hg)⟩
  | .enum _ _ fs vs, k, _, h, hr => by
    simp only [Models] at h
    obtain ⟨d, as, rfl, h⟩ := h
    simp only [Runs, rt, rtMessage]
    refine ⟨_, _, rfl, fun hk => ?_⟩
    obtain ⟨variants, hb, hnd, htags, ⟨v0, hv0, h0, hmod, ht⟩, hvs⟩ := h hk
    have hd : InReach S root d := ⟨.mk d as, rfl, hr⟩
    obtain ⟨f, hfind, hF⟩ := find_message hR hd
    have hfit := reach_fits hR.compiles hR.fits hr
    simp only [Spec.Fits, FitsInst] at hfit
    have hfind' : (projectOf texts).find (S.name d).csharpName.toList (rts S.name as).length = some f := by
      rw [rts_length, hfit.1]; exact hfind
    obtain ⟨dflt, hdf, hout, hcs⟩ := hF.enum variants hb
    have hnm := hR.named d hd
    simp only [Declarations.message, hb] at hnm
    have hV := variantRuns hR hr hF hfind' hb hnd
    refine ⟨f, _, hfind', ?_, ?_, ?_, runsVariants hR vs hvs hV⟩
    · rw [hout]
      exact serves_enum _ (fun v hv => (hnm.2.2 v hv).name) hdf
    · intro m hm
      obtain ⟨u, hu, e⟩ := lookup_some_mem hm
      obtain ⟨v, hv, rfl⟩ := List.mem_map.1 hu
      rcases htags v hv with h | h
      · left; rw [← e, h]; rfl
      · exact .inr ⟨v.tag, h, e⟩
    · obtain ⟨x, c, h1, h2, h3, h4, h5, h6⟩ := hV v0 hv0
      rw [h0] at h1
      refine ⟨x, c, h1, h2, h3, h5 k fs hmod ht, ?_⟩
      rw [h4]
      exact runsFields hR fs hmod h6

theorem runsFields (hR : Ready cm setting S root texts) {f : CsFile} {args : List Rt} {ρ : String → RTy (Inst D)} {k : Nat} :
    ∀ (fs : Fields) {fields : List (DeclField D)}, ModelsFields S k ρ fields fs →
    (∀ g ∈ fields, readType (projectOf texts) f args ((mirror g.ty).show S.name) = some (rt S.name (g.ty.resolve ρ)) ∧
      Reach S.program.graph.links root (g.ty.resolve ρ)) →
    RunsFields (projectOf texts) k f args (fields.map (property cm S)) fs
  | .nil, fields, h, _ => by
    simp only [ModelsFields] at h; subst h
    simp [RunsFields]
  | .cons tag attrs t fs, fields, h, hg => by
    simp only [ModelsFields] at h
    obtain ⟨g, rest, rfl, _, _, _, _, hmod, hrest⟩ := h
    simp only [RunsFields]
    exact ⟨_, _, _, _, rfl, (hg g (.head _)).1, runs hR t hmod (hg g (.head _)).2, runsFields hR fs hrest fun g' hg' => hg g' (.tail _ hg')⟩

theorem runsVariants (hR : Ready cm setting S root texts) {n : Text} {f : CsFile} {args : List Rt} {ρ : String → RTy (Inst D)} {k : Nat}
    {names : List (Nat × Text)} {variants : List (DeclVariant D)} : ∀ (vs : Variants), ModelsVariants S k ρ variants vs →
    (∀ v ∈ variants, VariantRuns cm S root (projectOf texts) n f args ρ names v) → RunsVariants (projectOf texts) k n f args names vs
  | .nil, _, _ => by simp only [RunsVariants]
  | .cons tag _ fs vs, h, hV => by
    simp only [ModelsVariants] at h
    obtain ⟨⟨v, hv, rfl, hmod, ht⟩, hrest⟩ := h
    obtain ⟨x, c, h1, h2, h3, h4, h5, h6⟩ := hV v hv
    simp only [RunsVariants]
    refine ⟨⟨x, c, h1, h2, h3, h5 _ fs hmod ht, ?_⟩, runsVariants hR vs hrest hV⟩
    rw [h4]
    exact runsFields hR fs hmod h6
end

end Steit.Gen
