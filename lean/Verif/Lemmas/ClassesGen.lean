import Verif.Lemmas.ClassesTypes

/-!
# Generated classes are there, and do as the client should
-/

namespace Steit.Gen

open Steit.Gen.Spec Steit.Spec

variable {D : Type} {cm : CaseMap} {setting : CSharpSetting} {S : Declarations D} {root : RTy (Inst D)} {texts : List Text}

/-! ## Files -/

/-- The metadata of variants. -/
def variantMetas (S : Declarations D) (d : D) (variants : List (DeclVariant D)) : List VariantMeta :=
  variants.map fun v => ⟨⟨v.name, [], v.fields.map (·.fieldMeta S.name), S.builtin d⟩, v.tag⟩

/-- What is read off the file of a message. -/
structure FileFor (cm : CaseMap) (S : Declarations D) (d : D) (f : CsFile) : Prop where
  name : f.outer.name = (S.name d).csharpName.toList ++ typeParams (S.params d)
  nested : f.nested.map (·.name) = nestedNames (S.body d)
  struct : ∀ fields, S.body d = .struct fields → ∃ cfs, CSharpField.fromMetas cm (fields.map (·.fieldMeta S.name)) = some cfs ∧
    f.outer = classFor f.outer.name cfs
  enum : ∀ variants, S.body d = .enum variants → ∃ dflt, (variantMetas S d variants).find? (fun v => v.tag == 0) = some dflt ∧
    f.outer = enumClassFor f.outer.name dflt (variantMetas S d variants) ∧ VariantClasses cm (variantMetas S d variants) f.nested

theorem variantClasses_names {vs : List VariantMeta} {cs : List Class} (h : VariantClasses cm vs cs) :
    cs.map (·.name) = vs.map fun v => v.ty.name.csharpName.toList := by
  induction h with
  | nil => rfl
  | cons _ _ ih => rw [List.map_cons, List.map_cons, ih]; rfl

theorem fileFor (hR : Ready cm setting S root texts) {d : D} (hd : InReach S root d) {text : Text}
    (h : source cm setting (S.message d) = some text) : ∃ c cs, classesOf text = c :: cs ∧ FileFor cm S d ⟨c, cs⟩ := by
  have hm := hR.named d hd
  cases hb : S.body d with
  | struct fields =>
    simp only [Declarations.message, hb] at hm h
    obtain ⟨cfs, hf, hc⟩ := classes_struct hR.keeps hR.namespace' hR.used hm h
    refine ⟨_, _, hc, rfl, ?_, fun fs e => ?_, fun vs e => ?_⟩
    · rw [hb]; rfl
    · rw [hb] at e; cases e; exact ⟨cfs, hf, rfl⟩
    · rw [hb] at e; cases e
  | enum variants =>
    simp only [Declarations.message, hb] at hm h
    obtain ⟨dflt, cs, hd, hv, hc⟩ := classes_enum hR.keeps hR.namespace' hR.used hm h
    refine ⟨_, _, hc, rfl, ?_, fun fs e => ?_, fun vs e => ?_⟩
    · have := variantClasses_names hv
      rw [hb]
      simp only [List.map_map] at this
      exact this
    · rw [hb] at e; cases e
    · rw [hb] at e; cases e; exact ⟨dflt, hd, rfl, hv⟩

theorem ident_names (hR : Ready cm setting S root texts) {d : D} (hd : InReach S root d) :
    IsIdent (S.name d).csharpName.toList ∧ ∀ p ∈ S.params d, IsIdent p.toList := by
  have := hR.clean d hd
  unfold Declarations.message at this
  split at this
  · exact ⟨this.1.name, this.1.params⟩
  · exact ⟨this.1.name, this.1.params⟩

theorem FileFor.bare (hR : Ready cm setting S root texts) {d : D} (hd : InReach S root d) {f : CsFile} (h : FileFor cm S d f) :
    Spec.bare f.outer.name = (S.name d).csharpName.toList := by
  rw [h.name]; exact bare_typeName (ident_names hR hd).1.2.1 _

theorem FileFor.params (hR : Ready cm setting S root texts) {d : D} (hd : InReach S root d) {f : CsFile} (h : FileFor cm S d f) :
    paramsOf f.outer.name = (S.params d).map String.toList := by
  rw [h.name]; exact paramsOf_typeName (ident_names hR hd).1.2.1 (ident_names hR hd).2

theorem project_files (hR : Ready cm setting S root texts) {f : CsFile} (hf : f ∈ projectOf texts) : ∃ d, InReach S root d ∧ FileFor cm S d f := by
  obtain ⟨text, ht, he⟩ := List.mem_filterMap.1 hf
  obtain ⟨d, hd, hs⟩ := hR.only text ht
  obtain ⟨c, cs, hc, hF⟩ := fileFor hR hd hs
  rw [hc] at he
  cases he
  exact ⟨d, hd, hF⟩

theorem find_message (hR : Ready cm setting S root texts) {d : D} (hd : InReach S root d) :
    ∃ f, (projectOf texts).find (S.name d).csharpName.toList (S.params d).length = some f ∧ FileFor cm S d f := by
  obtain ⟨text, ht, hs⟩ := hR.all d hd
  obtain ⟨c, cs, hc, hF⟩ := fileFor hR hd hs
  have hmem : (⟨c, cs⟩ : CsFile) ∈ projectOf texts := List.mem_filterMap.2 ⟨text, ht, by rw [hc]⟩
  cases h : (projectOf texts).find (S.name d).csharpName.toList (S.params d).length with
  | none =>
    have := List.find?_eq_none.1 h _ hmem
    rw [hF.bare hR hd, hF.params hR hd] at this
    simp at this
  | some f =>
    refine ⟨f, rfl, ?_⟩
    obtain ⟨d', hd', hF'⟩ := project_files hR (List.mem_of_find?_eq_some h)
    have := List.find?_some h
    rw [hF'.bare hR hd'] at this
    simp only [Bool.and_eq_true, decide_eq_true_eq] at this
    cases hR.names.distinct d' d (String.toList_inj.1 this.1)
    exact hF'

theorem find_other (hR : Ready cm setting S root texts) {x : Text} (hx : ∀ d, InReach S root d → (S.name d).csharpName.toList ≠ x) (n : Nat) :
    (projectOf texts).find x n = none := by
  refine List.find?_eq_none.2 fun f hf => ?_
  obtain ⟨d, hd, hF⟩ := project_files hR hf
  rw [hF.bare hR hd]
  simp [hx d hd]

/-! ## Names -/

theorem argFor_param (name : D → NameMeta) : ∀ {ps : List String} {as : List (RTy (Inst D))} {p : String}, as.length = ps.length → p ∈ ps →
    argFor (ps.map String.toList) (rts name as) p.toList = some (rt name (bindParams ps as p))
  | p :: ps, a :: as, q, hl, h => by
    simp only [List.map_cons, rts, argFor, bindParams, String.toList_inj]
    split
    · rfl
    · rename_i hne
      exact argFor_param name (Nat.succ.inj hl) ((List.mem_cons.1 h).resolve_left hne)

theorem argFor_none : ∀ {ps : List Text} {ts : List Rt} {x : Text}, x ∉ ps → argFor ps ts x = none
  | [], _, _, _ => rfl
  | _ :: _, [], _, _ => rfl
  | p :: ps, t :: ts, x, h => by
    simp only [List.mem_cons, not_or] at h
    simp only [argFor, if_neg h.1]
    exact argFor_none h.2

theorem system_prims : ∀ n ∈ systemNames, (primOf n.toList).isSome ∧ ∀ c ∈ n.toList, isTypePunct c = false := by decide +kernel

theorem library_arities : ∀ n ∈ libraryClasses.map (·.1), primOf n.toList = none ∧ libraryArity n.toList = some ((libraryClasses.lookup n).getD 0) ∧
    ∀ c ∈ n.toList, isTypePunct c = false := by decide +kernel

theorem ident_punct {t : Text} (h : IsIdent t) : ∀ c ∈ t, isTypePunct c = false := by
  intro c hc
  unfold isTypePunct
  have h1 : c ≠ '<' := fun e => h.2.1 (e ▸ hc)
  have h2 : c ≠ '>' := fun e => h.2.2.1 (e ▸ hc)
  have h3 : c ≠ ',' := fun e => h.2.2.2 (e ▸ hc)
  simp [h1, h2, h3]

theorem look_message {P : Project} {f : CsFile} {args : List Rt} {x : Text} {xs : List Rt} (hp : x ∉ paramsOf f.outer.name)
    (hn : x ∉ f.nested.map (·.name)) {g : CsFile} (hg : P.find x xs.length = some g) : look P f args x xs = some (.message x xs) := by
  cases xs with
  | nil =>
    simp only [look]
    rw [argFor_none hp, if_neg hn, if_pos (by rw [show P.find x 0 = some g from hg]; rfl)]
  | cons y ys =>
    simp only [look]
    rw [if_pos (by rw [hg]; rfl)]

theorem look_system {P : Project} {f : CsFile} {args : List Rt} {x : Text} (hp : x ∉ paramsOf f.outer.name)
    (hn : x ∉ f.nested.map (·.name)) (hg : P.find x 0 = none) (h1 : (primOf x).isSome) : look P f args x [] = some (.system x) := by
  simp only [look]
  rw [argFor_none hp, if_neg hn, if_neg (by rw [hg]; simp), if_pos h1]

theorem look_library {P : Project} {f : CsFile} {args : List Rt} {x : Text} {xs : List Rt} (hp : x ∉ paramsOf f.outer.name)
    (hn : x ∉ f.nested.map (·.name)) (hg : P.find x xs.length = none) (h1 : primOf x = none) (h2 : libraryArity x = some xs.length) :
    look P f args x xs = some (.library x xs) := by
  cases xs with
  | nil =>
    simp only [look]
    have h3 : libraryArity x = some 0 := h2
    rw [argFor_none hp, if_neg hn, if_neg (by rw [show P.find x 0 = none from hg]; simp), h1, if_neg (by simp), if_pos h3]
  | cons y ys =>
    simp only [look]
    rw [if_neg (by rw [hg]; simp), if_pos h2]

mutual
theorem evals_sound (hR : Ready cm setting S root texts) {d : D} (hd : InReach S root d) {f : CsFile} (hF : FileFor cm S d f)
    {as : List (RTy (Inst D))} (hl : as.length = (S.params d).length) : ∀ {t : CsType D}, Sound S (scopeOf S root d) t →
    Evals (look (projectOf texts) f (rts S.name as)) S.name (fun p => rt S.name (bindParams (S.params d) as p)) t
  | .mk what args, h => by
    simp only [Sound] at h
    simp only [Evals]
    have hps := hF.params hR hd
    have hns := hF.nested
    have hlen := rtsOf_length S.name (fun p => rt S.name (bindParams (S.params d) as p)) args
    have hrest : EvalsAll (look (projectOf texts) f (rts S.name as)) S.name (fun p => rt S.name (bindParams (S.params d) as p)) args :=
      evalsAll_sound hR hd hF hl h.2.2
    rw [h.2.1] at hlen
    match what, h with
    | .param p, h =>
      obtain ⟨_, hp⟩ := h.1
      refine ⟨ident_punct ((ident_names hR hd).2 p hp), ?_, hrest⟩
      rw [List.length_eq_zero_iff.1 hlen]
      simp only [look, Meaning.text, hps, rtOf]
      rw [argFor_param S.name hl hp]
    | .message d', h =>
      obtain ⟨_, hp, hn, hd', _⟩ := h.1
      refine ⟨ident_punct (ident_names hR hd').1, ?_, hrest⟩
      obtain ⟨g, hg, _⟩ := find_message hR hd'
      simp only [rtOf]
      exact look_message (by rw [hps]; exact hp) (by rw [hns]; exact hn) (g := g) (by rw [hlen]; exact hg)
    | .system n, h =>
      obtain ⟨_, hm, hp, hn, ho⟩ := h.1
      refine ⟨(system_prims n hm).2, ?_, hrest⟩
      rw [List.length_eq_zero_iff.1 hlen]
      simp only [rtOf]
      exact look_system (by rw [hps]; exact hp) (by rw [hns]; exact hn) (find_other hR ho _) (system_prims n hm).1
    | .library n, h =>
      obtain ⟨_, hm, hp, hn, ho⟩ := h.1
      obtain ⟨h1, h2, h3⟩ := library_arities n hm
      refine ⟨h3, ?_, hrest⟩
      simp only [rtOf]
      refine look_library (by rw [hps]; exact hp) (by rw [hns]; exact hn) (find_other hR ho _) h1 ?_
      rw [hlen]
      exact h2

theorem evalsAll_sound (hR : Ready cm setting S root texts) {d : D} (hd : InReach S root d) {f : CsFile} (hF : FileFor cm S d f)
    {as : List (RTy (Inst D))} (hl : as.length = (S.params d).length) : ∀ {ts : CsTypes D}, SoundAll S (scopeOf S root d) ts →
    EvalsAll (look (projectOf texts) f (rts S.name as)) S.name (fun p => rt S.name (bindParams (S.params d) as p)) ts
  | .nil, _ => by simp only [EvalsAll]
  | .cons t ts, h => by
    simp only [SoundAll] at h
    simp only [EvalsAll]
    exact ⟨evals_sound hR hd hF hl h.1, evalsAll_sound hR hd hF hl h.2⟩
end

/-- The type of a field is read as what it is. -/
theorem read_field (hR : Ready cm setting S root texts) {d : D} {as : List (RTy (Inst D))} (hm : Reach S.program.graph.links root (.msg (.mk d as)))
    {f : CsFile} (hF : FileFor cm S d f) {fld : DeclField D} (hf : fld ∈ (S.body d).fields) :
    readType (projectOf texts) f (rts S.name as) ((mirror fld.ty).show S.name) =
      some (rt S.name (fld.ty.resolve (bindParams (S.params d) as))) := by
  have hd : InReach S root d := ⟨.mk d as, rfl, hm⟩
  have hfit := reach_fits hR.compiles hR.fits hm
  simp only [Spec.Fits, FitsInst] at hfit
  rw [readType_show (evals_sound hR hd hF hfit.1 (C67_names_are_found hR.names hR.compiles hR.fits hd (hR.clear d hd) hf)), rtOf_mirror]

/-! ## Fields -/

theorem models_state (name : D → NameMeta) : ∀ {t : Ty} {k : Nat} {a : RTy (Inst D)}, Models S k a t → (rt name a).isState = !primitive t
  | .uint _, _, _, h => by simp only [Models] at h; obtain ⟨_, _, _, rfl, _⟩ := h; rfl
  | .sint _, _, _, h => by simp only [Models] at h; obtain ⟨_, _, _, rfl, _⟩ := h; rfl
  | .bool, _, _, h => by simp only [Models] at h; obtain ⟨_, _, _, rfl, _⟩ := h; rfl
  | .string, _, _, h => by simp only [Models] at h; obtain ⟨_, _, _, rfl, _⟩ := h; rfl
  | .bytes, _, _, h => by simp only [Models] at h; subst h; rfl
  | .vec _, _, _, h => by simp only [Models] at h; obtain ⟨_, rfl, _⟩ := h; rfl
  | .array _ _, _, _, h => by simp only [Models] at h; obtain ⟨_, rfl, _⟩ := h; rfl
  | .tuple _, _, _, h => by simp only [Models] at h
  | .option _, _, _, h => by simp only [Models] at h; obtain ⟨_, rfl, _⟩ := h; rfl
  | .box t, _, _, h => by
    simp only [Models] at h; obtain ⟨b, rfl, h⟩ := h
    simp only [rt, primitive]
    exact models_state name h
  | .hashMap _ _, _, _, h => by simp only [Models] at h
  | .list _, _, _, h => by simp only [Models] at h; obtain ⟨_, rfl, _⟩ := h; rfl
  | .map _ _, _, _, h => by simp only [Models] at h; obtain ⟨_, _, rfl, _⟩ := h; rfl
  | .struct _ _ _, _, _, h => by simp only [Models] at h; obtain ⟨_, _, rfl, _⟩ := h; rfl
  | .enum _ _ _ _, _, _, h => by simp only [Models] at h; obtain ⟨_, _, rfl, _⟩ := h; rfl

theorem models_means {ρ : String → RTy (Inst D)} : ∀ {w : Written D} {k : Nat} {t : Ty}, Models S k (w.resolve ρ) t → Means w t
  | .param _, _, _, _ => trivial
  | .prim _ _ _, k, t, h => by
    simp only [Written.resolve] at h
    cases t <;> simp only [Models, reduceCtorEq, false_and, exists_false, RTy.prim.injEq] at h
    all_goals (obtain ⟨_, _, _, ⟨rfl, rfl, rfl⟩, h⟩ := h; exact h)
  | .bytes, k, t, h => by
    simp only [Written.resolve] at h
    cases t <;> simp only [Models, reduceCtorEq, false_and, exists_false] at h
    rfl
  | .paren w, _, _, h => models_means (w := w) h
  | .alias w, _, _, h => models_means (w := w) h
  | .array n w, k, t, h => by
    simp only [Written.resolve] at h
    cases t <;> simp only [Models, reduceCtorEq, false_and, exists_false, RTy.array.injEq] at h
    obtain ⟨_, ⟨rfl, rfl⟩, h⟩ := h; exact ⟨_, rfl, models_means h⟩
  | .vec w, k, t, h => by
    simp only [Written.resolve] at h
    cases t <;> simp only [Models, reduceCtorEq, false_and, exists_false, RTy.vec.injEq] at h
    obtain ⟨_, rfl, h⟩ := h; exact ⟨_, rfl, models_means h⟩
  | .option w, k, t, h => by
    simp only [Written.resolve] at h
    cases t <;> simp only [Models, reduceCtorEq, false_and, exists_false, RTy.option.injEq] at h
    obtain ⟨_, rfl, h⟩ := h; exact ⟨_, rfl, models_means h⟩
  | .box w, k, t, h => by
    simp only [Written.resolve] at h
    cases t <;> simp only [Models, reduceCtorEq, false_and, exists_false, RTy.box.injEq] at h
    obtain ⟨_, rfl, h⟩ := h; exact ⟨_, rfl, models_means h⟩
  | .list w, k, t, h => by
    simp only [Written.resolve] at h
    cases t <;> simp only [Models, reduceCtorEq, false_and, exists_false, RTy.list.injEq] at h
    obtain ⟨_, rfl, h⟩ := h; exact ⟨_, rfl, models_means h⟩
  | .map _ _ _ w, k, t, h => by
    simp only [Written.resolve] at h
    cases t <;> simp only [Models, reduceCtorEq, false_and, exists_false, RTy.map.injEq] at h
    obtain ⟨_, _, ⟨rfl, rfl⟩, h⟩ := h; exact ⟨_, _, rfl, models_means h⟩
  | .msg _ _, k, t, h => by
    simp only [Written.resolve] at h
    cases t <;> simp only [Models, reduceCtorEq, false_and, exists_false] at h
    · exact .inl ⟨_, _, _, rfl⟩
    · exact .inr ⟨_, _, _, _, rfl⟩

theorem typeParam_is {name : D → NameMeta} (ρ : String → RTy (Inst D)) {p : String} : ∀ {w : Written D}, fieldTypeMeta name w = .typeParam p →
    w.resolve ρ = ρ p ∧ (mirror w).show name = p.toList
  | .param q, h => by simp only [fieldTypeMeta, FieldTypeMeta.typeParam.injEq] at h; subst h; exact ⟨rfl, rfl⟩
  | .paren w, h => typeParam_is ρ (w := w) h
  | .prim _ _ _, h | .bytes, h | .array _ _, h | .vec _, h | .option _, h | .box _, h | .list _, h | .map _ _ _ _, h | .msg _ _, h
  | .alias _, h => by simp only [fieldTypeMeta, reduceCtorEq] at h

/-- Metadata of fields describes them. -/
theorem models_fields {ρ : String → RTy (Inst D)} {ps : List String} {isState : Text → Bool} {k : Nat} : ∀ {fs : Fields} {fields : List (DeclField D)},
    ModelsFields S k ρ fields fs → (∀ f ∈ fields, Proper S ps f.ty) →
    (∀ f ∈ fields, isState ((mirror f.ty).show S.name) = (rt S.name (f.ty.resolve ρ)).isState) →
    DescribesFields fs (fields.map (·.fieldMeta S.name)) ∧ GoodFields fs ∧ StatesTold isState fs (fields.map (·.fieldMeta S.name))
  | .nil, fields, h, _, _ => by
    simp only [ModelsFields] at h; subst h
    exact ⟨rfl, trivial, trivial⟩
  | .cons tag attrs t fs, fields, h, hp, hi => by
    simp only [ModelsFields] at h
    obtain ⟨f, rest, rfl, htag, ha, hg, hb, hmod, hrest⟩ := h
    obtain ⟨h1, h2, h3⟩ := models_fields hrest (fun g hg => hp g (.tail _ hg)) (fun g hg => hi g (.tail _ hg))
    refine ⟨⟨_, _, rfl, htag, C67_describes attrs ha (models_means hmod) hb (hp f (.head _)), h1⟩, ⟨hg, h2⟩, fun p e => ?_, h3⟩
    obtain ⟨e1, e2⟩ := typeParam_is ρ e
    rw [← e2, hi f (.head _)]
    exact models_state S.name hmod

end Steit.Gen
