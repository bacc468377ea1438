import Verif.Lemmas.BoundsExact
import Verif.Lemmas.AsWritten

/-!
# Traits in programs as written: lemmas for C75
-/

namespace Steit.Bounds

open Steit.Bounds.Spec Steit.Gen Steit.Gen.Spec
open Steit.Derive (parseRaw parseAttrs derive)
open Steit.Derive.Spec (HasArg HasFlag)

variable {D : Type} {P : D → Decl D} {env : Env}

/-! ## At instances -/

/-- What the code of a block asks for is there, wherever the block is used. -/
theorem instance_needs (hP : ∀ d, Compiles P d) {d : D} {tr : Trait} {b : Block D} (hb : (P d).block d tr = some b) {args : Exps D}
    (h : Holds P env tr (.app (.msg d) args)) {tr' : Trait} {t : Exp D} (hn : Need.impl tr' t ∈ b.needs) :
    Holds P env tr' (t.subst (bind (P d).params args)) :=
  holds_subst hP (fit_of_holds (hP d).names hb h) ((((hP d).blocks b (block_mem hb)).needs _ hn))

/-- Instances of messages that derive `State` are states as soon as they can be deserialized. -/
theorem state_of_deserialize (hP : ∀ d, Compiles P d) {d : D} (hs : (P d).request.state = true) {args : Exps D}
    (h : Holds P env .deserialize (.app (.msg d) args)) : Holds P env .state (.app (.msg d) args) := by
  obtain ⟨b, hb, hl, h'⟩ := holds_msg.1 h
  have hb' : b = (P d).deserialize d := by simpa [Decl.block, Request.hasDeserialize, hs, eq_comm] using hb
  refine holds_msg.2 ⟨(P d).state, by simp [Decl.block, hs], hl, fun j a p ds ha hp t ht => ?_⟩
  rcases List.mem_append.1 ht with ht | ht
  · exact h' j a p ds ha hp t (List.mem_append_left _ ht)
  · rcases List.mem_singleton.1 ht with rfl
    cases hbody : (P d).body with
    | struct fs =>
      obtain ⟨t', ht', hc⟩ := (good_of_compiles (hP d)).state_bounds (by rw [hbody]; rfl) hs _ (List.mem_of_getElem? hp)
      exact holds_closure hP (h' j a p ds ha hp t' (List.mem_append_left _ ht')) _ (supertrait_iff.1 hc)
    | enum vs =>
      refine h' j a p ds ha hp .state (List.mem_append_right _ ?_)
      rw [hb']
      simp [Decl.deserialize, hbody, Request.traitBounds, hs]

/-! ## Types -/

mutual
theorem exp_resolve (ρ : String → RTy (Inst D)) : ∀ w : Written D, rtyExp (w.resolve ρ) = w.exp.subst fun p => rtyExp (ρ p)
  | .param p => rfl
  | .prim _ _ _ => rfl
  | .bytes => rfl
  | .paren t => exp_resolve ρ t
  | .array _ t => by simp [Written.resolve, rtyExp, Written.exp, Exp.subst, Exps.subst, exp_resolve ρ t]
  | .vec t => by simp [Written.resolve, rtyExp, Written.exp, Exp.subst, Exps.subst, exp_resolve ρ t]
  | .option t => by simp [Written.resolve, rtyExp, Written.exp, Exp.subst, Exps.subst, exp_resolve ρ t]
  | .box t => by simp [Written.resolve, rtyExp, Written.exp, Exp.subst, Exps.subst, exp_resolve ρ t]
  | .list t => by simp [Written.resolve, rtyExp, Written.exp, Exp.subst, Exps.subst, exp_resolve ρ t]
  | .map _ _ _ t => by simp [Written.resolve, rtyExp, Written.exp, Exp.subst, Exps.subst, exp_resolve ρ t]
  | .msg d args => by simp [Written.resolve, rtyExp, instExp, Written.exp, Exp.subst, exps_resolve ρ args]
  | .alias t => exp_resolve ρ t

theorem exps_resolve (ρ : String → RTy (Inst D)) : ∀ ws : WrittenArgs D, rtyExps (ws.resolve ρ) = ws.exps.subst fun p => rtyExp (ρ p)
  | .nil => rfl
  | .cons t ts => by simp [WrittenArgs.resolve, rtyExps, WrittenArgs.exps, Exps.subst, exp_resolve ρ t, exps_resolve ρ ts]
end

mutual
theorem real_resolve {ρ : String → RTy (Inst D)} (hρ : ∀ p, RealTy (ρ p)) : ∀ w : Written D, Real w → RealTy (w.resolve ρ)
  | .param p, _ => hρ p
  | .prim _ _ _, h => h
  | .bytes, _ => trivial
  | .paren t, h => real_resolve hρ t h
  | .array _ t, h => real_resolve hρ t h
  | .vec t, h => real_resolve hρ t h
  | .option t, h => real_resolve hρ t h
  | .box t, h => real_resolve hρ t h
  | .list t, h => real_resolve hρ t h
  | .map _ _ _ t, h => real_resolve hρ t h
  | .msg _ args, h => reals_resolve hρ args h
  | .alias t, h => real_resolve hρ t h

theorem reals_resolve {ρ : String → RTy (Inst D)} (hρ : ∀ p, RealTy (ρ p)) : ∀ ws : WrittenArgs D, Reals ws → RealTys (ws.resolve ρ)
  | .nil, _ => trivial
  | .cons t ts, h => ⟨real_resolve hρ t h.1, reals_resolve hρ ts h.2⟩
end

theorem real_bind : ∀ {ps : List String} {args : List (RTy (Inst D))}, RealTys args → ∀ p, RealTy (bindParams ps args p)
  | [], _, _, _ => trivial
  | _ :: _, [], _, _ => trivial
  | q :: ps, t :: ts, h, p => by
    simp only [bindParams]
    split
    · exact h.1
    · exact real_bind h.2 p

theorem rtyExps_length : ∀ args : List (RTy (Inst D)), (rtyExps args).length = args.length
  | [] => rfl
  | _ :: ts => by simp [rtyExps, Exps.length, rtyExps_length ts]

theorem bind_params (bs : String → List Trait) : ∀ {ps : List String} {args : List (RTy (Inst D))}, args.length = ps.length → ∀ p ∈ ps,
    bind (ps.map fun p => (p, bs p)) (rtyExps args) p = rtyExp (bindParams ps args p)
  | [], _, _, _, h => by cases h
  | _ :: _, [], h, _, _ => by simp at h
  | q :: ps, t :: ts, hl, p, hp => by
    simp only [List.map_cons, rtyExps, bind, bindParams]
    by_cases h : p = q
    · simp [h]
    · rw [if_neg h, if_neg h]
      exact bind_params bs (by simpa using hl) p (by simpa [h] using hp)

/-- Only parameters there are matter. -/
theorem fit_congr {P : D → Decl D} {env env' : Env} {σ σ' : String → Exp D} (h : ∀ p bs, (p, bs) ∈ env → σ p = σ' p)
    (hf : Fit P env env' σ) : Fit P env env' σ' := fun p bs hp b hb => h p bs hp ▸ hf p bs hp b hb

/-! ## Fields -/

variable {Q : D → Src D} {bounds : D → String → List Trait}

theorem bounded_fields (d : D) : (bounded Q bounds d).body.fields = (Q d).body.fields.map (·.bounded) := by
  simp only [bounded, Src.bounded]
  cases (Q d).body with
  | struct fs => rfl
  | enum vs =>
    simp only [Body.fields, SrcBody.fields, List.map_flatMap]
    rw [List.flatMap_def]

theorem bounded_params (d : D) : (bounded Q bounds d).params = (Q d).params.map fun p => (p, bounds d p) := rfl

theorem env_mem {d : D} {bs : List Trait} {p : String} {l : List Trait} (h : (p, l) ∈ (bounded Q bounds d).env bs) : p ∈ (Q d).params := by
  obtain ⟨j, ds, hj, -⟩ := mem_env.1 h
  rw [bounded_params] at hj
  obtain ⟨q, hq, he⟩ := List.mem_map.1 (List.mem_of_getElem? hj)
  cases he
  exact hq

theorem state_flag (hM : ∀ d ty, (derive ((Q d).input ty)).1 = []) (d : D) : (bounded Q bounds d).request.state = true ↔ HasArg (Q d).args "State" :=
  derivesState_iff (hM d fun _ => .bool)

theorem field_errors {s : Src D} {ty : Written D → Ty} (h : (derive (s.input ty)).1 = []) {f : SrcField D} (hf : f ∈ s.body.fields) :
    (parseRaw Derive.fieldTable true f.attrs).errors = [] := by
  have ok : Derive.Spec.AttrsOk Derive.Spec.fieldNames f.attrs := by
    rw [Derive.C47_accepts_exactly] at h
    obtain ⟨-, -, -, h4⟩ := h
    cases hb : s.body with
    | struct fs =>
      rw [input_struct hb] at h4
      rw [hb] at hf
      exact (h4.each _ (List.mem_map_of_mem hf)).attrs
    | enum vs =>
      rw [input_enum hb] at h4
      rw [hb] at hf
      obtain ⟨v, hv, hf⟩ := List.mem_flatMap.1 hf
      exact ((h4.each _ (List.mem_map.2 ⟨v, hv, rfl⟩)).fields.each (f.input ty) (List.mem_map_of_mem hf)).attrs
  exact (Derive.raw_ok Derive.fieldTable_fn Derive.fieldNames_fn Derive.fieldTable_names f.attrs).2 ok

theorem noState_flag (hM : ∀ d ty, (derive ((Q d).input ty)).1 = []) {d : D} {f : SrcField D} (hf : f ∈ (Q d).body.fields) :
    f.bounded.noState = true ↔ HasFlag f.attrs "no_state" := by
  have he : (parseRaw Derive.fieldTable true f.attrs).errors = [] := field_errors (hM d fun _ => .bool) hf
  have he' : (parseAttrs Derive.fieldTable true (Derive.rawItems f.attrs) []).errors = [] := (List.append_eq_nil_iff.1 he).2
  simp only [SrcField.bounded]
  unfold HasFlag
  rw [← Derive.rawItems_eq]
  exact Derive.flag_of Derive.fieldTable_fn he' (by decide)

theorem noHash_flag (hM : ∀ d ty, (derive ((Q d).input ty)).1 = []) {d : D} {f : SrcField D} (hf : f ∈ (Q d).body.fields) :
    f.bounded.noHash = true ↔ HasFlag f.attrs "no_hash" := by
  have he : (parseRaw Derive.fieldTable true f.attrs).errors = [] := field_errors (hM d fun _ => .bool) hf
  have he' : (parseAttrs Derive.fieldTable true (Derive.rawItems f.attrs) []).errors = [] := (List.append_eq_nil_iff.1 he).2
  simp only [SrcField.bounded]
  unfold HasFlag
  rw [← Derive.rawItems_eq]
  exact Derive.flag_of Derive.fieldTable_fn he' (by decide)

theorem noEqHash_flag (hM : ∀ d ty, (derive ((Q d).input ty)).1 = []) {d : D} {f : SrcField D} (hf : f ∈ (Q d).body.fields) :
    f.bounded.noEqHash = true ↔ HasFlag f.attrs "no_eq_hash" := by
  have he : (parseRaw Derive.fieldTable true f.attrs).errors = [] := field_errors (hM d fun _ => .bool) hf
  have he' : (parseAttrs Derive.fieldTable true (Derive.rawItems f.attrs) []).errors = [] := (List.append_eq_nil_iff.1 he).2
  simp only [SrcField.bounded]
  unfold HasFlag
  rw [← Derive.rawItems_eq]
  exact Derive.flag_of Derive.fieldTable_fn he' (by decide)

theorem arg_flag (hM : ∀ d ty, (derive ((Q d).input ty)).1 = []) (d : D) {n : String} (hn : (n, .pathOnly) ∈ Derive.argTable) :
    (parseAttrs Derive.argTable false (Q d).args []).flag n = true ↔ HasArg (Q d).args n :=
  Derive.path_of Derive.argTable_fn (attrs_fine (hM d fun _ => .bool)).1 hn

theorem setting_flag (hM : ∀ d ty, (derive ((Q d).input ty)).1 = []) (d : D) {n : String} (hn : (n, .flag) ∈ Derive.settingTable) :
    (parseRaw Derive.settingTable false (Q d).attrs).flag n = true ↔ HasFlag (Q d).attrs n := by
  have he := (attrs_fine (hM d fun _ => .bool)).2
  have he' : (parseAttrs Derive.settingTable false (Derive.rawItems (Q d).attrs) []).errors = [] := (List.append_eq_nil_iff.1 he).2
  unfold HasFlag
  rw [← Derive.rawItems_eq]
  exact Derive.flag_of Derive.settingTable_fn he' hn

theorem eq_flag (d : D) : (bounded Q bounds d).request.eq = true ↔ HasArg (Q d).args "Eq" := by
  show ((Q d).args.any _) = true ↔ _
  rw [List.any_eq_true]
  constructor
  · rintro ⟨x, hx, h⟩
    split at h
    · exact hx
    · cases h
  · intro h
    exact ⟨_, h, rfl⟩

theorem isEnum_flag (d : D) : (bounded Q bounds d).body.isEnum = true ↔ (Q d).IsEnum := by
  simp only [bounded, Src.bounded, Src.IsEnum]
  cases (Q d).body <;> simp [Body.isEnum]

theorem fieldsHave_written {d : D} {bs : List Trait} {which : Field D → Prop} {which' : SrcField D → Prop} {tr : Trait}
    (h : ∀ f ∈ (Q d).body.fields, which f.bounded ↔ which' f) :
    FieldsHave (bounded Q bounds) d bs which tr ↔ WrittenHave Q bounds d bs which' tr := by
  unfold FieldsHave WrittenHave
  rw [bounded_fields]
  have he : (bounded Q bounds d).env bs = (Q d).params.map fun p => (p, bounds d p ++ bs) := by
    simp only [Decl.env, bounded_params, List.map_map]; rfl
  rw [he]
  constructor
  · intro hf f hm hw
    exact hf f.bounded (List.mem_map_of_mem hm) ((h f hm).2 hw)
  · intro hf f hm hw
    obtain ⟨g, hg, rfl⟩ := List.mem_map.1 hm
    exact hf g hg ((h g hg).1 hw)

theorem good_written (hM : ∀ d ty, (derive ((Q d).input ty)).1 = []) (d : D) :
    Good (bounded Q bounds) d ↔ GoodSrc Q bounds d := by
  have state := state_flag (bounds := bounds) hM d
  have serialize : (bounded Q bounds d).request.serialize = true ↔ _ := arg_flag hM d (n := "Serialize") (by decide)
  have deserialize : (bounded Q bounds d).request.deserialize = true ↔ _ := arg_flag hM d (n := "Deserialize") (by decide)
  have partialEq : (bounded Q bounds d).request.partialEq = true ↔ _ := arg_flag hM d (n := "PartialEq") (by decide)
  have default : (bounded Q bounds d).request.default = true ↔ _ := arg_flag hM d (n := "Default") (by decide)
  have hash : (bounded Q bounds d).request.hash = true ↔ _ := arg_flag hM d (n := "Hash") (by decide)
  have ctors : (bounded Q bounds d).request.deriveCtors = true ↔ _ := setting_flag hM d (n := "derive_ctors") (by decide)
  have setters : (bounded Q bounds d).request.deriveSetters = true ↔ _ := setting_flag hM d (n := "derive_setters") (by decide)
  have noMeta : (bounded Q bounds d).request.noMeta = true ↔ _ := setting_flag hM d (n := "no_meta") (by decide)
  have eq := eq_flag (Q := Q) (bounds := bounds) d
  have isEnum := isEnum_flag (Q := Q) (bounds := bounds) d
  have noMeta' : (bounded Q bounds d).request.noMeta = false ↔ ¬ HasFlag (Q d).attrs "no_meta" := by
    rw [← noMeta, Bool.not_eq_true]
  have isEnum' : (bounded Q bounds d).body.isEnum = false ↔ ¬ (Q d).IsEnum := by
    rw [← isEnum, Bool.not_eq_true]
  have reads : AsksRead (bounded Q bounds d).request ↔ (Q d).Reads := by
    unfold AsksRead Src.Reads; rw [state, deserialize]
  have writes : AsksWrite (bounded Q bounds d).request ↔ HasArg (Q d).args "State" ∨ HasArg (Q d).args "Serialize" := by
    unfold AsksWrite; rw [state, serialize]
  have built : AsksRead (bounded Q bounds d).request ∨ (bounded Q bounds d).request.deriveCtors = true ↔ (Q d).Constructed := by
    unfold Src.Constructed; rw [reads, ctors]
  have all : ∀ {bs tr}, FieldsHave (bounded Q bounds) d bs (fun _ => True) tr ↔ WrittenHave Q bounds d bs (fun _ => True) tr :=
    fieldsHave_written fun _ _ => Iff.rfl
  have env : ∀ bs, (bounded Q bounds d).env bs = (Q d).params.map fun p => (p, bounds d p ++ bs) := by
    intro bs; simp only [Decl.env, bounded_params, List.map_map]; rfl
  have env0 : (bounded Q bounds d).env [] = (Q d).params.map fun p => (p, bounds d p) := by
    rw [env]; simp only [List.append_nil]
  have noState' : ∀ f ∈ (Q d).body.fields, f.bounded.noState = false ↔ ¬ HasFlag f.attrs "no_state" := by
    intro f hf; rw [← noState_flag hM hf, Bool.not_eq_true]
  have noHash' : ∀ f ∈ (Q d).body.fields, f.bounded.noHash = false ↔ ¬ HasFlag f.attrs "no_hash" := by
    intro f hf; rw [← noHash_flag hM hf, Bool.not_eq_true]
  have noEqHash' : ∀ f ∈ (Q d).body.fields, f.bounded.noEqHash = false ↔ ¬ HasFlag f.attrs "no_eq_hash" := by
    intro f hf; rw [← noEqHash_flag hM hf, Bool.not_eq_true]
  have pnames : (bounded Q bounds d).params.map (·.1) = (Q d).params := by
    rw [bounded_params, List.map_map]; exact List.map_id _
  have fields := bounded_fields (Q := Q) (bounds := bounds) d
  have hpe : FieldsHave (bounded Q bounds) d [.partialEq] (fun f => f.noEqHash = false) .partialEq ↔ _ := fieldsHave_written noEqHash'
  have hha : FieldsHave (bounded Q bounds) d [.hash] (fun f => f.noHash = false ∧ f.noEqHash = false) .hash ↔
      WrittenHave Q bounds d [.hash] (fun f => ¬ HasFlag f.attrs "no_hash" ∧ ¬ HasFlag f.attrs "no_eq_hash") .hash :=
    fieldsHave_written fun f hf => and_congr (noHash' f hf) (noEqHash' f hf)
  have hst : FieldsHave (bounded Q bounds) d [.state] (fun f => f.noState = false) .state ↔ _ := fieldsHave_written noState'
  constructor
  · intro g
    refine ⟨pnames ▸ g.names, ?_, fun h => all.1 (g.serialize (writes.2 h)), ?_, ?_, ?_, ?_, fun h => hst.1 (g.state (state.2 h)),
      fun h => hpe.1 (g.partialEq (partialEq.2 h)), fun h => hha.1 (g.hash (hash.2 h)), fun h => all.1 (g.eq (eq.2 h)),
      fun h h' => all.1 (g.hasMeta (reads.2 h) (noMeta'.2 h')), ?_, fun h => partialEq.1 (g.eq_partialEq (eq.2 h)),
      fun h => built.1 (g.default_ctors (default.2 h)), ?_, ?_⟩
    · intro f hf
      rw [← env0]
      exact g.types f.bounded (fields ▸ List.mem_map_of_mem hf)
    · intro h hn
      have := g.deserialize (reads.2 h)
      rw [if_neg (by rw [state, isEnum]; exact hn)] at this
      exact all.1 this
    · intro h hn
      have := g.deserialize (reads.2 (.inl h))
      rw [if_pos (by rw [state, isEnum]; exact ⟨h, hn⟩)] at this
      exact all.1 this
    · intro h hn f hf _
      have := g.default (built.2 h) f.bounded (fields ▸ List.mem_map_of_mem hf) (fun h => hn (state.1 h.1))
      rw [if_neg (by rw [state]; exact hn), env] at this
      exact this
    · intro h f hf hn
      have := g.default (built.2 (.inl (.inl h))) f.bounded (fields ▸ List.mem_map_of_mem hf)
        (fun h => (noState' f hf).1 h.2 hn)
      rw [if_pos (state.2 h), env] at this
      exact this
    · intro h h' f hf t ht
      rw [← env]
      exact g.metaArgs (reads.2 h) (noMeta'.2 h') f.bounded (fields ▸ List.mem_map_of_mem hf) t ht
    · intro h h' h''
      refine built.1 (g.setters_ctors (isEnum.2 h) (setters.2 h') ?_)
      rw [fields]
      exact fun h => h'' (List.map_eq_nil_iff.1 h)
    · intro h h' p hp
      exact g.state_bounds (isEnum'.2 h) (state.2 h') (p, bounds d p) (List.mem_map_of_mem (f := fun p => (p, bounds d p)) hp)
  · intro g
    refine ⟨pnames.symm ▸ g.names, ?_, fun h => all.2 (g.serialize (writes.1 h)), ?_, ?_, fun h => hst.2 (g.state (state.1 h)),
      fun h => hpe.2 (g.partialEq (partialEq.1 h)), fun h => hha.2 (g.hash (hash.1 h)), fun h => all.2 (g.eq (eq.1 h)),
      fun h h' => all.2 (g.hasMeta (reads.1 h) (noMeta'.1 h')), ?_, fun h => partialEq.2 (g.eq_partialEq (eq.1 h)),
      fun h => built.2 (g.default_ctors (default.1 h)), ?_, ?_⟩
    · intro f hf
      rw [fields] at hf
      obtain ⟨f, hm, rfl⟩ := List.mem_map.1 hf
      replace hf := hm
      rw [env0]
      exact g.types f hf
    · intro h
      by_cases hn : HasArg (Q d).args "State" ∧ (Q d).IsEnum
      · rw [if_pos (by rw [state, isEnum]; exact hn)]
        exact all.2 (g.deserialize_enum hn.1 hn.2)
      · rw [if_neg (by rw [state, isEnum]; exact hn)]
        exact all.2 (g.deserialize (reads.1 h) hn)
    · intro h f hf hw
      rw [fields] at hf
      obtain ⟨f, hm, rfl⟩ := List.mem_map.1 hf
      replace hf := hm
      rw [env]
      by_cases hs : HasArg (Q d).args "State"
      · rw [if_pos (state.2 hs)]
        refine g.default_state hs f hf ?_
        by_contra hc
        exact hw ⟨state.2 hs, (noState' f hf).2 hc⟩
      · rw [if_neg (by rw [state]; exact hs)]
        exact g.default (built.1 h) hs f hf trivial
    · intro h h' f hf t ht
      rw [fields] at hf
      obtain ⟨f, hm, rfl⟩ := List.mem_map.1 hf
      replace hf := hm
      rw [env]
      exact g.metaArgs (reads.1 h) (noMeta'.1 h') f hf t ht
    · intro h h' h''
      refine built.2 (g.setters_ctors (isEnum.1 h) (setters.1 h') ?_)
      intro h; exact h'' (by rw [fields, h]; rfl)
    · intro h h' p hp
      obtain ⟨q, hq, rfl⟩ := List.mem_map.1 (show p ∈ (Q d).params.map fun p => (p, bounds d p) from hp)
      exact g.state_bounds (isEnum'.1 h) (state.1 h') q hq

/-! ## What the compiler checks, at types without parameters -/

/-- A type that implements `State`. -/
theorem isState_of_holds (hM : ∀ d ty, (derive ((Q d).input ty)).1 = []) : ∀ {a : RTy (Inst D)},
    Holds (bounded Q bounds) [] .state (rtyExp a) → IsState Q a
  | .prim r c w, h => by
    intro hr
    subst hr
    obtain ⟨asks, ha, -⟩ := holds_app.1 h
    simp [Con.asks, primNamed, Prim.has] at ha
  | .bytes, h => by
    obtain ⟨asks, ha, -⟩ := holds_app.1 h
    simp [Con.asks, Prim.has] at ha
  | .vec t, h => by
    obtain ⟨asks, ha, -⟩ := holds_app.1 h
    simp [Con.asks] at ha
  | .option t, h => by
    obtain ⟨asks, ha, -⟩ := holds_app.1 h
    simp [Con.asks] at ha
  | .array n t, h => by
    obtain ⟨asks, ha, -⟩ := holds_app.1 h
    simp [Con.asks] at ha
  | .list t, _ => trivial
  | .map k t, _ => trivial
  | .box t, h => by
    obtain ⟨asks, ha, -, h'⟩ := holds_app.1 h
    simp only [Con.asks, Option.some.injEq] at ha
    subst ha
    exact isState_of_holds hM (a := t) (h' 0 _ rfl .state (List.mem_cons_self ..))
  | .msg (.mk d args), h => by
    obtain ⟨b, hb, -⟩ := holds_msg.1 h
    cases hs : (bounded Q bounds d).request.state with
    | false => simp [Decl.block, hs] at hb
    | true => exact (state_flag hM d).1 hs

theorem key_of_holds {k : String} (h : Holds (bounded Q bounds) [] .mapKey (.app (.prim (primNamed k)) .nil)) : k ∈ ["u8", "u16", "u32"] := by
  obtain ⟨asks, ha, -⟩ := holds_app.1 h
  have hk : (primNamed k).has .mapKey = true := by
    cases hk : (primNamed k).has .mapKey with
    | true => rfl
    | false => simp [Con.asks, hk] at ha
  unfold primNamed at hk
  split at hk <;> first | (simp; done) | cases hk

/-- One argument. -/
theorem arg_of_holds {P : D → Decl D} {c : Con D} {tr : Trait} {asks : Nat → List Trait} {t : Exp D} {ts : Exps D}
    (h : Holds P env tr (.app c (.cons t ts))) (ha : c.asks P tr = some asks) : ∀ b ∈ asks 0, Holds P env b t := by
  obtain ⟨asks', ha', -, h'⟩ := holds_app.1 h
  rw [ha] at ha'
  cases ha'
  exact fun b hb => h' 0 t rfl b hb

theorem arg₂_of_holds {P : D → Decl D} {c : Con D} {tr : Trait} {asks : Nat → List Trait} {t u : Exp D} {ts : Exps D}
    (h : Holds P env tr (.app c (.cons t (.cons u ts)))) (ha : c.asks P tr = some asks) : ∀ b ∈ asks 1, Holds P env b u := by
  obtain ⟨asks', ha', -, h'⟩ := holds_app.1 h
  rw [ha] at ha'
  cases ha'
  exact fun b hb => h' 1 u rfl b hb

theorem arg_of_exists {P : D → Decl D} {c : Con D} {t : Exp D} {ts : Exps D} (h : Exists P env (.app c (.cons t ts))) : Exists P env t := by
  cases h with
  | app _ _ h => exact h 0 t rfl

theorem arg₂_of_exists {P : D → Decl D} {c : Con D} {t u : Exp D} {ts : Exps D} (h : Exists P env (.app c (.cons t (.cons u ts)))) :
    Exists P env u := by
  cases h with
  | app _ _ h => exact h 1 u rfl

/-- What is known of types that can be reached. -/
structure Sound (Q : D → Src D) (bounds : D → String → List Trait) (a : RTy (Inst D)) : Prop where
  real : RealTy a
  «exists» : Exists (bounded Q bounds) [] (rtyExp a)
  deserialize : Holds (bounded Q bounds) [] .deserialize (rtyExp a)

/-- Types inside. -/
theorem sound_inner (hP : ∀ d, Compiles (bounded Q bounds) d) {a b : RTy (Inst D)} (h : Sound Q bounds a)
    (hb : (∃ n, a = .array n b) ∨ a = .vec b ∨ a = .option b ∨ a = .box b ∨ a = .list b ∨ ∃ k, a = .map k b) : Sound Q bounds b := by
  rcases hb with ⟨n, rfl⟩ | rfl | rfl | rfl | rfl | ⟨k, rfl⟩
  · refine ⟨h.real, arg_of_exists h.exists, ?_⟩
    obtain ⟨asks, ha, -, h'⟩ := holds_app.1 h.deserialize
    have ha' : asks = fun _ => [.deserialize] := by
      simp only [Con.asks] at ha
      split at ha
      · cases ha; rfl
      · cases ha
    subst ha'
    exact h' 0 _ rfl .deserialize (List.mem_cons_self ..)
  · exact ⟨h.real, arg_of_exists h.exists, arg_of_holds h.deserialize rfl _ (List.mem_cons_self ..)⟩
  · exact ⟨h.real, arg_of_exists h.exists, arg_of_holds h.deserialize rfl _ (List.mem_cons_self ..)⟩
  · exact ⟨h.real, arg_of_exists h.exists, arg_of_holds h.deserialize rfl _ (List.mem_cons_self ..)⟩
  · exact ⟨h.real, arg_of_exists h.exists, holds_closure hP (arg_of_holds h.deserialize rfl _ (List.mem_cons_self ..)) _ (by decide)⟩
  · exact ⟨h.real, arg₂_of_exists h.exists, holds_closure hP (arg₂_of_holds h.deserialize rfl .state (by simp)) _ (by decide)⟩

/-- A message and its parameters. -/
theorem sound_args {d : D} {args : List (RTy (Inst D))} (h : Sound Q bounds (.msg (.mk d args))) : args.length = (Q d).params.length := by
  obtain ⟨b, -, hl, -⟩ := holds_msg.1 h.deserialize
  rw [rtyExps_length, bounded_params, List.length_map] at hl
  exact hl

/-- Fields of messages. -/
theorem sound_field (hP : ∀ d, Compiles (bounded Q bounds) d) (hR : ∀ d, ∀ f ∈ (Q d).body.fields, Real f.ty) {d : D}
    {args : List (RTy (Inst D))} (h : Sound Q bounds (.msg (.mk d args))) {f : SrcField D} (hf : f ∈ (Q d).body.fields) :
    Sound Q bounds (f.ty.resolve (bindParams (Q d).params args)) := by
  have hl := sound_args h
  have hbind : ∀ bs p l, (p, l) ∈ (bounded Q bounds d).env bs →
      bind (bounded Q bounds d).params (rtyExps args) p = rtyExp (bindParams (Q d).params args p) :=
    fun bs p l hp => bind_params (bounds d) hl p (env_mem hp)
  have hf' : f.bounded ∈ (bounded Q bounds d).body.fields := by
    rw [bounded_fields]
    exact List.mem_map_of_mem hf
  refine ⟨real_resolve (real_bind h.real) _ (hR d f hf), ?_, ?_⟩
  · rw [exp_resolve]
    obtain ⟨h1, h2⟩ := fit_of_exists (hP d).names h.exists
    refine exists_subst hP (fit_congr (hbind _) h1) (fun p bs hp => ?_) ((hP d).types _ hf')
    rw [← hbind _ p bs hp]
    exact h2 p bs hp
  · obtain ⟨b, hb, -⟩ := holds_msg.1 h.deserialize
    have hn : Need.impl .deserialize f.ty.exp ∈ b.needs := by
      have hb' : b = (bounded Q bounds d).deserialize d := by
        cases hr : (bounded Q bounds d).request.hasDeserialize with
        | false => simp [Decl.block, hr] at hb
        | true => simpa [Decl.block, hr, eq_comm] using hb
      rw [hb']
      have hm : Need.impl .deserialize f.ty.exp ∈ (bounded Q bounds d).each .deserialize := List.mem_map.2 ⟨_, hf', rfl⟩
      unfold Decl.deserialize
      split
      · exact hm
      · exact List.mem_append_left _ hm
    rw [exp_resolve]
    exact holds_subst hP (fit_congr (hbind _) (fit_of_holds (hP d).names hb h.deserialize)) (((hP d).blocks b (block_mem hb)).needs _ hn)

/-- Fields of states. -/
theorem state_field (hP : ∀ d, Compiles (bounded Q bounds) d) {d : D}
    {args : List (RTy (Inst D))} (h : Sound Q bounds (.msg (.mk d args))) (hs : (bounded Q bounds d).request.state = true)
    {f : SrcField D} (hf : f ∈ (Q d).body.fields) (hn : f.bounded.noState = false) :
    Holds (bounded Q bounds) [] .state (rtyExp (f.ty.resolve (bindParams (Q d).params args))) := by
  have hl := sound_args h
  have hbind : ∀ bs p l, (p, l) ∈ (bounded Q bounds d).env bs →
      bind (bounded Q bounds d).params (rtyExps args) p = rtyExp (bindParams (Q d).params args p) :=
    fun bs p l hp => bind_params (bounds d) hl p (env_mem hp)
  have hf' : f.bounded ∈ (bounded Q bounds d).body.fields := by
    rw [bounded_fields]
    exact List.mem_map_of_mem hf
  have hb : (bounded Q bounds d).block d .state = some (bounded Q bounds d).state := by simp [Decl.block, hs]
  have hst := state_of_deserialize hP hs (show Holds (bounded Q bounds) [] .deserialize (.app (.msg d) (rtyExps args)) from h.deserialize)
  rw [exp_resolve]
  exact holds_subst hP (fit_congr (hbind _) (fit_of_holds (hP d).names hb hst)) ((good_of_compiles (hP d)).state hs _ hf' hn)

/-- The types that exist. -/
theorem legal_of_sound (hM : ∀ d ty, (derive ((Q d).input ty)).1 = []) (hP : ∀ d, Compiles (bounded Q bounds) d) :
    ∀ {a : RTy (Inst D)}, Sound Q bounds a → Legal Q a
  | .prim _ _ _, h => h.real
  | .bytes, _ => trivial
  | .vec t, h => legal_of_sound hM hP (a := t) (sound_inner hP h (.inr (.inl rfl)))
  | .option t, h => legal_of_sound hM hP (a := t) (sound_inner hP h (.inr (.inr (.inl rfl))))
  | .box t, h => legal_of_sound hM hP (a := t) (sound_inner hP h (.inr (.inr (.inr (.inl rfl)))))
  | .array n t, h => by
    refine ⟨?_, ?_, legal_of_sound hM hP (a := t) (sound_inner hP h (.inl ⟨n, rfl⟩))⟩
    all_goals
      obtain ⟨asks, ha, -⟩ := holds_app.1 h.deserialize
      simp only [Con.asks] at ha
      split at ha
      · omega
      · cases ha
  | .list t, h => ⟨isState_of_holds hM (arg_of_holds h.deserialize rfl _ (List.mem_cons_self ..)),
      legal_of_sound hM hP (a := t) (sound_inner hP h (.inr (.inr (.inr (.inr (.inl rfl))))))⟩
  | .map k t, h => ⟨key_of_holds (arg_of_holds h.deserialize rfl .mapKey (by simp)),
      isState_of_holds hM (arg₂_of_holds h.deserialize rfl .state (by simp)),
      legal_of_sound hM hP (a := t) (sound_inner hP h (.inr (.inr (.inr (.inr (.inr ⟨k, rfl⟩))))))⟩
  | .msg _, _ => trivial

theorem sound_reach {root : RTy (Inst D)} (h : Rust Q bounds root) {a : RTy (Inst D)}
    (ha : Reach (declared Q).program.graph.links root a) : Sound Q bounds a := by
  induction ha with
  | root => exact ⟨h.rootReal, h.rootExists, h.rootDeserialize⟩
  | @link a b _ hb ih =>
    cases a with
    | prim | bytes => cases hb
    | vec => cases List.mem_singleton.1 hb; exact sound_inner h.compiles ih (.inr (.inl rfl))
    | option => cases List.mem_singleton.1 hb; exact sound_inner h.compiles ih (.inr (.inr (.inl rfl)))
    | box => cases List.mem_singleton.1 hb; exact sound_inner h.compiles ih (.inr (.inr (.inr (.inl rfl))))
    | array n => cases List.mem_singleton.1 hb; exact sound_inner h.compiles ih (.inl ⟨n, rfl⟩)
    | list => cases List.mem_singleton.1 hb; exact sound_inner h.compiles ih (.inr (.inr (.inr (.inr (.inl rfl)))))
    | map k => cases List.mem_singleton.1 hb; exact sound_inner h.compiles ih (.inr (.inr (.inr (.inr (.inr ⟨k, rfl⟩)))))
    | msg m =>
      obtain ⟨d, args⟩ := m
      obtain ⟨f, hf, rfl⟩ := field_of_link hb
      exact sound_field h.compiles h.real ih hf

end Steit.Bounds
