import Verif.Lemmas.Declaration
import Verif.Props.Declaration
import Verif.Spec.AsWritten

/-!
# Lemmas about declarations as written
-/

namespace Steit.Derive

open Steit.Derive.Spec

/-! ## What is derived -/

/-- A struct that is accepted. -/
theorem derive_struct {args attrs n fs} (h : (derive ⟨args, attrs, n, .struct fs⟩).1 = []) :
    ∃ s st, (derive ⟨args, attrs, n, .struct fs⟩).2 = some (.struct st) ∧ All₂ (fun f p => parseField s f = ([], some p)) fs st.fields ∧
      (st.fields.map (·.tag)).Nodup := by
  unfold derive at h ⊢
  simp only [List.append_eq_nil_iff] at h ⊢
  obtain ⟨st, hst⟩ := parseStruct_some h.2
  rw [hst]
  obtain ⟨_, h6, _⟩ := (parseStruct_iff _ _ _ _).1 hst
  obtain ⟨h1, h2, _⟩ := (parseFields_iff _ _ _ _).1 h6
  exact ⟨_, st, rfl, h1, h2⟩

/-- An enum that is accepted. -/
theorem derive_enum {args attrs n vs} (h : (derive ⟨args, attrs, n, .enum vs⟩).1 = []) :
    ∃ s ps, (derive ⟨args, attrs, n, .enum vs⟩).2 = some (.enum ps) ∧ All₂ (Variant1 s) vs ps ∧ (ps.map (·.tag)).Nodup ∧
      ∃ p ∈ ps, p.tag = 0#32 := by
  unfold derive at h ⊢
  simp only at h ⊢
  split at h
  · simp at h
  · rename_i he
    rw [if_neg he]
    simp only [List.append_eq_nil_iff] at h
    obtain ⟨ps, hps⟩ := parseVariants_ok h.2
    simp only [hps]
    obtain ⟨h1, h2, _, h3⟩ := (parseVariants_iff _ _ _ _).1 hps
    exact ⟨_, ps, rfl, h1, h2, h3⟩

/-- What a field that is parsed is. -/
theorem parseField_is {s : Setting} {f : FieldDecl} {p : PField} (h : parseField s f = ([], some p)) :
    p.tag = ((parseRaw fieldTable true f.attrs).int? "tag").getD 0#32 ∧ p.attrs.param = f.param ∧ p.ty = f.ty := by
  unfold parseField at h
  simp only at h
  split at h
  · simp at h
  · rename_i tag ht
    split at h
    · simp at h
    · split at h
      · simp at h
      · simp only [Prod.mk.injEq, Option.some.injEq] at h
        obtain ⟨_, rfl⟩ := h
        exact ⟨by rw [ht]; rfl, rfl, rfl⟩

/-- What a variant that is parsed is. -/
theorem variant1_parts {s : Setting} {v : VariantDecl} {p : PVariant} (h : Variant1 s v p) :
    p.tag = ((parseRaw variantTable false v.attrs).int? "tag").getD 0#32 ∧
      All₂ (fun f p => parseField s f = ([], some p)) v.fields p.struct.fields ∧ (p.struct.fields.map (·.tag)).Nodup := by
  obtain ⟨attrs, h1, h2⟩ := h
  obtain ⟨_, h3, _⟩ := (parseStruct_iff _ _ _ _).1 h2
  obtain ⟨h4, h5, _⟩ := (parseFields_iff _ _ _ _).1 h3
  refine ⟨?_, h4, h5⟩
  unfold parseVariant at h1
  simp only at h1
  split at h1
  · simp at h1
  · rename_i tag ht
    split at h1
    · simp at h1
    · simp only [Prod.mk.injEq, Option.some.injEq] at h1
      rw [ht]
      exact h1.2.1.symm

/-! ## String attributes -/

theorem str_iff {p : ParsedAttrs} (h : (p.values.map (·.1)).Nodup) (n : String) (x : String) :
    p.str? n = some x ↔ (n, .str x) ∈ p.values := by
  rw [← find_mem h]
  unfold ParsedAttrs.str?
  cases hf : p.values.find? fun e => e.1 == n with
  | none => simp
  | some e =>
    have := find_fst hf
    obtain ⟨a, v⟩ := e
    simp only [Prod.mk.injEq, and_true] at this
    subst this
    cases v <;> simp

theorem str_of {T : Table} (hT : T.Functional) {e : Bool} {its : List Nested} (h : (parseAttrs T e its []).errors = []) {n : String}
    (hn : (n, .str) ∈ T) (x : String) :
    (parseAttrs T e its []).str? n = some x ↔ .attr (.nameValue n (.str x)) ∈ its := by
  obtain ⟨h1, h2⟩ := values_eq h
  rw [str_iff h2, h1, List.mem_filterMap]
  constructor
  · rintro ⟨i, hi, hs⟩
    obtain ⟨m, k, rfl, hm, hk, hp⟩ := (setOf_iff hT _ _ _).1 hs
    have : k = .str := by
      have a := (kind_iff hT n k).2 hk
      have b := (kind_iff hT n .str).2 hn
      rw [a] at b
      exact Option.some.inj b
    subst this
    cases m with
    | nameValue n' l =>
      cases hm
      cases l <;> simp only [Kind.parse, reduceCtorEq, Parsed1.set.injEq, Val.str.injEq] at hp
      subst hp
      exact hi
    | _ => simp [Kind.parse] at hp
  · intro hi
    exact ⟨_, hi, (setOf_iff hT _ _ _).2 ⟨_, .str, rfl, rfl, hn, rfl⟩⟩

theorem Spec.All₂.map {α β γ : Type} {R : α → β → Prop} {Q : γ → β → Prop} {g : γ → α} (h : ∀ a b, R (g a) b → Q a b) :
    ∀ {as : List γ} {bs : List β}, All₂ R (as.map g) bs → All₂ Q as bs
  | [], _, .nil => .nil
  | _ :: _, _, .cons hr hs => .cons (h _ _ hr) (All₂.map h hs)

theorem Spec.All₂.of_left {α β γ : Type} {R : α → β → Prop} {Q : α → γ → Prop} {g : α → γ} (h : ∀ a b, R a b → Q a (g a)) :
    ∀ {as : List α} {bs : List β}, All₂ R as bs → All₂ Q as (as.map g)
  | _, _, .nil => .nil
  | _, _, .cons hr hs => .cons (h _ _ hr) (All₂.of_left h hs)

end Steit.Derive

namespace Steit.Gen

open Steit.Derive Steit.Derive.Spec Steit.Gen.Spec Steit.Spec

variable {D : Type}

/-! ## Metadata -/

theorem name_twice {A B : Table} (hB : B.Functional) (hA : A.kind? "csharp_name" = none) (hn : ("csharp_name", .str) ∈ B)
    {attrs : List RawAttr} (h : (parseAttrs B true (parseRaw A false attrs).unknown []).errors = []) (x : String) :
    (parseAttrs B true (parseRaw A false attrs).unknown []).str? "csharp_name" = some x ↔ HasCsharpName attrs x := by
  rw [str_of hB h hn]
  unfold HasCsharpName
  rw [← rawItems_eq]
  exact mem_unknown (rawItems attrs) false _ hA

theorem field_says {s : Setting} {ty : Written D → Ty} {f : SrcField D} {p : PField} (h : parseField s (f.input ty) = ([], some p)) :
    FieldSays f f.decl := by
  obtain ⟨ha, _, _, hi⟩ := (parseField_some _ _ _).1 h
  have he := (raw_ok fieldTable_fn fieldNames_fn fieldTable_names _).2 ha
  have he' : (parseAttrs fieldTable true (rawItems f.attrs) []).errors = [] := (List.append_eq_nil_iff.1 he).2
  have ht := (parseField_is h).1
  refine ⟨⟨rfl, fun x => ?_⟩, ?_, rfl⟩
  · unfold HasCsharpName
    rw [← rawItems_eq]
    exact str_of fieldTable_fn he' (by decide) x
  · have := hi.tag
    rw [ht] at this
    exact this

theorem variant_says {s : Setting} {ty : Written D → Ty} {v : SrcVariant D} {p : PVariant}
    (h : Variant1 s ⟨v.attrs, v.fields.map (·.input ty)⟩ p) : VariantSays v v.decl := by
  obtain ⟨ht, hf, _⟩ := variant1_parts h
  obtain ⟨attrs, h1, h2⟩ := h
  obtain ⟨_, h3, _, rfl⟩ := parseVariant_some.1 h1
  obtain ⟨h4, _, _⟩ := (parseStruct_iff _ _ _ _).1 h2
  refine ⟨⟨rfl, fun x => name_twice structTable_fn (by decide) (by decide) h4 x⟩, ?_, ?_⟩
  · rw [ht] at h3
    exact h3
  · exact All₂.of_left (fun f p hp => hp) ((hf.map (Q := fun (f : SrcField D) (_ : PField) => FieldSays f f.decl) fun f p hp => field_says hp))

theorem declared_body_struct {P : D → Src D} {d : D} {fs : List (SrcField D)} (h : (P d).body = .struct fs) :
    (declared P).body d = .struct (fs.map (·.decl)) := by
  simp only [declared, h]

theorem declared_body_enum {P : D → Src D} {d : D} {vs : List (SrcVariant D)} (h : (P d).body = .enum vs) :
    (declared P).body d = .enum (vs.map (·.decl)) := by
  simp only [declared, h]

theorem input_struct {s : Src D} {fs : List (SrcField D)} (h : s.body = .struct fs) (ty : Written D → Ty) :
    s.input ty = ⟨s.args, s.attrs, 0, .struct (fs.map (·.input ty))⟩ := by
  simp only [Src.input, h]

theorem input_enum {s : Src D} {vs : List (SrcVariant D)} (h : s.body = .enum vs) (ty : Written D → Ty) :
    s.input ty = ⟨s.args, s.attrs, 0, .enum (vs.map fun v => ⟨v.attrs, v.fields.map (·.input ty)⟩)⟩ := by
  simp only [Src.input, h]

/-- Errors in attributes are errors. -/
theorem attrs_fine {s : Src D} {ty : Written D → Ty} (h : (derive (s.input ty)).1 = []) :
    (parseAttrs argTable false s.args []).errors = [] ∧ (parseRaw settingTable false s.attrs).errors = [] := by
  cases hb : s.body with
  | struct fs =>
    rw [input_struct hb] at h
    unfold derive at h
    simp only [List.append_eq_nil_iff] at h
    exact ⟨h.1.1.1, h.1.1.2⟩
  | enum vs =>
    rw [input_enum hb] at h
    unfold derive at h
    simp only at h
    split at h
    · simp at h
    · simp only [List.append_eq_nil_iff] at h
      exact ⟨h.1.1.1.1, h.1.1.1.2⟩

theorem derivesState_iff {s : Src D} {ty : Written D → Ty} (h : (derive (s.input ty)).1 = []) :
    s.derivesState = true ↔ HasArg s.args "State" :=
  path_of argTable_fn (attrs_fine h).1 (by decide)

theorem name_says {s : Src D} {ty : Written D → Ty} (h : (derive (s.input ty)).1 = []) : NameIs s.attrs s.name s.nameMeta := by
  cases hb : s.body with
  | struct fs =>
    rw [input_struct hb] at h
    unfold derive at h
    simp only [List.append_eq_nil_iff] at h
    simp only [Src.nameMeta, hb]
    exact ⟨rfl, fun x => name_twice structTable_fn (by decide) (by decide) (parseStruct_ok.1 h.2).1 x⟩
  | enum vs =>
    rw [input_enum hb] at h
    unfold derive at h
    simp only at h
    split at h
    · simp at h
    · simp only [List.append_eq_nil_iff] at h
      simp only [Src.nameMeta, hb]
      exact ⟨rfl, fun x => name_twice enumTable_fn (by decide) (by decide) h.1.2 x⟩

theorem metadata_says {P : D → Src D} {d : D} {ty : Written D → Ty} (h : (derive ((P d).input ty)).1 = []) : Says (P d) (declared P) d := by
  refine ⟨name_says h, rfl, ?_, ?_⟩
  · cases hb : (P d).body with
    | struct fs =>
      rw [declared_body_struct hb]
      rw [input_struct hb] at h
      obtain ⟨s, st, _, h1, _⟩ := derive_struct h
      exact .struct (All₂.of_left (fun f p hp => hp) (h1.map (Q := fun (f : SrcField D) (_ : PField) => FieldSays f f.decl) fun f p hp => field_says hp))
    | enum vs =>
      rw [declared_body_enum hb]
      rw [input_enum hb] at h
      obtain ⟨s, ps, _, h1, _⟩ := derive_enum h
      exact .enum (All₂.of_left (fun f p hp => hp) (h1.map (Q := fun (v : SrcVariant D) (_ : PVariant) => VariantSays v v.decl) fun v p hp => variant_says hp))
  · have h2 : (parseAttrs settingTable false (rawItems (P d).attrs) []).errors = [] := (List.append_eq_nil_iff.1 (attrs_fine h).2).2
    unfold HasFlag
    rw [← rawItems_eq]
    exact flag_of settingTable_fn h2 (by decide)

/-! ## Types -/

theorem isTypeParam_eq : ∀ w : Written D, w.isTypeParam = isParam w
  | .param _ => rfl
  | .paren w => by simp only [Written.isTypeParam, isParam]; exact isTypeParam_eq w
  | .prim _ _ _ | .bytes | .array _ _ | .vec _ | .option _ | .box _ | .list _ | .map _ _ _ _ | .msg _ _ | .alias _ => rfl

/-- The primitive type named. -/
theorem primTy_of {t : Ty} {r c : String} {w : WireType} (h : primitiveMeta t = some (.primitive ⟨r, some c⟩ w)) : primTy r = t := by
  unfold primitiveMeta at h
  split at h <;> simp only [Option.some.injEq, TypeMeta.primitive.injEq, NameMeta.mk.injEq, reduceCtorEq] at h <;>
    (obtain ⟨⟨rfl, _⟩, _⟩ := h; rfl)

/-- Messages are structs and enums. -/
def IsMessage (t : Ty) : Prop := (∃ a b fs, t = .struct a b fs) ∨ ∃ a b fs vs, t = .enum a b fs vs

theorem stub_message (s : Src D) : IsMessage s.stub := by
  unfold Src.stub
  split
  · exact .inl ⟨_, _, _, rfl⟩
  · exact .inr ⟨_, _, _, _, rfl⟩

theorem output_message (ds : Bool) (out : Output) : IsMessage (out.ty ds) := by
  cases out with
  | struct st => exact .inl ⟨_, _, _, rfl⟩
  | enum ps =>
    unfold Output.ty
    simp only
    split <;> exact .inr ⟨_, _, _, _, rfl⟩

theorem unrolled_message (P : D → Src D) : ∀ n m, IsMessage (unrolled P n m)
  | 0, .mk d _ => stub_message (P d)
  | n + 1, .mk d args => by
    unfold unrolled
    split
    · exact output_message _ _
    · exact stub_message _

theorem primitive_ty {P : D → Src D} {f : Inst D → Ty} (hf : ∀ m, IsMessage (f m)) : ∀ a : RTy (Inst D), Legal P a →
    (primitive (a.ty f) = true ↔ Primitive a)
  | .prim r c w, h => by
    obtain ⟨t, ht⟩ := h
    show primitive (primTy r) = true ↔ _
    rw [primTy_of ht]
    simp only [Primitive, iff_true]
    unfold primitiveMeta at ht
    split at ht <;> first | rfl | cases ht
  | .bytes, _ => by simp [RTy.ty, primitive, Primitive]
  | .vec _, _ => by simp [RTy.ty, primitive, Primitive]
  | .array _ _, _ => by simp [RTy.ty, primitive, Primitive]
  | .option _, _ => by simp [RTy.ty, primitive, Primitive]
  | .box a, h => by simp only [RTy.ty, primitive, Primitive]; exact primitive_ty hf a h
  | .list _, _ => by simp [RTy.ty, primitive, Primitive]
  | .map _ _, _ => by simp [RTy.ty, primitive, Primitive]
  | .msg m, _ => by
    simp only [RTy.ty, Primitive, iff_false, Bool.not_eq_true]
    rcases hf m with ⟨_, _, _, e⟩ | ⟨_, _, _, _, e⟩ <;> rw [e] <;> rfl

theorem textual_ty {P : D → Src D} {f : Inst D → Ty} (hf : ∀ m, IsMessage (f m)) : ∀ a : RTy (Inst D), Legal P a →
    (textual (a.ty f) = true ↔ Textual a)
  | .prim r c w, h => by
    obtain ⟨t, ht⟩ := h
    show textual (primTy r) = true ↔ _
    rw [primTy_of ht]
    simp only [Textual]
    unfold primitiveMeta at ht
    split at ht <;> simp only [Option.some.injEq, TypeMeta.primitive.injEq, NameMeta.mk.injEq, reduceCtorEq] at ht <;>
      (obtain ⟨⟨rfl, _⟩, _⟩ := ht; simp [textual])
  | .bytes, _ => by simp [RTy.ty, textual, Textual]
  | .vec _, _ => by simp [RTy.ty, textual, Textual]
  | .array _ _, _ => by simp [RTy.ty, textual, Textual]
  | .option _, _ => by simp [RTy.ty, textual, Textual]
  | .box a, h => by simp only [RTy.ty, textual, Textual]; exact textual_ty hf a h
  | .list _, _ => by simp [RTy.ty, textual, Textual]
  | .map _ _, _ => by simp [RTy.ty, textual, Textual]
  | .msg m, _ => by
    simp only [RTy.ty, Textual, iff_false, Bool.not_eq_true]
    rcases hf m with ⟨_, _, _, e⟩ | ⟨_, _, _, _, e⟩ <;> rw [e] <;> rfl

theorem good_ty {P : D → Src D} {f : Inst D → Ty} (hf : ∀ m, IsMessage (f m)) {w : Written D} {a : RTy (Inst D)} (hl : Legal P a)
    (hw : Works w a) {attrs : FieldAttrs} (hp : attrs.param = isParam w) : GoodField attrs (a.ty f) := by
  unfold GoodField
  have hw := hw.2
  rw [hp]
  split
  · rename_i h
    rw [if_pos h] at hw
    rw [← Bool.not_eq_true, textual_ty hf a hl]
    exact hw
  · rename_i h
    rw [if_neg h] at hw
    cases a with
    | box b =>
      show primitive (b.ty f) = false
      rw [← Bool.not_eq_true, primitive_ty hf b hl]
      exact hw b rfl
    | prim r c x =>
      obtain ⟨t, ht⟩ := hl
      simp only [RTy.ty, primTy_of ht]
      unfold primitiveMeta at ht
      split at ht <;> trivial
    | msg m =>
      simp only [RTy.ty]
      rcases hf m with ⟨_, _, _, e⟩ | ⟨_, _, _, _, e⟩ <;> rw [e] <;> trivial
    | _ => trivial

/-! ## What can be reached -/

variable {P : D → Src D} {root : RTy (Inst D)}

theorem reach_srcField {d : D} {args : List (RTy (Inst D))} (h : Reach (declared P).program.graph.links root (.msg (.mk d args)))
    {f : SrcField D} (hf : f ∈ (P d).body.fields) :
    Reach (declared P).program.graph.links root (f.ty.resolve (bindParams (P d).params args)) := by
  refine .link h ?_
  show _ ∈ ((declared P).body d).fields.map _
  refine List.mem_map.2 ⟨f.decl, ?_, rfl⟩
  cases hb : (P d).body with
  | struct fs =>
    rw [hb] at hf
    rw [declared_body_struct hb]
    exact List.mem_map.2 ⟨f, hf, rfl⟩
  | enum vs =>
    rw [hb] at hf
    rw [declared_body_enum hb]
    obtain ⟨v, hv, hf⟩ := List.mem_flatMap.1 hf
    exact List.mem_flatMap.2 ⟨v.decl, List.mem_map.2 ⟨v, hv, rfl⟩, List.mem_map.2 ⟨f, hf, rfl⟩⟩

/-- Fields of a message that can be reached are those of the declaration. -/
theorem field_of_link {d : D} {args : List (RTy (Inst D))} {a : RTy (Inst D)} (h : a ∈ (declared P).program.graph.links (.msg (.mk d args))) :
    ∃ f ∈ (P d).body.fields, a = f.ty.resolve (bindParams (P d).params args) := by
  obtain ⟨g, hg, rfl⟩ := List.mem_map.1 (show a ∈ ((declared P).body d).fields.map _ from h)
  cases hb : (P d).body with
  | struct fs =>
    rw [declared_body_struct hb] at hg
    obtain ⟨f, hf, rfl⟩ := List.mem_map.1 (show g ∈ fs.map _ from hg)
    exact ⟨f, hf, rfl⟩
  | enum vs =>
    rw [declared_body_enum hb] at hg
    obtain ⟨w, hw, hg⟩ := List.mem_flatMap.1 (show g ∈ (vs.map _).flatMap _ from hg)
    obtain ⟨v, hv, rfl⟩ := List.mem_map.1 hw
    obtain ⟨f, hf, rfl⟩ := List.mem_map.1 hg
    exact ⟨f, List.mem_flatMap.2 ⟨v, hv, hf⟩, rfl⟩

theorem legal_reach (hA : Accepted P root) {a : RTy (Inst D)} (h : Reach (declared P).program.graph.links root a) : Legal P a := by
  induction h with
  | root => exact hA.legal
  | @link a b h hb ih =>
    cases a with
    | prim | bytes => cases hb
    | vec | option | box => cases List.mem_singleton.1 hb; exact ih
    | array => cases List.mem_singleton.1 hb; exact ih.2.2
    | list => cases List.mem_singleton.1 hb; exact ih.2
    | map => cases List.mem_singleton.1 hb; exact ih.2.2
    | msg m =>
      obtain ⟨d, args⟩ := m
      obtain ⟨f, hf, rfl⟩ := field_of_link hb
      exact (hA.fields d args h f hf).1

/-! ## How long it takes to build default values -/

/-- As `Builds`, with the number of messages in each other. -/
inductive BuildsIn (P : D → Src D) : Nat → RTy (Inst D) → Prop
  | prim {n r c w} : BuildsIn P n (.prim r c w)
  | bytes {n} : BuildsIn P n .bytes
  | vec {n t} : BuildsIn P n (.vec t)
  | option {n t} : BuildsIn P n (.option t)
  | list {n t} : BuildsIn P n (.list t)
  | map {n k t} : BuildsIn P n (.map k t)
  | array {n l t} : BuildsIn P n t → BuildsIn P n (.array l t)
  | box {n t} : BuildsIn P n t → BuildsIn P n (.box t)
  | struct {n d args fields} : (P d).body = .struct fields →
    (∀ f ∈ fields, BuildsIn P n (f.ty.resolve (bindParams (P d).params args))) → BuildsIn P (n + 1) (.msg (.mk d args))
  | enum {n d args variants} : (P d).body = .enum variants →
    (∀ v ∈ variants, HasTag v.attrs 0#32 → ∀ f ∈ v.fields, BuildsIn P n (f.ty.resolve (bindParams (P d).params args))) →
    BuildsIn P (n + 1) (.msg (.mk d args))

theorem BuildsIn.mono {n : Nat} {a : RTy (Inst D)} (h : BuildsIn P n a) : ∀ {n' : Nat}, n ≤ n' → BuildsIn P n' a := by
  induction h with
  | prim => intro _ _; exact .prim
  | bytes => intro _ _; exact .bytes
  | vec => intro _ _; exact .vec
  | option => intro _ _; exact .option
  | list => intro _ _; exact .list
  | map => intro _ _; exact .map
  | array _ ih => intro _ h; exact .array (ih h)
  | box _ ih => intro _ h; exact .box (ih h)
  | struct hb _ ih =>
    intro n' h
    obtain ⟨j, rfl⟩ : ∃ j, n' = j + 1 := ⟨n' - 1, by omega⟩
    exact .struct hb fun f hf => ih f hf (by omega)
  | enum hb _ ih =>
    intro n' h
    obtain ⟨j, rfl⟩ : ∃ j, n' = j + 1 := ⟨n' - 1, by omega⟩
    exact .enum hb fun v hv ht f hf => ih v hv ht f hf (by omega)

/-- A bound for all. -/
theorem bound_all {α : Type} {Q : α → Nat → Prop} (hQ : ∀ a n n', Q a n → n ≤ n' → Q a n') : ∀ (as : List α), (∀ a ∈ as, ∃ n, Q a n) →
    ∃ n, ∀ a ∈ as, Q a n
  | [], _ => ⟨0, fun _ h => nomatch h⟩
  | a :: as, h => by
    obtain ⟨n, hn⟩ := h a (.head _)
    obtain ⟨n', hn'⟩ := bound_all hQ as fun b hb => h b (.tail _ hb)
    refine ⟨max n n', fun b hb => ?_⟩
    cases hb with
    | head => exact hQ _ _ _ hn (by omega)
    | tail _ hb => exact hQ _ _ _ (hn' b hb) (by omega)

theorem builds_in {a : RTy (Inst D)} (h : Builds P a) : ∃ n, BuildsIn P n a := by
  induction h with
  | prim => exact ⟨0, .prim⟩
  | bytes => exact ⟨0, .bytes⟩
  | vec => exact ⟨0, .vec⟩
  | option => exact ⟨0, .option⟩
  | list => exact ⟨0, .list⟩
  | map => exact ⟨0, .map⟩
  | array _ ih => obtain ⟨n, h⟩ := ih; exact ⟨n, .array h⟩
  | box _ ih => obtain ⟨n, h⟩ := ih; exact ⟨n, .box h⟩
  | @struct d args fields hb _ ih =>
    obtain ⟨n, h⟩ := bound_all (Q := fun (f : SrcField D) n => BuildsIn P n (f.ty.resolve (bindParams (P d).params args)))
      (fun _ _ _ h hn => h.mono hn) fields ih
    exact ⟨n + 1, .struct hb h⟩
  | @enum d args variants hb _ ih =>
    obtain ⟨n, h⟩ := bound_all (Q := fun (v : SrcVariant D) n => HasTag v.attrs 0#32 →
        ∀ f ∈ v.fields, BuildsIn P n (f.ty.resolve (bindParams (P d).params args)))
      (fun _ _ _ h hn ht f hf => (h ht f hf).mono hn) variants (fun v hv => by
        by_cases ht : HasTag v.attrs 0#32
        · obtain ⟨n, h⟩ := bound_all (Q := fun (f : SrcField D) n => BuildsIn P n (f.ty.resolve (bindParams (P d).params args)))
            (fun _ _ _ h hn => h.mono hn) v.fields (ih v hv ht)
          exact ⟨n, fun _ => h⟩
        · exact ⟨0, fun h => absurd h ht⟩)
    exact ⟨n + 1, .enum hb h⟩

/-- All types that can be reached, in one number of steps. -/
theorem builds_all (hA : Accepted P root) : ∃ N, ∀ a, Reach (declared P).program.graph.links root a → BuildsIn P N a := by
  obtain ⟨ms, hms⟩ := hA.finite
  obtain ⟨N, hN⟩ := bound_all (Q := fun m n => Reach (declared P).program.graph.links root (.msg m) → BuildsIn P n (.msg m))
    (fun _ _ _ h hn hr => (h hr).mono hn) ms (fun m _ => by
      by_cases hr : Reach (declared P).program.graph.links root (.msg m)
      · obtain ⟨n, h⟩ := builds_in (hA.builds m hr)
        exact ⟨n, fun _ => h⟩
      · exact ⟨0, fun h => absurd h hr⟩)
  refine ⟨N, fun a => ?_⟩
  induction a with
  | prim => intro _; exact .prim
  | bytes => intro _; exact .bytes
  | vec => intro _; exact .vec
  | array l a ih => intro h; exact .array (ih (.link h (.head _)))
  | option => intro _; exact .option
  | box a ih => intro h; exact .box (ih (.link h (.head _)))
  | list => intro _; exact .list
  | map => intro _; exact .map
  | msg m => intro h; exact hN m (hms m h) h

/-! ## One message -/

theorem models_srcFields {S : Declarations D} {s : Setting} {ρ : String → RTy (Inst D)} {g : Inst D → Ty} (hg : ∀ m, IsMessage (g m)) {k : Nat} :
    ∀ {fs : List (SrcField D)} {ps : List PField},
      All₂ (fun f p => parseField s f = ([], some p)) (fs.map (·.input fun w => (w.resolve ρ).ty g)) ps →
      (∀ f ∈ fs, Legal P (f.ty.resolve ρ) ∧ Works f.ty (f.ty.resolve ρ) ∧ Models S k (f.ty.resolve ρ) ((f.ty.resolve ρ).ty g)) →
      ModelsFields S k ρ (fs.map (·.decl)) (fieldsOf ps)
  | [], _, .nil, _ => by simp only [fieldsOf, ModelsFields]; rfl
  | f :: fs, p :: ps, .cons hp hs, h => by
    obtain ⟨h1, h2, h3⟩ := parseField_is hp
    obtain ⟨a, b, c⟩ := h f (.head _)
    simp only [fieldsOf, ModelsFields]
    have hpar : p.attrs.param = isParam f.ty := h2.trans (isTypeParam_eq f.ty)
    refine ⟨f.decl, fs.map (·.decl), rfl, h1.symm, hpar, ?_, b.1, ?_, models_srcFields hg hs fun f' hf' => h f' (.tail _ hf')⟩
    · rw [h3]
      exact good_ty hg a b hpar
    · rw [h3]
      exact c

/-- No steps at all. -/
theorem models_zero {S : Declarations D} {g : Inst D → Ty} (hg : ∀ m, IsMessage (g m)) : ∀ a : RTy (Inst D), Legal P a → Models S 0 a (a.ty g)
  | .prim r c w, h => by
    obtain ⟨t, ht⟩ := h
    simp only [RTy.ty, primTy_of ht]
    have ht' := ht
    unfold primitiveMeta at ht
    split at ht <;> first | exact ⟨r, c, w, rfl, ht'⟩ | cases ht
  | .bytes, _ => rfl
  | .vec a, h => ⟨a, rfl, models_zero hg a h⟩
  | .array _ a, h => ⟨a, rfl, models_zero hg a h.2.2⟩
  | .option a, h => ⟨a, rfl, models_zero hg a h⟩
  | .box a, h => ⟨a, rfl, models_zero hg a h⟩
  | .list a, h => ⟨a, rfl, models_zero hg a h.2⟩
  | .map r a, h => ⟨r, a, rfl, models_zero hg a h.2.2⟩
  | .msg (.mk d args), _ => by
    simp only [RTy.ty]
    rcases hg (.mk d args) with ⟨_, _, _, e⟩ | ⟨_, _, _, _, e⟩ <;> rw [e] <;> exact ⟨d, args, rfl, fun h => absurd rfl h⟩

theorem unrolled_struct (n : Nat) {d : D} {args : List (RTy (Inst D))} (h : ∀ ty, (derive ((P d).input ty)).1 = []) {fs : List (SrcField D)}
    (hb : (P d).body = .struct fs) :
    ∃ (s : Setting) (st : PStruct), unrolled P (n + 1) (.mk d args) = .struct (P d).derivesState st.cached (fieldsOf st.fields) ∧
      All₂ (fun f p => parseField s f = ([], some p))
        (fs.map (·.input fun w => (w.resolve (bindParams (P d).params args)).ty (unrolled P n))) st.fields ∧
      (st.fields.map (·.tag)).Nodup := by
  have h := h fun w => (w.resolve (bindParams (P d).params args)).ty (unrolled P n)
  rw [input_struct hb] at h
  obtain ⟨s, st, h1, h2, h3⟩ := derive_struct h
  refine ⟨s, st, ?_, h2, h3⟩
  unfold unrolled
  rw [input_struct hb, h1]
  rfl

theorem unrolled_enum (n : Nat) {d : D} {args : List (RTy (Inst D))} (h : ∀ ty, (derive ((P d).input ty)).1 = []) {vs : List (SrcVariant D)}
    (hb : (P d).body = .enum vs) :
    ∃ s ps, ∃ p ∈ ps, p.tag = 0#32 ∧ unrolled P (n + 1) (.mk d args) =
        .enum (P d).derivesState p.struct.cached (fieldsOf p.struct.fields) (variantsOf (ps.filter fun v => v.tag != 0#32)) ∧
      All₂ (fun v => Variant1 s ⟨v.attrs, v.fields.map (·.input fun w => (w.resolve (bindParams (P d).params args)).ty (unrolled P n))⟩) vs ps ∧
      (ps.map (·.tag)).Nodup := by
  have h := h fun w => (w.resolve (bindParams (P d).params args)).ty (unrolled P n)
  rw [input_enum hb] at h
  obtain ⟨s, ps, h1, h2, h3, q, hq, hq0⟩ := derive_enum h
  cases hf : ps.find? fun v => v.tag == 0#32 with
  | none => exact absurd (by simpa using hq0) (List.find?_eq_none.1 hf q hq)
  | some p =>
    refine ⟨s, ps, p, List.mem_of_find?_eq_some hf, by simpa using List.find?_some hf, ?_, h2.map fun v p hp => hp, h3⟩
    unfold unrolled
    rw [input_enum hb, h1]
    simp only [Output.ty, hf]

theorem models_variants {S : Declarations D} {k : Nat} {ρ : String → RTy (Inst D)} {variants : List (DeclVariant D)} :
    ∀ {ps : List PVariant}, (∀ p ∈ ps, ∃ v ∈ variants, v.tag = p.tag ∧ ModelsFields S (k - 1) ρ v.fields (fieldsOf p.struct.fields) ∧
      (fieldsOf p.struct.fields).tags.Nodup) → ModelsVariants S k ρ variants (variantsOf ps)
  | [], _ => trivial
  | p :: _, h => ⟨h p (.head _), models_variants fun q hq => h q (.tail _ hq)⟩

/-- The tags of variants, as declared and as derived. -/
theorem variant_tags {s : Setting} {ty : Written D → Ty} : ∀ {vs : List (SrcVariant D)} {ps : List PVariant},
    All₂ (fun v => Variant1 s ⟨v.attrs, v.fields.map (·.input ty)⟩) vs ps → (vs.map (·.decl)).map (·.tag) = ps.map (·.tag)
  | [], _, .nil => rfl
  | _ :: _, _ :: _, .cons h hs => by
    simp only [List.map_cons, variant_tags hs, List.cons.injEq, and_true]
    exact (variant1_parts h).1.symm

/-! ## Everything that can be reached -/

theorem models_all (hA : Accepted P root) {N : Nat} (hN : ∀ a, Reach (declared P).program.graph.links root a → BuildsIn P N a) :
    ∀ (k h : Nat) (a : RTy (Inst D)), Reach (declared P).program.graph.links root a → BuildsIn P h a → ∀ n, k * N + h ≤ n →
      Models (declared P) k a (a.ty (unrolled P n))
  | 0, _, a, ha, _, n, _ => models_zero (unrolled_message P n) a (legal_reach hA ha)
  | k + 1, h, a, ha, hB, n, hn => by
    have ihk : ∀ (a : RTy (Inst D)), Reach (declared P).program.graph.links root a → ∀ n, k * N + N ≤ n →
        Models (declared P) k a (a.ty (unrolled P n)) := fun a ha n hn => models_all hA hN k N a ha (hN a ha) n hn
    have hk : (k + 1) * N = k * N + N := by rw [Nat.add_mul, Nat.one_mul]
    rw [hk] at hn
    induction hB generalizing n with
    | @prim _ r c w =>
      obtain ⟨t, ht⟩ := legal_reach hA ha
      simp only [RTy.ty, primTy_of ht]
      have ht' := ht
      unfold primitiveMeta at ht
      split at ht <;> first | exact ⟨r, c, w, rfl, ht'⟩ | cases ht
    | bytes => rfl
    | vec => exact ⟨_, rfl, ihk _ (.link ha (.head _)) n (by omega)⟩
    | option => exact ⟨_, rfl, ihk _ (.link ha (.head _)) n (by omega)⟩
    | list => exact ⟨_, rfl, ihk _ (.link ha (.head _)) n (by omega)⟩
    | map => exact ⟨_, _, rfl, ihk _ (.link ha (.head _)) n (by omega)⟩
    | array => exact ⟨_, rfl, ihk _ (.link ha (.head _)) n (by omega)⟩
    | box _ ih => exact ⟨_, rfl, ih (.link ha (.head _)) n hn⟩
    | @struct h d args fields hb _ ih =>
      obtain ⟨n, rfl⟩ : ∃ j, n = j + 1 := ⟨n - 1, by omega⟩
      obtain ⟨s, st, e, h1, h2⟩ := unrolled_struct (d := d) (args := args) n (hA.macro' _ ha) hb
      simp only [RTy.ty]
      rw [e]
      refine ⟨d, args, rfl, fun _ => ⟨_, declared_body_struct hb, models_srcFields (P := P) (unrolled_message P n) h1 fun f hf => ?_, ?_⟩⟩
      · have hf' : f ∈ (P d).body.fields := by rw [hb]; exact hf
        exact ⟨(hA.fields d args ha f hf').1, hA.works d args ha f hf', ih f hf (reach_srcField ha hf') n (by omega)⟩
      · rw [fieldsOf_tags]
        exact h2
    | @enum h d args variants hb _ ih =>
      obtain ⟨n, rfl⟩ : ∃ j, n = j + 1 := ⟨n - 1, by omega⟩
      obtain ⟨s, ps, p, hp, hp0, e, h1, h2⟩ := unrolled_enum (d := d) (args := args) n (hA.macro' _ ha) hb
      simp only [RTy.ty]
      rw [e]
      have htags := variant_tags h1
      have field : ∀ v ∈ variants, ∀ f ∈ v.fields, f ∈ (P d).body.fields := fun v hv f hf => by
        rw [hb]
        exact List.mem_flatMap.2 ⟨v, hv, hf⟩
      refine ⟨d, args, rfl, fun _ => ⟨_, declared_body_enum hb, ?_, ?_, ?_, ?_⟩⟩
      · rw [htags]
        exact h2
      · intro w hw
        have : w.tag ∈ ps.map (·.tag) := htags ▸ List.mem_map.2 ⟨w, hw, rfl⟩
        obtain ⟨q, hq, hqt⟩ := List.mem_map.1 this
        by_cases h0 : w.tag = 0#32
        · exact .inl h0
        · refine .inr ?_
          rw [variantsOf_tags]
          exact List.mem_map.2 ⟨q, List.mem_filter.2 ⟨hq, by simpa [hqt] using h0⟩, hqt⟩
      · obtain ⟨v, hv, hvp⟩ := h1.right p hp
        obtain ⟨a, b, c⟩ := variant1_parts hvp
        have hz : HasTag v.attrs 0#32 := hp0 ▸ (variant1_is (wantsCache := s.hasSizeCache = true) Iff.rfl hvp).tag
        refine ⟨v.decl, List.mem_map.2 ⟨v, hv, rfl⟩, a.symm.trans hp0, models_srcFields (P := P) (unrolled_message P n) b fun f hf => ?_, ?_⟩
        · exact ⟨(hA.fields d args ha f (field v hv f hf)).1, hA.works d args ha f (field v hv f hf),
            ih v hv hz f hf (reach_srcField ha (field v hv f hf)) n (by omega)⟩
        · rw [fieldsOf_tags]
          exact c
      · refine models_variants fun q hq => ?_
        obtain ⟨v, hv, hvp⟩ := h1.right q (List.mem_filter.1 hq).1
        obtain ⟨a, b, c⟩ := variant1_parts hvp
        refine ⟨v.decl, List.mem_map.2 ⟨v, hv, rfl⟩, a.symm, models_srcFields (P := P) (unrolled_message P n) b fun f hf => ?_, ?_⟩
        · exact ⟨(hA.fields d args ha f (field v hv f hf)).1, hA.works d args ha f (field v hv f hf),
            ihk _ (reach_srcField ha (field v hv f hf)) n (by omega)⟩
        · rw [fieldsOf_tags]
          exact c

/-! ## Well formed types -/

theorem stub_wf (s : Src D) : s.stub.WF := by
  unfold Src.stub
  split <;> simp [Ty.WF, Fields.WF, Variants.WF, Fields.tags, Variants.tags]

theorem stub_state (s : Src D) : s.stub.isState = s.derivesState := by
  unfold Src.stub
  split <;> rfl

theorem unrolled_state (P : D → Src D) : ∀ n m, (unrolled P n m).isState = (P m.decl).derivesState
  | 0, .mk d _ => stub_state (P d)
  | n + 1, .mk d args => by
    unfold unrolled
    split
    · rename_i out _
      cases out with
      | struct st => rfl
      | enum ps =>
        unfold Output.ty
        simp only
        split <;> rfl
    · exact stub_state _

theorem state_ty (hA : Accepted P root) (n : Nat) : ∀ a : RTy (Inst D), Legal P a →
    (∀ m, a = .msg m → Reach (declared P).program.graph.links root (.msg m)) → Reach (declared P).program.graph.links root a →
    ((a.ty (unrolled P n)).isState = true ↔ IsState P a)
  | .prim r c w, h, _, _ => by
    obtain ⟨t, ht⟩ := h
    simp only [RTy.ty, primTy_of ht, IsState]
    unfold primitiveMeta at ht
    split at ht <;> simp only [Option.some.injEq, TypeMeta.primitive.injEq, NameMeta.mk.injEq, reduceCtorEq] at ht <;>
      (obtain ⟨⟨rfl, _⟩, _⟩ := ht; simp [Ty.isState])
  | .bytes, _, _, _ => by simp [RTy.ty, Ty.isState, IsState]
  | .vec _, _, _, _ => by simp [RTy.ty, Ty.isState, IsState]
  | .array _ _, _, _, _ => by simp [RTy.ty, Ty.isState, IsState]
  | .option _, _, _, _ => by simp [RTy.ty, Ty.isState, IsState]
  | .box a, h, _, hr => by
    simp only [RTy.ty, Ty.isState, IsState]
    have hr' : Reach (declared P).program.graph.links root a := .link hr (.head _)
    exact state_ty hA n a h (fun m e => e ▸ hr') hr'
  | .list _, _, _, _ => by simp [RTy.ty, Ty.isState, IsState]
  | .map _ _, _, _, _ => by simp [RTy.ty, Ty.isState, IsState]
  | .msg m, _, _, hr => by
    simp only [RTy.ty, unrolled_state, IsState]
    exact derivesState_iff (hA.macro' m hr fun _ => .bool)

theorem wf_ty {g : Inst D → Ty} (hg : ∀ m, Reach (declared P).program.graph.links root (.msg m) → (g m).WF)
    (hs : ∀ a, Reach (declared P).program.graph.links root a → ((a.ty g).isState = true ↔ IsState P a)) :
    ∀ a : RTy (Inst D), Reach (declared P).program.graph.links root a → Legal P a → (a.ty g).WF
  | .prim r c w, _, h => by
    obtain ⟨t, ht⟩ := h
    simp only [RTy.ty, primTy_of ht]
    unfold primitiveMeta at ht
    split at ht <;> trivial
  | .bytes, _, _ => trivial
  | .vec a, hr, h => wf_ty hg hs a (.link hr (.head _)) h
  | .array n a, hr, h => ⟨h.1, h.2.1, wf_ty hg hs a (.link hr (.head _)) h.2.2⟩
  | .option a, hr, h => wf_ty hg hs a (.link hr (.head _)) h
  | .box a, hr, h => wf_ty hg hs a (.link hr (.head _)) h
  | .list a, hr, h => ⟨(hs a (.link hr (.head _))).2 h.1, wf_ty hg hs a (.link hr (.head _)) h.2⟩
  | .map k a, hr, h => ⟨(hs a (.link hr (.head _))).2 h.2.1, wf_ty hg hs a (.link hr (.head _)) h.2.2⟩
  | .msg m, hr, _ => hg m hr

theorem state_reach (hA : Accepted P root) (n : Nat) (a : RTy (Inst D)) (ha : Reach (declared P).program.graph.links root a) :
    (a.ty (unrolled P n)).isState = true ↔ IsState P a :=
  state_ty hA n a (legal_reach hA ha) (fun _ e => e ▸ ha) ha

theorem unrolled_wf (hA : Accepted P root) : ∀ n m, Reach (declared P).program.graph.links root (.msg m) → (unrolled P n m).WF
  | 0, .mk d _, _ => stub_wf (P d)
  | n + 1, .mk d args, hr => by
    have hd := hA.macro' _ hr fun w => (w.resolve (bindParams (P d).params args)).ty (unrolled P n)
    have fit : ∀ f ∈ (P d).body.fields, ((f.ty.resolve (bindParams (P d).params args)).ty (unrolled P n)).WF ∧
        (HasArg (P d).args "State" → ¬ HasFlag f.attrs "no_state" → ((f.ty.resolve (bindParams (P d).params args)).ty (unrolled P n)).isState = true) := by
      intro f hf
      obtain ⟨a, b⟩ := hA.fields d args hr f hf
      exact ⟨wf_ty (unrolled_wf hA n) (state_reach hA n) _ (reach_srcField hr hf) a,
        fun x y => (state_reach hA n _ (reach_srcField hr hf)).2 (b x y)⟩
    have ht : TypesFit ((P d).input fun w => (w.resolve (bindParams (P d).params args)).ty (unrolled P n)) := by
      unfold TypesFit
      cases hb : (P d).body with
      | struct fs =>
        rw [input_struct hb]
        intro _ f hf
        obtain ⟨g, hg, rfl⟩ := List.mem_map.1 hf
        exact fit g (by rw [hb]; exact hg)
      | enum vs =>
        rw [input_enum hb]
        intro _ v hv f hf
        obtain ⟨w, hw, rfl⟩ := List.mem_map.1 hv
        obtain ⟨g, hg, rfl⟩ := List.mem_map.1 hf
        exact fit g (by rw [hb]; exact List.mem_flatMap.2 ⟨w, hw, hg⟩)
    obtain ⟨out, ho, hw⟩ := C47_schema_is_well_formed hd ht (derivesState_iff hd)
    unfold unrolled
    simp only [Inst.decl] at ho
    rw [ho]
    exact hw

/-! ## Types with a counterpart in C# -/

theorem mirrored_ty {g : Inst D → Ty} (hg : ∀ m, Reach (declared P).program.graph.links root (.msg m) → Mirrored (g m)) :
    ∀ a : RTy (Inst D), Reach (declared P).program.graph.links root a → Legal P a → Mirrored (a.ty g)
  | .prim r c w, _, h => by
    obtain ⟨t, ht⟩ := h
    simp only [RTy.ty, primTy_of ht]
    unfold primitiveMeta at ht
    split at ht <;> trivial
  | .bytes, _, _ => trivial
  | .vec a, hr, h => mirrored_ty hg a (.link hr (.head _)) h
  | .array n a, hr, h => mirrored_ty hg a (.link hr (.head _)) h.2.2
  | .option a, hr, h => mirrored_ty hg a (.link hr (.head _)) h
  | .box a, hr, h => mirrored_ty hg a (.link hr (.head _)) h
  | .list a, hr, h => mirrored_ty hg a (.link hr (.head _)) h.2
  | .map k a, hr, h => mirrored_ty hg a (.link hr (.head _)) h.2.2
  | .msg m, hr, _ => hg m hr

theorem mirrored_fields {s : Setting} {ρ : String → RTy (Inst D)} {g : Inst D → Ty} (hg : ∀ m, IsMessage (g m)) :
    ∀ {fs : List (SrcField D)} {ps : List PField},
      All₂ (fun f p => parseField s f = ([], some p)) (fs.map (·.input fun w => (w.resolve ρ).ty g)) ps →
      (∀ f ∈ fs, Legal P (f.ty.resolve ρ) ∧ Works f.ty (f.ty.resolve ρ) ∧ Mirrored ((f.ty.resolve ρ).ty g)) →
      MirroredFields (fieldsOf ps)
  | [], _, .nil, _ => trivial
  | f :: fs, p :: ps, .cons hp hs, h => by
    obtain ⟨h1, h2, h3⟩ := parseField_is hp
    obtain ⟨a, b, c⟩ := h f (.head _)
    simp only [fieldsOf, MirroredFields]
    rw [h3]
    exact ⟨good_ty hg a b (h2.trans (isTypeParam_eq f.ty)), c, mirrored_fields hg hs fun f' hf' => h f' (.tail _ hf')⟩

theorem mirrored_variants : ∀ {ps : List PVariant}, (∀ p ∈ ps, MirroredFields (fieldsOf p.struct.fields)) → MirroredVariants (variantsOf ps)
  | [], _ => trivial
  | p :: _, h => ⟨h p (.head _), mirrored_variants fun q hq => h q (.tail _ hq)⟩

theorem unrolled_mirrored (hA : Accepted P root) : ∀ n m, Reach (declared P).program.graph.links root (.msg m) → Mirrored (unrolled P n m)
  | 0, .mk d _, _ => by
    unfold unrolled Src.stub
    split <;> simp [Mirrored, MirroredFields, MirroredVariants]
  | n + 1, .mk d args, hr => by
    have fit : ∀ f ∈ (P d).body.fields, Legal P (f.ty.resolve (bindParams (P d).params args)) ∧
        Works f.ty (f.ty.resolve (bindParams (P d).params args)) ∧
        Mirrored ((f.ty.resolve (bindParams (P d).params args)).ty (unrolled P n)) := fun f hf =>
      ⟨(hA.fields d args hr f hf).1, hA.works d args hr f hf,
        mirrored_ty (unrolled_mirrored hA n) _ (reach_srcField hr hf) (hA.fields d args hr f hf).1⟩
    cases hb : (P d).body with
    | struct fs =>
      obtain ⟨s, st, e, h1, _⟩ := unrolled_struct (d := d) (args := args) n (hA.macro' _ hr) hb
      rw [e]
      exact mirrored_fields (unrolled_message P n) h1 fun f hf => fit f (by rw [hb]; exact hf)
    | enum vs =>
      obtain ⟨s, ps, p, hp, _, e, h1, _⟩ := unrolled_enum (d := d) (args := args) n (hA.macro' _ hr) hb
      rw [e]
      have each : ∀ q ∈ ps, MirroredFields (fieldsOf q.struct.fields) := by
        intro q hq
        obtain ⟨v, hv, hvp⟩ := h1.right q hq
        exact mirrored_fields (unrolled_message P n) (variant1_parts hvp).2.1 fun f hf =>
          fit f (by rw [hb]; exact List.mem_flatMap.2 ⟨v, hv, hf⟩)
      exact ⟨each p hp, mirrored_variants fun q hq => each q (List.mem_filter.1 hq).1⟩

end Steit.Gen
