import Verif.Lemmas.Declaration

/-!
# C47: which declarations the derive macro accepts
-/

namespace Steit.Derive

open Spec

/-- C47. The macro records no error exactly for declarations whose attributes are well formed, whose tags are given, below 2^29,
distinct and not reserved, whose enums have a variant with tag 0, and whose field types metadata can be given for. -/
theorem C47_accepts_exactly (input : Input) : (derive input).1 = [] ↔ Acceptable input := by
  obtain ⟨args, attrs, consts, data⟩ := input
  unfold derive
  cases data with
  | struct fs =>
    have hr := raw_twice settingTable_fn structTable_fn (by decide) typeNames_fn struct_names attrs
    have hres := reserved_twice (A := settingTable) structTable_fn (by decide) (by decide) (by decide) attrs
    simp only [List.append_eq_nil_iff, List.replicate_eq_nil_iff]
    constructor
    · rintro ⟨⟨⟨h1, h2⟩, h3⟩, h4⟩
      obtain ⟨h5, h6⟩ := parseStruct_ok.1 h4
      have hs := setting_spec (input := ⟨args, attrs, consts, .struct fs⟩) h1 h2
      exact ⟨(args_ok args).1 h1, h3, hr.1 ⟨h2, h5⟩, (fields_ok_iff _ _ hs.2.1 attrs _ hres fs).1 h6⟩
    · rintro ⟨h1, h3, h2, h4⟩
      have h1 := (args_ok args).2 h1
      obtain ⟨h2, h5⟩ := hr.2 h2
      have hs := setting_spec (input := ⟨args, attrs, consts, .struct fs⟩) h1 h2
      exact ⟨⟨⟨h1, h2⟩, h3⟩, parseStruct_ok.2 ⟨h5, (fields_ok_iff _ _ hs.2.1 attrs _ hres fs).2 h4⟩⟩
  | enum vs =>
    have hr := raw_twice settingTable_fn enumTable_fn (by decide) typeNames_fn enum_names attrs
    have hres := reserved_twice (A := settingTable) enumTable_fn (by decide) (by decide) (by decide) attrs
    simp only
    split
    · rename_i he
      subst he
      simp only [List.append_eq_nil_iff, List.cons_ne_nil, and_false, false_iff]
      rintro ⟨_, _, _, h⟩
      obtain ⟨v, hv, _⟩ := h.default
      cases hv
    · simp only [List.append_eq_nil_iff, List.replicate_eq_nil_iff]
      constructor
      · rintro ⟨⟨⟨⟨h1, h2⟩, h3⟩, h5⟩, h4⟩
        have hs := setting_spec (input := ⟨args, attrs, consts, .enum vs⟩) h1 h2
        exact ⟨(args_ok args).1 h1, h3, hr.1 ⟨h2, h5⟩, (variants_ok_iff _ _ hs.2.1 attrs _ hres vs).1 h4⟩
      · rintro ⟨h1, h3, h2, h4⟩
        have h1 := (args_ok args).2 h1
        obtain ⟨h2, h5⟩ := hr.2 h2
        have hs := setting_spec (input := ⟨args, attrs, consts, .enum vs⟩) h1 h2
        exact ⟨⟨⟨⟨h1, h2⟩, h3⟩, h5⟩, (variants_ok_iff _ _ hs.2.1 attrs _ hres vs).2 h4⟩
  | union =>
    simp only [List.append_eq_nil_iff, List.cons_ne_nil, and_false, false_iff]
    rintro ⟨_, _, _, h⟩
    exact h

/-- C47. Code is generated for every accepted declaration: for each field and variant as declared, with its tag and flags. -/
theorem C47_code_is_generated {input : Input} (h : (derive input).1 = []) :
    ∃ out, (derive input).2 = some out ∧ Declares input out := by
  obtain ⟨args, attrs, consts, data⟩ := input
  unfold derive at h ⊢
  cases data with
  | struct fs =>
    simp only [List.append_eq_nil_iff, List.replicate_eq_nil_iff] at h ⊢
    obtain ⟨⟨⟨h1, h2⟩, h3⟩, h4⟩ := h
    have hs := setting_spec (input := ⟨args, attrs, consts, .struct fs⟩) h1 h2
    obtain ⟨st, hst⟩ := parseStruct_some h4
    rw [hst]
    obtain ⟨h5, h6, h7⟩ := (parseStruct_iff _ _ _ _).1 hst
    refine ⟨.struct st, rfl, .struct rfl ?_ (parsed_fields h6)⟩
    rw [h7, Bool.and_eq_true, hs.2.2, Bool.not_eq_true', ← Bool.not_eq_true, flag_of structTable_fn h5 (by decide)]
    refine ⟨fun h => h.1, fun h => ⟨h, ?_⟩⟩
    have hk : Table.kind? settingTable "no_size_cache" = some .flag := by decide
    have hu : ∀ m : Meta, m.name = "no_size_cache" → (∃ v, Kind.parse .flag m = .set v) →
        Nested.attr m ∉ (parseRaw settingTable false attrs).unknown := by
      intro m hm ⟨v, hv⟩ hmem
      have hmem : Nested.attr m ∈ (parseAttrs settingTable false (rawItems attrs) []).unknown := hmem
      rw [parseAttrs_unknown, List.mem_filter] at hmem
      have := hmem.2
      simp only [isUnknown, outcome, hm, hk, hv] at this
      cases this
    rintro (h | h)
    · exact hu (.path _) rfl ⟨_, rfl⟩ h
    · exact hu (.nameValue _ (.bool true)) rfl ⟨_, rfl⟩ h
  | enum vs =>
    simp only at h ⊢
    split at h
    · simp at h
    · rename_i he
      rw [if_neg he]
      simp only [List.append_eq_nil_iff, List.replicate_eq_nil_iff] at h
      obtain ⟨⟨⟨⟨h1, h2⟩, h3⟩, h5⟩, h4⟩ := h
      have hs := setting_spec (input := ⟨args, attrs, consts, .enum vs⟩) h1 h2
      obtain ⟨ps, hps⟩ := parseVariants_ok h4
      simp only [hps]
      exact ⟨.enum ps, rfl, .enum rfl (((parseVariants_iff _ _ _ _).1 hps).1.imp fun v p hv => variant1_is hs.2.2 hv)⟩
  | union => simp at h

/-! ## Accepted declarations are well formed types -/

theorem fieldsOf_tags : ∀ ps, (fieldsOf ps).tags = ps.map (·.tag)
  | [] => rfl
  | p :: ps => by simp only [fieldsOf, Fields.tags, List.map_cons, fieldsOf_tags ps]

theorem variantsOf_tags : ∀ ps, (variantsOf ps).tags = ps.map (·.tag)
  | [] => rfl
  | p :: ps => by simp only [variantsOf, Variants.tags, List.map_cons, variantsOf_tags ps]

theorem fieldsOf_wf {ds : Bool} : ∀ {ps : List PField}, (∀ p ∈ ps, p.tag ≤ 0x1fffffff#32 ∧
    ((ds && !p.attrs.noState) = true → p.ty.isState = true) ∧ p.ty.WF) → (fieldsOf ps).WF ds
  | [], _ => trivial
  | p :: ps, h =>
    ⟨(h p List.mem_cons_self).1, (h p List.mem_cons_self).2.1, (h p List.mem_cons_self).2.2,
      fieldsOf_wf fun q hq => h q (List.mem_cons_of_mem _ hq)⟩

theorem variantsOf_wf {ds : Bool} : ∀ {ps : List PVariant}, (∀ p ∈ ps, p.tag ≤ 0x1fffffff#32 ∧
    (fieldsOf p.struct.fields).tags.Nodup ∧ (fieldsOf p.struct.fields).WF ds) → (variantsOf ps).WF ds
  | [], _ => trivial
  | p :: ps, h =>
    ⟨(h p List.mem_cons_self).1, (h p List.mem_cons_self).2.1, (h p List.mem_cons_self).2.2,
      variantsOf_wf fun q hq => h q (List.mem_cons_of_mem _ hq)⟩

theorem le_of_lt {t : U32} (h : t.toNat < 2 ^ 29) : t ≤ 0x1fffffff#32 := by
  rw [BitVec.le_def]
  have : (0x1fffffff#32).toNat = 2 ^ 29 - 1 := by decide
  omega

theorem parsed_wf {s : Setting} {R : List U32} {fs : List FieldDecl} {ps : List PField} (h : parseFields s R fs = ([], some ps))
    {ds : Bool} (ht : ∀ f ∈ fs, f.ty.WF ∧ (ds = true → ¬ HasFlag f.attrs "no_state" → f.ty.isState = true)) :
    (fieldsOf ps).tags.Nodup ∧ (fieldsOf ps).WF ds := by
  obtain ⟨h1, h2, _⟩ := (parseFields_iff s R fs ps).1 h
  rw [fieldsOf_tags]
  refine ⟨h2, fieldsOf_wf fun p hp => ?_⟩
  obtain ⟨f, hf, hfp⟩ := h1.right p hp
  obtain ⟨_, hle, _, his⟩ := (parseField_some s f p).1 hfp
  rw [his.ty]
  refine ⟨le_of_lt hle, fun hn => ?_, (ht f hf).1⟩
  rw [Bool.and_eq_true, Bool.not_eq_true', ← Bool.not_eq_true, his.noState] at hn
  exact (ht f hf).2 hn.1 hn.2

/-- C47. If the macro accepts a declaration and the compiler accepts the types of its fields, the declared type is well formed: the
side condition of the theorems about codecs, logs and replay. -/
theorem C47_schema_is_well_formed {input : Input} (h : (derive input).1 = []) (ht : TypesFit input) {ds : Bool}
    (hds : ds = true ↔ HasArg input.args "State") : ∃ out, (derive input).2 = some out ∧ (out.ty ds).WF := by
  obtain ⟨args, attrs, consts, data⟩ := input
  unfold derive at h ⊢
  cases data with
  | struct fs =>
    simp only [List.append_eq_nil_iff, List.replicate_eq_nil_iff] at h ⊢
    obtain ⟨⟨⟨h1, h2⟩, h3⟩, h4⟩ := h
    obtain ⟨st, hst⟩ := parseStruct_some h4
    rw [hst]
    obtain ⟨h5, h6, h7⟩ := (parseStruct_iff _ _ _ _).1 hst
    exact ⟨.struct st, rfl, parsed_wf h6 fun f hf => ⟨(ht f hf).1, fun hd => (ht f hf).2 (hds.1 hd)⟩⟩
  | enum vs =>
    simp only at h ⊢
    split at h
    · simp at h
    · rename_i he
      rw [if_neg he]
      simp only [List.append_eq_nil_iff, List.replicate_eq_nil_iff] at h
      obtain ⟨⟨⟨⟨h1, h2⟩, h3⟩, h5⟩, h4⟩ := h
      obtain ⟨ps, hps⟩ := parseVariants_ok h4
      simp only [hps]
      refine ⟨.enum ps, rfl, ?_⟩
      obtain ⟨a, b, _, q, hq, hq0⟩ := (parseVariants_iff _ _ _ _).1 hps
      have each : ∀ p ∈ ps, p.tag ≤ 0x1fffffff#32 ∧ (fieldsOf p.struct.fields).tags.Nodup ∧ (fieldsOf p.struct.fields).WF ds := by
        intro p hp
        obtain ⟨v, hv, attrs', hp1, hp2⟩ := a.right p hp
        obtain ⟨_, h6, _⟩ := (parseStruct_iff _ _ _ _).1 hp2
        have := parsed_wf h6 (ds := ds) fun f hf => ⟨(ht v hv f hf).1, fun hd => (ht v hv f hf).2 (hds.1 hd)⟩
        exact ⟨le_of_lt (parseVariant_some.1 hp1).2.2.1, this⟩
      unfold Output.ty
      simp only
      cases hf : ps.find? fun v => v.tag == 0#32 with
      | none =>
        exact absurd (by simpa using hq0) (List.find?_eq_none.1 hf q hq)
      | some d =>
        have hd := List.mem_of_find?_eq_some hf
        refine ⟨(each d hd).2.1, (each d hd).2.2, ?_, ?_, ?_⟩
        · rw [variantsOf_tags]
          exact b.sublist (List.filter_sublist.map _)
        · rw [variantsOf_tags]
          intro hm
          obtain ⟨p, hp, hp0⟩ := List.mem_map.1 hm
          have := (List.mem_filter.1 hp).2
          rw [hp0] at this
          cases this
        · exact variantsOf_wf fun p hp => each p (List.mem_filter.1 hp).1
  | union => simp at h

/-! ## An accepted and a rejected declaration -/

/-- `#[steit(tag = n)] x: ty` -/
def exField (n : Nat) (ty : Ty) : FieldDecl := ⟨[.steit [.attr (.nameValue "tag" (.int n))]], .path false .none, ty, false⟩

/-- `#[steit_derive(State, PartialEq, Debug)] #[steit(reserved_tags(3, 4))] enum E { #[steit(tag = 7)] A { #[steit(tag = 0)] x: u8,
#[steit(tag = 2, no_state)] y: String }, #[steit(tag = 0, no_size_cache)] B }` -/
def exEnum : Input where
  args := [.attr (.path "State"), .attr (.path "PartialEq"), .attr (.path "Debug")]
  attrs := [.steit [.attr (.list "reserved_tags" [some (.int 3), some (.int 4)])]]
  constGenerics := 0
  data := .enum
    [⟨[.steit [.attr (.nameValue "tag" (.int 7))]],
      [exField 0 (.uint .w8),
        ⟨[.steit [.attr (.nameValue "tag" (.int 2)), .attr (.path "no_state")]], .path false .none, .string, false⟩]⟩,
     ⟨[.steit [.attr (.nameValue "tag" (.int 0)), .attr (.path "no_size_cache")]], []⟩]

example : (derive exEnum).1 = [] := by decide +kernel

example : TypesFit exEnum := by
  intro v hv f hf
  simp only [List.mem_cons, List.not_mem_nil, or_false] at hv
  rcases hv with rfl | rfl
  · simp only [List.mem_cons, List.not_mem_nil, or_false] at hf
    rcases hf with rfl | rfl
    · exact ⟨trivial, fun _ _ => rfl⟩
    · exact ⟨trivial, fun _ h => absurd (.inl (by simp [items])) h⟩
  · cases hf

/-- Tag 3 used although reserved. -/
example : ¬ Acceptable { exEnum with data := .enum [⟨[.steit [.attr (.nameValue "tag" (.int 3))]], []⟩,
    ⟨[.steit [.attr (.nameValue "tag" (.int 0))]], []⟩] } := by
  rw [← C47_accepts_exactly]
  decide +kernel

/-- Two fields with tag 1. -/
example : ¬ Acceptable ⟨[.attr (.path "Serialize")], [], 0, .struct [exField 1 .bool, exField 1 .bool]⟩ := by
  rw [← C47_accepts_exactly]
  decide +kernel

/-- Tag 2^29. -/
example : ¬ Acceptable ⟨[], [], 0, .struct [exField (2 ^ 29) .bool]⟩ ∧ Acceptable ⟨[], [], 0, .struct [exField (2 ^ 29 - 1) .bool]⟩ := by
  rw [← C47_accepts_exactly, ← C47_accepts_exactly]
  decide +kernel

end Steit.Derive
