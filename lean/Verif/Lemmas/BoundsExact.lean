import Verif.Lemmas.Bounds
import Verif.Spec.Bounds

/-!
# Which generic messages can be derived: lemmas for C75
-/

namespace Steit.Bounds

open Steit.Bounds.Spec

variable {D : Type} {P : D → Decl D} {d : D}

theorem supertrait_iff {a b : Trait} : Supertrait a b ↔ b ∈ a.closure := by
  constructor
  · intro h
    induction h with
    | refl => exact closure_refl _
    | step h _ ih => exact closure_super h ih
  · have key : ∀ (n : Nat) (a b : Trait), a.rank ≤ n → b ∈ a.closure → Supertrait a b := by
      intro n
      induction n with
      | zero =>
        intro a b hr h
        rcases closure_cases h with rfl | ⟨s, hs, _⟩
        · exact .refl
        · have := rank_super hs
          omega
      | succ n ih =>
        intro a b hr h
        rcases closure_cases h with rfl | ⟨s, hs, hs'⟩
        · exact .refl
        · have := rank_super hs
          exact .step hs (ih s b (by omega) hs')
    exact key _ a b (Nat.le_refl _)

/-! ## What compiles is good -/

theorem block_mem {tr : Trait} {b : Block D} (h : (P d).block d tr = some b) : b ∈ (P d).blocks d := mem_blocks.2 (.inr (.inr ⟨tr, h⟩))

/-- `Good` in terms of the flags the macro computes. -/
structure GoodFor (P : D → Decl D) (d : D) : Prop where
  names : ((P d).params.map (·.1)).Nodup
  types : ∀ f ∈ (P d).body.fields, Exists P ((P d).env []) f.ty
  serialize : (P d).request.hasSerialize = true → FieldsHave P d [.serialize] (fun _ => True) .serialize
  deserialize : (P d).request.hasDeserialize = true → FieldsHave P d
    (if (P d).request.state = true ∧ (P d).body.isEnum = true then [.state] else [.deserialize]) (fun _ => True) .deserialize
  default : (P d).request.hasCtors = true → FieldsHave P d (if (P d).request.state = true then [.state] else [.default])
    (fun f => ¬ ((P d).request.state = true ∧ f.noState = false)) .default
  state : (P d).request.state = true → FieldsHave P d [.state] (fun f => f.noState = false) .state
  partialEq : (P d).request.partialEq = true → FieldsHave P d [.partialEq] (fun f => f.noEqHash = false) .partialEq
  hash : (P d).request.hash = true → FieldsHave P d [.hash] (fun f => f.noHash = false ∧ f.noEqHash = false) .hash
  eq : (P d).request.eq = true → FieldsHave P d [.eq] (fun _ => True) .eq
  hasMeta : (P d).request.hasMeta = true → FieldsHave P d [.hasMeta] (fun _ => True) .hasMeta
  /-- and types in the arguments of field types -/
  metaArgs : (P d).request.hasMeta = true → ∀ f ∈ (P d).body.fields, ∀ t ∈ f.ty.metaTypes, Holds P ((P d).env [.hasMeta]) .hasMeta t
  /-- `Eq` with `PartialEq` -/
  eq_partialEq : (P d).request.eq = true → (P d).request.partialEq = true
  /-- `Default`, without `Deserialize`, with `derive_ctors` -/
  default_ctors : (P d).request.default = true → (P d).request.hasDeserialize = true ∨ (P d).request.deriveCtors = true
  /-- `derive_setters` of an enum, without `Deserialize`, with `derive_ctors` -/
  setters_ctors : (P d).body.isEnum = true → (P d).request.deriveSetters = true → (P d).body.fields ≠ [] →
    (P d).request.hasDeserialize = true ∨ (P d).request.deriveCtors = true
  /-- structs with `State`: `T: State` is written for all type parameters -/
  state_bounds : (P d).body.isEnum = false → (P d).request.state = true → ∀ p ∈ (P d).params, ∃ b ∈ p.2, Supertrait b .state

theorem good_of_compiles (h : Compiles P d) : GoodFor P d := by
  have hB : ∀ {tr b}, (P d).block d tr = some b → b.Compiles P d := fun hb => h.blocks _ (block_mem hb)
  refine ⟨h.names, h.types, fun hr f hf _ => ?_, fun hr f hf _ => ?_, fun hr f hf hw => ?_, fun hr f hf hw => ?_, fun hr f hf hw => ?_,
    fun hr f hf hw => ?_, fun hr f hf _ => ?_, fun hr f hf _ => ?_, fun hr f hf t ht => ?_, fun hr => ?_, fun hr => ?_, fun he hr hf => ?_,
    fun he hr p hp => ?_⟩
  · have hb : (P d).block d .serialize = some (P d).serialize := by simp [Decl.block, hr]
    exact (hB hb).needs (.impl .serialize f.ty) (List.mem_map_of_mem hf)
  · have hb : (P d).block d .deserialize = some ((P d).deserialize d) := by simp [Decl.block, hr]
    have hn := (hB hb).needs (.impl .deserialize f.ty)
    cases hbody : (P d).body with
    | struct fs =>
      have hb' : (P d).deserialize d = ⟨some .deserialize, [.deserialize], (P d).each .deserialize⟩ := by simp only [Decl.deserialize, hbody]
      rw [hb'] at hn
      have := hn (List.mem_map_of_mem hf)
      simpa [Need.Met, Body.isEnum] using this
    | enum vs =>
      have hb' : (P d).deserialize d = ⟨some .deserialize, (P d).request.traitBounds [.deserialize],
          (P d).each .deserialize ++ .ctor :: if (P d).request.state then [.impl .state ((P d).self d)] else []⟩ := by
        simp only [Decl.deserialize, hbody]
      rw [hb'] at hn
      have := hn (List.mem_append_left _ (List.mem_map_of_mem hf))
      simpa [Need.Met, Body.isEnum, Request.traitBounds] using this
  · have hc : (P d).ctors ∈ (P d).blocks d := mem_blocks.2 (.inl ⟨hr, rfl⟩)
    have hs : (P d).isState f = false := by
      cases hS : (P d).request.state <;> cases hN : f.noState <;> simp [Decl.isState, hS, hN] at hw ⊢
    have := (h.blocks _ hc).needs (.impl .default f.ty) (List.mem_map.2 ⟨f, hf, by simp [hs]⟩)
    simpa [Need.Met, Decl.ctors, Request.traitBounds] using this
  · have hb : (P d).block d .state = some (P d).state := by simp [Decl.block, hr]
    refine (hB hb).needs (.impl .state f.ty) (List.mem_cons_of_mem _ (List.mem_map.2 ⟨f, List.mem_filter.2 ⟨hf, ?_⟩, rfl⟩))
    simp [Decl.isState, hr, hw]
  · have hb : (P d).block d .partialEq = some (P d).partialEq := by simp [Decl.block, hr]
    exact (hB hb).needs (.impl .partialEq f.ty) (List.mem_map.2 ⟨f, List.mem_filter.2 ⟨hf, by simp [hw]⟩, rfl⟩)
  · have hb : (P d).block d .hash = some (P d).hash := by simp [Decl.block, hr]
    exact (hB hb).needs (.impl .hash f.ty) (List.mem_map.2 ⟨f, List.mem_filter.2 ⟨hf, by simp [hw]⟩, rfl⟩)
  · have hb : (P d).block d .eq = some (P d).eq := by simp [Decl.block, hr]
    exact (hB hb).needs (.impl .eq f.ty) (List.mem_map_of_mem hf)
  · have hb : (P d).block d .hasMeta = some (P d).meta := by simp [Decl.block, hr]
    exact (hB hb).needs (.impl .hasMeta f.ty) (List.mem_append_right _ (List.mem_flatMap.2 ⟨f, hf, List.mem_cons_self ..⟩))
  · have hb : (P d).block d .hasMeta = some (P d).meta := by simp [Decl.block, hr]
    exact (hB hb).needs (.impl .hasMeta t)
      (List.mem_append_right _ (List.mem_flatMap.2 ⟨f, hf, List.mem_cons_of_mem _ (List.mem_map_of_mem ht)⟩))
  · have hb : (P d).block d .eq = some (P d).eq := by simp [Decl.block, hr]
    have := (hB hb).supers .eq rfl .partialEq (by decide)
    obtain ⟨b, hb', -⟩ := (holds_self h.names).1 this
    cases hq : (P d).request.partialEq with
    | true => rfl
    | false => simp [Decl.block, hq] at hb'
  · have hb : (P d).block d .default = some (P d).default := by simp [Decl.block, Request.hasDefault, hr]
    have := (hB hb).needs .ctor (List.mem_cons_self ..)
    simpa [Need.Met, Request.hasCtors] using this.1
  · have hs : (P d).setters d ∈ (P d).blocks d := mem_blocks.2 (.inr (.inl ⟨by simp [Request.hasSetters, hr], rfl⟩))
    have hn := (h.blocks _ hs).needs .ctor
    cases hbody : (P d).body with
    | struct fs => simp [hbody, Body.isEnum] at he
    | enum vs =>
      simp only [hbody, Body.fields] at hf
      obtain ⟨f, hf⟩ := List.exists_mem_of_ne_nil _ hf
      have hm : Need.ctor ∈ ((P d).setters d).needs := by
        simp only [Decl.setters, hbody]
        exact List.mem_flatMap.2 ⟨f, hf, List.mem_append_left _ (List.mem_cons_self ..)⟩
      simpa [Request.hasCtors] using (hn hm).1
  · have hb : (P d).block d .deserialize = some ((P d).deserialize d) := by simp [Decl.block, Request.hasDeserialize, hr]
    have hb' : (P d).deserialize d = ⟨some .deserialize, [.deserialize], (P d).each .deserialize⟩ := by
      cases hbody : (P d).body with
      | struct fs => simp only [Decl.deserialize, hbody]
      | enum vs => simp [hbody, Body.isEnum] at he
    have hs := (hB hb).supers .deserialize (by rw [hb']) .default (by decide)
    rw [hb'] at hs
    obtain ⟨b, hb, hs⟩ := (holds_self h.names).1 hs
    have hd : b = (P d).default := by
      simpa [Decl.block, Request.hasDefault, Request.hasDeserialize, hr, eq_comm] using hb
    obtain ⟨t', ht', hc⟩ := hs p.1 p.2 hp .state (by rw [hd]; simp [Decl.default, Request.traitBounds, hr])
    rcases List.mem_append.1 ht' with ht' | ht'
    · exact ⟨t', ht', supertrait_iff.2 hc⟩
    · simp only [List.mem_singleton] at ht'
      subst ht'
      simp [Trait.closure] at hc

/-! ## What is good compiles -/

theorem ctor_met (hc : (P d).request.hasCtors = true) {bounds : List Trait}
    (hb : ∀ b ∈ (P d).request.traitBounds [.default], ∃ b' ∈ bounds, b ∈ b'.closure) : Need.Met P d ((P d).env bounds) .ctor := by
  refine ⟨hc, fun b hb' p hp => ?_⟩
  obtain ⟨b', h1, h2⟩ := hb b hb'
  exact .bound (List.mem_map_of_mem hp) (List.mem_append_right _ h1) h2

theorem self_has (hn : ((P d).params.map (·.1)).Nodup) {tr : Trait} {b : Block D} (hb : (P d).block d tr = some b) {bounds : List Trait}
    (h : ∀ t ∈ b.bounds, ∃ t' ∈ bounds, t ∈ t'.closure) : Holds P ((P d).env bounds) tr ((P d).self d) := by
  refine (holds_self hn).2 ⟨b, hb, fun p ds hp t ht => ?_⟩
  rcases List.mem_append.1 ht with ht | ht
  · exact ⟨t, List.mem_append_left _ ht, closure_refl t⟩
  · obtain ⟨t', h1, h2⟩ := h t ht
    exact ⟨t', List.mem_append_right _ h1, h2⟩

theorem compiles_of_good (h : GoodFor P d) : Compiles P d := by
  have hctors : (P d).request.hasDefault = true → (P d).request.hasCtors = true := by
    intro hd
    cases hD : (P d).request.hasDeserialize with
    | true => simp [Request.hasCtors, hD]
    | false =>
      have := h.default_ctors (by simpa [Request.hasDefault, hD] using hd)
      simpa [Request.hasCtors, hD] using this
  have hstate : (P d).request.state = true → ∀ f ∈ (P d).body.fields, (P d).isState f = true → Holds P ((P d).env [.state]) .state f.ty :=
    fun hs f hf hi => h.state hs f hf (by simpa [Decl.isState, hs] using hi)
  have hselfS : (P d).request.state = true → Holds P ((P d).env [.state]) .state ((P d).self d) := fun hs =>
    self_has h.names (b := (P d).state) (by simp [Decl.block, hs]) (by simp [Decl.state, Trait.closure])
  have hselfSer : (P d).request.state = true → Holds P ((P d).env [.state]) .serialize ((P d).self d) := fun hs =>
    self_has h.names (b := (P d).serialize) (by simp [Decl.block, Request.hasSerialize, hs]) (by simp [Decl.serialize, Trait.closure])
  refine ⟨h.names, h.types, fun b hb => ?_⟩
  rcases mem_blocks.1 hb with ⟨hr, rfl⟩ | ⟨hr, rfl⟩ | ⟨tr, hb⟩
  · -- constructors
    refine ⟨fun n hn => ?_, fun tr htr => by cases htr⟩
    obtain ⟨f, hf, rfl⟩ := List.mem_map.1 hn
    cases hi : (P d).isState f with
    | true =>
      have hs : (P d).request.state = true := by
        cases hS : (P d).request.state with
        | true => rfl
        | false => simp [Decl.isState, hS] at hi
      simpa [Need.Met, Decl.ctors, Request.traitBounds, hs] using hstate hs f hf hi
    | false =>
      have := h.default hr f hf (by
        rintro ⟨h1, h2⟩
        simp [Decl.isState, h1, h2] at hi)
      simpa [Need.Met, Decl.ctors, Request.traitBounds] using this
  · -- setters
    refine ⟨fun n hn => ?_, fun tr htr => by rw [setters_of] at htr; cases htr⟩
    have field : ∀ f ∈ (P d).body.fields, ∀ bounds, ((P d).request.state = true → bounds = [.state]) →
        n ∈ (if (P d).isState f then [Need.impl .state f.ty, .impl .state ((P d).self d)] else []) → n.Met P d ((P d).env bounds) := by
      intro f hf bounds hbs hn
      cases hi : (P d).isState f with
      | false => simp [hi] at hn
      | true =>
        have hs : (P d).request.state = true := by
          cases hS : (P d).request.state with
          | true => rfl
          | false => simp [Decl.isState, hS] at hi
        rw [hbs hs]
        simp only [hi, if_true, List.mem_cons, List.not_mem_nil, or_false] at hn
        rcases hn with rfl | rfl
        · exact hstate hs f hf hi
        · exact hselfS hs
    cases hbody : (P d).body with
    | struct fs =>
      have hb' : (P d).setters d = ⟨none, (P d).request.traitBounds [],
          fs.flatMap fun f => if (P d).isState f then [.impl .state f.ty, .impl .state ((P d).self d)] else []⟩ := by
        simp only [Decl.setters, hbody]
      rw [hb'] at hn ⊢
      obtain ⟨f, hf, hn⟩ := List.mem_flatMap.1 hn
      exact field f (by rw [hbody]; exact hf) _ (fun hs => by simp [Request.traitBounds, hs]) hn
    | enum vs =>
      have hb' : (P d).setters d = ⟨none, (P d).request.traitBounds [.default], vs.flatten.flatMap fun f =>
          (.ctor :: if (P d).request.state then [.impl .state ((P d).self d), .impl .serialize ((P d).self d)] else []) ++
            if (P d).isState f then [.impl .state f.ty, .impl .state ((P d).self d)] else []⟩ := by
        simp only [Decl.setters, hbody]
      rw [hb'] at hn ⊢
      obtain ⟨f, hf, hn⟩ := List.mem_flatMap.1 hn
      have hf' : f ∈ (P d).body.fields := by rw [hbody]; exact hf
      rcases List.mem_append.1 hn with hn | hn
      · rcases List.mem_cons.1 hn with rfl | hn
        · refine ctor_met ?_ fun b hb => ⟨b, hb, closure_refl b⟩
          cases hS : (P d).request.state with
          | true => simp [Request.hasCtors, Request.hasDeserialize, hS]
          | false =>
            have := h.setters_ctors (by rw [hbody]; rfl) (by simpa [Request.hasSetters, hS] using hr) (List.ne_nil_of_mem hf')
            simpa [Request.hasCtors] using this
        · cases hS : (P d).request.state with
          | false => simp [hS] at hn
          | true =>
            simp only [hS, if_true, List.mem_cons, List.not_mem_nil, or_false] at hn
            simp only [Request.traitBounds, hS, if_true]
            rcases hn with rfl | rfl
            · exact hselfS hS
            · exact hselfSer hS
      · exact field f hf' _ (fun hs => by simp [Request.traitBounds, hs]) hn
  · -- traits
    have hite : ∀ (c : Bool) (x : Block D), (if c = true then some x else none) = some b ↔ c = true ∧ b = x := by
      intro c x; cases c <;> simp [eq_comm]
    cases tr <;> simp only [Decl.block, hite, reduceCtorEq] at hb <;> obtain ⟨hr, rfl⟩ := hb
    · -- `Default`
      refine ⟨fun n hn => ?_, fun tr htr tr' htr' => ?_⟩
      · rcases List.mem_singleton.1 hn with rfl
        exact ctor_met (hctors hr) fun b hb => ⟨b, hb, closure_refl b⟩
      · cases htr; cases htr'
    · -- `PartialEq`
      refine ⟨fun n hn => ?_, fun tr htr tr' htr' => ?_⟩
      · obtain ⟨f, hf, rfl⟩ := List.mem_map.1 hn
        obtain ⟨hf, hw⟩ := List.mem_filter.1 hf
        exact h.partialEq hr f hf (by simpa using hw)
      · cases htr; cases htr'
    · -- `Eq`
      refine ⟨fun n hn => ?_, fun tr htr tr' htr' => ?_⟩
      · obtain ⟨f, hf, rfl⟩ := List.mem_map.1 hn
        exact h.eq hr f hf trivial
      · cases htr
        simp only [Trait.supers, List.mem_singleton] at htr'
        subst htr'
        exact self_has h.names (b := (P d).partialEq) (by simp [Decl.block, h.eq_partialEq hr])
          (by simp [Decl.partialEq, Decl.eq, Trait.closure])
    · -- `Hash`
      refine ⟨fun n hn => ?_, fun tr htr tr' htr' => ?_⟩
      · obtain ⟨f, hf, rfl⟩ := List.mem_map.1 hn
        obtain ⟨hf, hw⟩ := List.mem_filter.1 hf
        exact h.hash hr f hf (by simpa using hw)
      · cases htr; cases htr'
    · -- `HasWireType`
      refine ⟨fun n hn => (by cases hn), fun tr htr tr' htr' => ?_⟩
      cases htr; cases htr'
    · -- `Serialize`
      refine ⟨fun n hn => ?_, fun tr htr tr' htr' => ?_⟩
      · obtain ⟨f, hf, rfl⟩ := List.mem_map.1 hn
        exact h.serialize hr f hf trivial
      · cases htr
        simp only [Trait.supers, List.mem_singleton] at htr'
        subst htr'
        exact self_has h.names (b := Decl.wireType) (by simp [Decl.block, Request.hasWireType, hr]) (by simp [Decl.wireType])
    · -- `Deserialize`
      have hw : (P d).block d .wireType = some Decl.wireType := by simp [Decl.block, Request.hasWireType, hr]
      have hd : (P d).block d .default = some (P d).default := by simp [Decl.block, Request.hasDefault, hr]
      have hcc : (P d).request.hasCtors = true := by simp [Request.hasCtors, hr]
      cases hbody : (P d).body with
      | struct fs =>
        have hb' : (P d).deserialize d = ⟨some .deserialize, [.deserialize], (P d).each .deserialize⟩ := by
          simp only [Decl.deserialize, hbody]
        rw [hb']
        refine ⟨fun n hn => ?_, fun tr htr tr' htr' => ?_⟩
        · obtain ⟨f, hf, rfl⟩ := List.mem_map.1 hn
          simpa [Need.Met, hbody, Body.isEnum] using h.deserialize hr f hf trivial
        · cases htr
          simp only [Trait.supers, List.mem_cons, List.not_mem_nil, or_false] at htr'
          rcases htr' with rfl | rfl
          · refine (holds_self h.names).2 ⟨_, hd, fun p ds hp t ht => ?_⟩
            rcases List.mem_append.1 ht with ht | ht
            · exact ⟨t, List.mem_append_left _ ht, closure_refl t⟩
            · cases hS : (P d).request.state with
              | true =>
                simp only [Decl.default, Request.traitBounds, hS, if_true, List.mem_singleton] at ht
                subst ht
                obtain ⟨t', ht', hc⟩ := h.state_bounds (by rw [hbody]; rfl) hS _ hp
                exact ⟨t', List.mem_append_left _ ht', supertrait_iff.1 hc⟩
              | false =>
                simp only [Decl.default, Request.traitBounds, hS, Bool.false_eq_true, if_false, List.mem_singleton] at ht
                subst ht
                exact ⟨.deserialize, List.mem_append_right _ (List.mem_cons_self ..), by decide⟩
          · exact self_has h.names hw (by simp [Decl.wireType])
      | enum vs =>
        have hb' : (P d).deserialize d = ⟨some .deserialize, (P d).request.traitBounds [.deserialize],
            (P d).each .deserialize ++ .ctor :: if (P d).request.state then [.impl .state ((P d).self d)] else []⟩ := by
          simp only [Decl.deserialize, hbody]
        rw [hb']
        have hle : ∀ b ∈ (P d).request.traitBounds [.default], ∃ b' ∈ (P d).request.traitBounds [.deserialize], b ∈ b'.closure := by
          cases hS : (P d).request.state <;> simp [Request.traitBounds, hS, Trait.closure]
        refine ⟨fun n hn => ?_, fun tr htr tr' htr' => ?_⟩
        · rcases List.mem_append.1 hn with hn | hn
          · obtain ⟨f, hf, rfl⟩ := List.mem_map.1 hn
            simpa [Need.Met, hbody, Body.isEnum, Request.traitBounds] using h.deserialize hr f hf trivial
          · rcases List.mem_cons.1 hn with rfl | hn
            · exact ctor_met hcc hle
            · cases hS : (P d).request.state with
              | false => simp [hS] at hn
              | true =>
                simp only [hS, if_true, List.mem_singleton] at hn
                subst hn
                simpa [Need.Met, Request.traitBounds, hS] using hselfS hS
        · cases htr
          simp only [Trait.supers, List.mem_cons, List.not_mem_nil, or_false] at htr'
          rcases htr' with rfl | rfl
          · exact self_has h.names hd hle
          · exact self_has h.names hw (by simp [Decl.wireType])
    · -- `State`
      have hcc : (P d).request.hasCtors = true := by simp [Request.hasCtors, Request.hasDeserialize, hr]
      refine ⟨fun n hn => ?_, fun tr htr tr' htr' => ?_⟩
      · rcases List.mem_cons.1 hn with rfl | hn
        · exact ctor_met hcc (by simp [Request.traitBounds, hr, Decl.state, Trait.closure])
        · obtain ⟨f, hf, rfl⟩ := List.mem_map.1 hn
          obtain ⟨hf, hi⟩ := List.mem_filter.1 hf
          exact hstate hr f hf (by simpa using hi)
      · cases htr
        simp only [Trait.supers, List.mem_cons, List.not_mem_nil, or_false] at htr'
        rcases htr' with rfl | rfl
        · exact hselfSer hr
        · refine self_has h.names (b := (P d).deserialize d) (by simp [Decl.block, Request.hasDeserialize, hr]) ?_
          cases hbody : (P d).body <;> simp [Decl.deserialize, hbody, Decl.state, Request.traitBounds, hr, Trait.closure]
    · -- `HasMeta`
      refine ⟨fun n hn => ?_, fun tr htr tr' htr' => ?_⟩
      · rcases List.mem_append.1 hn with hn | hn
        · obtain ⟨p, hp, rfl⟩ := List.mem_map.1 hn
          exact .bound (List.mem_map_of_mem hp) (List.mem_append_right _ (List.mem_cons_self ..)) (closure_refl _)
        · obtain ⟨f, hf, hn⟩ := List.mem_flatMap.1 hn
          rcases List.mem_cons.1 hn with rfl | hn
          · exact h.hasMeta hr f hf trivial
          · obtain ⟨t, ht, rfl⟩ := List.mem_map.1 hn
            exact h.metaArgs hr f hf t ht
      · cases htr; cases htr'

theorem goodFor_iff : GoodFor P d ↔ Good P d := by
  have hw : (P d).request.hasSerialize = true ↔ AsksWrite (P d).request := by simp [Request.hasSerialize, AsksWrite]
  have hr : (P d).request.hasDeserialize = true ↔ AsksRead (P d).request := by simp [Request.hasDeserialize, AsksRead]
  have hc : (P d).request.hasCtors = true ↔ AsksRead (P d).request ∨ (P d).request.deriveCtors = true := by simp [Request.hasCtors, ← hr]
  have hm : (P d).request.hasMeta = true ↔ AsksRead (P d).request ∧ (P d).request.noMeta = false := by simp [Request.hasMeta, ← hr]
  constructor
  · intro h
    exact ⟨h.names, h.types, fun x => h.serialize (hw.2 x), fun x => h.deserialize (hr.2 x), fun x => h.default (hc.2 x), h.state, h.partialEq,
      h.hash, h.eq, fun x y => h.hasMeta (hm.2 ⟨x, y⟩), fun x y => h.metaArgs (hm.2 ⟨x, y⟩), h.eq_partialEq,
      fun x => (h.default_ctors x).imp hr.1 id, fun x y z => (h.setters_ctors x y z).imp hr.1 id, h.state_bounds⟩
  · intro h
    exact ⟨h.names, h.types, fun x => h.serialize (hw.1 x), fun x => h.deserialize (hr.1 x), fun x => h.default (hc.1 x), h.state, h.partialEq,
      h.hash, h.eq, fun x => h.hasMeta (hm.1 x).1 (hm.1 x).2, fun x => h.metaArgs (hm.1 x).1 (hm.1 x).2, h.eq_partialEq,
      fun x => (h.default_ctors x).imp hr.2 id, fun x y z => (h.setters_ctors x y z).imp hr.2 id, h.state_bounds⟩

end Steit.Bounds
