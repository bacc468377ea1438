import Verif.Lemmas.DeriveEnum

/-!
# The arms that are derived for enums
-/

namespace Steit.Derive

open Spec

variable {vars : List Var}

/-- Variants and members have different names. -/
structure Named (vars : List Var) : Prop where
  names : (vars.map (·.name)).Nodup
  members : ∀ v ∈ vars, KeysNodup v.item

/-! ## Names that are found -/

theorem sizeArms_eq (h : Named vars) (hp : ∀ v ∈ vars, ∀ d ∈ v.item.dfields, alias d ∉ keywords ∧ alias d ≠ "size") :
    sizeArms vars = some (vars.map fun v => (v.name, SizeAct.tag v.tag :: sizeActs v.item 0 v.item.fields)) :=
  mapM_some fun v hv => by
    have hk := h.members v hv
    refine armOf_ok h.names hv (bind_fields hk fun d hd => (hp v hv d hd).1) ?_
    have hl : (binds v.item .mine none ++ ("size", .size) :: selfScope).lookup "size" = some .size :=
      arm_other fun d hd => (hp v hv d hd).2
    have hm : (v.item.dfields.map (·.sizer true)).mapM (·.compile v.item (binds v.item .mine none ++ ("size", .size) :: selfScope)) = _ :=
      (List.mapM_map ..).trans (sizers_compile (sees_arm (front := []) hk fun _ _ => List.not_mem_nil) hl)
    rw [List.mapM_cons, hm]
    simp only [SizeStmt.compile, need_true hl, Option.bind_eq_bind, Option.bind_some]
    rfl

theorem serArms_eq (h : Named vars) (hp : ∀ v ∈ vars, ∀ d ∈ v.item.dfields, alias d ∉ keywords ∧ alias d ≠ "writer") :
    serArms vars = some (vars.map fun v => (v.name, SizeAct.tag v.tag :: sizeActs v.item 0 v.item.fields)) :=
  mapM_some fun v hv => by
    have hk := h.members v hv
    refine armOf_ok h.names hv (bind_fields hk fun d hd => (hp v hv d hd).1) ?_
    have hl : (binds v.item .mine none ++ ("writer", .writer) :: selfScope).lookup "writer" = some .writer :=
      arm_other fun d hd => (hp v hv d hd).2
    have hm : (v.item.dfields.map (·.serializer true)).mapM (·.compile v.item (binds v.item .mine none ++ ("writer", .writer) :: selfScope)) = _ :=
      (List.mapM_map ..).trans (sers_compile (sees_arm (front := []) hk fun _ _ => List.not_mem_nil) hl)
    rw [List.mapM_cons, hm]
    simp only [SerStmt.compile, need_true hl, Option.bind_eq_bind, Option.bind_some]
    rfl

theorem hashArms_eq (h : Named vars) (hp : ∀ v ∈ vars, ∀ d ∈ v.item.dfields, alias d ∉ keywords ∧ alias d ≠ "state") :
    hashArms vars = some (vars.map fun v => (v.name, HashAct.tag v.tag :: hashActs v.item 0 v.item.fields)) :=
  mapM_some fun v hv => by
    have hk := h.members v hv
    refine armOf_ok h.names hv (bind_fields hk fun d hd => (hp v hv d hd).1) ?_
    have hl : (binds v.item .mine none ++ ("state", .hasher) :: selfScope).lookup "state" = some .hasher :=
      arm_other fun d hd => (hp v hv d hd).2
    have hm : (v.item.dfields.filterMap (·.hash true)).mapM (·.compile v.item (binds v.item .mine none ++ ("state", .hasher) :: selfScope)) = _ :=
      hashes_compile (sees_arm (front := []) hk fun _ _ => List.not_mem_nil) hl
    rw [List.mapM_cons, hm]
    simp only [HashStmt.compile, need_true hl, Option.bind_eq_bind, Option.bind_some]
    rfl

theorem cacheArms_eq (h : Named vars) : cacheArms vars = some (vars.map fun v => (v.name, v.item.cache.isSome)) :=
  mapM_some fun v hv => by
    have hk := h.members v hv
    cases hc : v.item.cacheMember with
    | none =>
      have : v.item.cache.isSome = false := by cases hn : v.item.cache <;> simp [Item.cacheMember, hn] at hc ⊢
      rw [this]
      exact armOf_ok (bs := []) h.names hv rfl rfl
    | some f =>
      have : v.item.cache.isSome = true := by cases hn : v.item.cache <;> simp [Item.cacheMember, hn] at hc ⊢
      rw [this]
      exact armOf_ok h.names hv (bindAll_one (bindOne_cache hk hc)) rfl

theorem runtimeArms_eq (h : Named vars) (hs : ∀ v ∈ vars, v.item.state = true) : runtimeArms vars = some (vars.map fun v => (v.name, ())) :=
  mapM_some fun v hv => by
    have hk := h.members v hv
    obtain ⟨f, hf⟩ : ∃ f, v.item.runtimeMember = some f := ⟨_, by rw [Item.runtimeMember, hs v hv]; rfl⟩
    simp only [hf]
    exact armOf_ok h.names hv (bindAll_one (bindOne_rt hk hf (by decide) (toString_ne (c := 'r') ⟨_, rfl⟩ (by decide)))) rfl

theorem mergeArms_eq (cm : Gen.CaseMap) (pre : String) (h : Named vars)
    (hp : ∀ v ∈ vars, ∀ d ∈ v.item.dfields, alias d ∉ keywords ∧ alias d ≠ "reader" ∧ alias d ≠ "field_number" ∧ alias d ≠ "wire_type") :
    mergeArms cm pre vars = some (vars.map fun v => (v.tag, v.name, v.ctorName cm pre, mergeActs v.item 0 v.item.fields)) :=
  mapM_some fun v hv => by
    have hk := h.members v hv
    have ha : armOf vars (("tag", .tag) :: ("reader", .reader) :: selfScope) v.name (v.item.destructure none)
        (fun it Γ => compileMerger it Γ (v.item.dfields.map (·.merger true))) = some (v.name, mergeActs v.item 0 v.item.fields) := by
      refine armOf_ok h.names hv (bind_fields hk fun d hd => (hp v hv d hd).1) ?_
      refine merger_compile (arm_other fun d hd => (hp v hv d hd).2.1) ?_
      refine sees_arm hk fun d hd hm => ?_
      simp only [List.map_cons, List.map_nil, List.mem_cons, List.not_mem_nil, or_false] at hm
      exact hm.elim (hp v hv d hd).2.2.1 (hp v hv d hd).2.2.2
    rw [ha]; rfl

theorem bind_rt {it : Item} (hk : KeysNodup it) (hp : ∀ d ∈ it.dfields, alias d ∉ keywords ∧ alias d ≠ "self_runtime") {f : Member}
    (hf : it.runtimeMember = some f) :
    bindAll it .mine (it.destructure none ++ [f.destructure "self_runtime"]) = some (binds it .mine none ++ [("self_runtime", .mine .rt)]) := by
  have h1 := mapM_destructure hk .mine none (.inl rfl) fun d hd => (hp d hd).1
  have h2 := bindOne_rt hk hf (x := "self_runtime") (by decide) (toString_ne (c := 's') ⟨_, rfl⟩ (by decide))
  have hm : (it.destructure none ++ [f.destructure "self_runtime"]).mapM (bindOne it .mine) = some (binds it .mine none ++ [("self_runtime", .mine .rt)]) := by
    rw [mapM_append, h1, List.mapM_cons, h2]; rfl
  have n1 : ((binds it .mine none ++ [("self_runtime", Bind.mine .rt)]).map Prod.fst).Nodup := by
    rw [List.map_append, binds_names, List.nodup_append]
    refine ⟨prefixed_nodup hk none, by simp, fun a ha b hb e => ?_⟩
    obtain ⟨d, hd, rfl⟩ := List.mem_map.1 ha
    rw [List.map_cons, List.map_nil, List.mem_singleton] at hb
    exact (hp d hd).2 (e.trans hb)
  have n2 : ((binds it .mine none ++ [("self_runtime", Bind.mine .rt)]).map Prod.snd).Nodup := by
    rw [List.map_append, List.nodup_append]
    refine ⟨binds_slots_nodup mine_inj none, by simp, fun a ha b hb e => ?_⟩
    rw [binds, List.map_map] at ha
    obtain ⟨d, hd, rfl⟩ := List.mem_map.1 ha
    rw [List.map_cons, List.map_nil, List.mem_singleton] at hb
    rw [hb] at e
    cases e
  rw [bindAll, hm]
  exact if_pos ⟨n1, n2⟩

theorem rtArms_eq (h : Named vars) (hs : ∀ v ∈ vars, v.item.state = true)
    (hp : ∀ v ∈ vars, ∀ d ∈ v.item.dfields, alias d ∉ keywords ∧ alias d ≠ "runtime" ∧ alias d ≠ "self_runtime") :
    rtArms vars = some (vars.map fun v => (v.name, rtActs v.item.state [v.tag] v.item 0 v.item.fields ++ [.own [v.tag]])) :=
  mapM_some fun v hv => by
    have hk := h.members v hv
    obtain ⟨f, hf⟩ : ∃ f, v.item.runtimeMember = some f := ⟨_, by rw [Item.runtimeMember, hs v hv]; rfl⟩
    simp only [hf]
    refine armOf_ok h.names hv (bind_rt hk (fun d hd => ⟨(hp v hv d hd).1, (hp v hv d hd).2.2⟩) hf) ?_
    rw [List.append_assoc]
    have hl : (binds v.item .mine none ++ ([("self_runtime", Bind.mine .rt)] ++ ("runtime", .runtime []) :: selfScope)).lookup "runtime" = some (.runtime []) :=
      arm_other fun d hd => (hp v hv d hd).2.1
    simp only [compileRt, hl, List.nil_append]
    refine setter_compile rfl ?_ hf ?_
    · refine sees_arm (front := [("runtime", .runtime [v.tag])]) hk fun d hd hm => ?_
      simp only [List.map_cons, List.map_nil, List.mem_singleton] at hm
      exact (hp v hv d hd).2.1 hm
    · show (binds v.item .mine none ++ ([("self_runtime", Bind.mine .rt)] ++ ("runtime", .runtime []) :: selfScope)).lookup "self_runtime" = _
      exact arm_other fun d hd => (hp v hv d hd).2.2

theorem handleArms_eq (h : Named vars) (hp : ∀ v ∈ vars, ∀ d ∈ v.item.dfields, alias d ∉ keywords ∧ alias d ≠ "path" ∧ alias d ≠ "kind")
    (ht : ∀ v ∈ vars, ∀ d ∈ v.item.dfields, d.isState v.item.state = true → alias d ≠ "tag" ∧ ∀ d' ∈ v.item.dfields, alias d' ≠ "key" ∧ alias d' ≠ "reader") :
    handleArms vars = some (vars.map fun v => (v.tag, v.name, handleActs v.item.state v.item 0 v.item.fields)) :=
  mapM_some fun v hv => by
    have hk := h.members v hv
    have ha : armOf vars (("tag", .tag) :: handleScope) v.name (v.item.destructure none)
        (fun it Γ => compileReplayer it true Γ (v.item.dfields.map (·.replayer v.item.state true))) =
        some (v.name, handleActs v.item.state v.item 0 v.item.fields) := by
      refine armOf_ok h.names hv (bind_fields hk fun d hd => (hp v hv d hd).1) ?_
      refine replayer_compile (arm_other fun d hd => (hp v hv d hd).2.1) (arm_other fun d hd => (hp v hv d hd).2.2) (.inl rfl) fun d hd hst => ?_
      obtain ⟨h1, h2⟩ := ht v hv d hd hst
      refine ⟨resolveMine_var (front := [("tag", .tag)]) hk hd ?_, arm_other fun d hd => (h2 d hd).1, arm_other fun d hd => (h2 d hd).2⟩
      simp only [List.map_cons, List.map_nil, List.mem_singleton]
      exact h1
    rw [ha]; rfl

theorem ctors_eq (cm : Gen.CaseMap) (pre : String) (h : Named vars) (hl : ∀ v ∈ vars, LegalItem v.item) :
    ctors cm pre vars = some (vars.map fun v => (v.ctorName cm pre, v.name, ctorActs v.item [v.tag])) :=
  mapM_some fun v hv => by
    have := ctor_compile (Γ := if v.item.state then [("runtime", .runtime [v.tag]), ("runtime", .runtime [])] else []) (under := [v.tag])
      (h.members v hv) (hl v hv) fun hs => by rw [hs]; rfl
    simp only [varNamed_mem h.names hv, this, Option.bind_eq_bind, Option.bind_some]

/-! ## Names that are not -/

theorem need_inv {p : Prop} [Decidable p] {β : Type} {f : Unit → Option β} (h : (need p).bind f ≠ none) : p ∧ f () ≠ none := by
  by_cases hp : p
  · rw [need_true hp] at h; exact ⟨hp, h⟩
  · rw [need_false hp] at h; exact absurd rfl h

theorem bind_inv {α β : Type} {o : Option α} {f : α → Option β} (h : o.bind f ≠ none) : ∃ a, o = some a ∧ f a ≠ none := by
  cases o with
  | none => exact absurd rfl h
  | some a => exact ⟨a, rfl, h⟩

theorem mapM_cons_inv {α β : Type} {f : α → Option β} {a : α} {l : List α} (h : (a :: l).mapM f ≠ none) : f a ≠ none ∧ l.mapM f ≠ none := by
  rw [List.mapM_cons] at h
  constructor
  · intro e; rw [e] at h; exact h rfl
  · intro e
    rw [e] at h
    cases hf : f a <;> rw [hf] at h <;> exact h rfl

theorem resolveMine_none {it : Item} {Γ : Scope} {d : DField} {b : Bind} (h : Γ.lookup (alias d) = some b) (hb : ∀ s, b ≠ .mine s) :
    resolveMine it Γ (d.m.fieldOther none true) = none := by
  have h' : Γ.lookup (d.m.aliasPrefixed none) = some b := h
  simp only [resolveMine, Member.fieldOther, if_true, resolve, h']
  split
  · rename_i i e
    exact absurd (by simpa using e) (hb (.data i))
  · rfl

theorem mapM_ne {α β : Type} {f : α → Option β} {l : List α} (h : l.mapM f ≠ none) {a : α} (ha : a ∈ l) : f a ≠ none :=
  fun e => h (mapM_none ha e)

section
variable (h : Named vars) {v : Var} (hv : v ∈ vars)
include h hv

theorem sizeArms_inv (he : sizeArms vars ≠ none) : ∀ d ∈ v.item.dfields, alias d ∉ keywords ∧ alias d ≠ "size" := by
  have hk := h.members v hv
  obtain ⟨bs, hb, hc⟩ := armOf_inv h.names hv (mapM_ne he hv)
  have hp := bind_plain' hb
  rw [bind_fields hk hp] at hb
  cases hb
  have := (mapM_cons_inv hc).1
  simp only [SizeStmt.compile, Option.bind_eq_bind] at this
  have := arm_taken hk (fun _ e => by cases e) (need_inv this).1
  exact fun d hd => ⟨hp d hd, this d hd⟩

theorem serArms_inv (he : serArms vars ≠ none) : ∀ d ∈ v.item.dfields, alias d ≠ "writer" := by
  have hk := h.members v hv
  obtain ⟨bs, hb, hc⟩ := armOf_inv h.names hv (mapM_ne he hv)
  have hp := bind_plain' hb
  rw [bind_fields hk hp] at hb
  cases hb
  have := (mapM_cons_inv hc).1
  simp only [SerStmt.compile, Option.bind_eq_bind] at this
  exact arm_taken hk (fun _ e => by cases e) (need_inv this).1

theorem hashArms_inv (he : hashArms vars ≠ none) : ∀ d ∈ v.item.dfields, alias d ∉ keywords ∧ alias d ≠ "state" := by
  have hk := h.members v hv
  obtain ⟨bs, hb, hc⟩ := armOf_inv h.names hv (mapM_ne he hv)
  have hp := bind_plain' hb
  rw [bind_fields hk hp] at hb
  cases hb
  have := (mapM_cons_inv hc).1
  simp only [HashStmt.compile, Option.bind_eq_bind] at this
  have := arm_taken hk (fun _ e => by cases e) (need_inv this).1
  exact fun d hd => ⟨hp d hd, this d hd⟩

theorem mergeArms_inv {cm : Gen.CaseMap} {pre : String} (he : mergeArms cm pre vars ≠ none) :
    ∀ d ∈ v.item.dfields, alias d ≠ "reader" ∧ alias d ≠ "field_number" ∧ alias d ≠ "wire_type" := by
  have hk := h.members v hv
  obtain ⟨r, hr, _⟩ := bind_inv (mapM_ne he hv)
  obtain ⟨bs, hb, hc⟩ := armOf_inv h.names hv (by rw [hr]; exact fun e => by cases e)
  have hp := bind_plain' hb
  rw [bind_fields hk hp] at hb
  cases hb
  simp only [compileMerger, Option.bind_eq_bind] at hc
  obtain ⟨h1, hc⟩ := need_inv hc
  have hc := (need_inv (need_inv (need_inv hc).2).2).2
  rw [List.mapM_map] at hc
  intro d hd
  refine ⟨arm_taken hk (fun _ e => by cases e) h1 d hd, fun e => ?_, fun e => ?_⟩
  · refine mapM_ne hc hd ?_
    have : resolveMine v.item (("field_number", .fieldNumber) :: ("wire_type", .wireType) :: (binds v.item .mine none ++ ("tag", .tag) :: ("reader", .reader) :: selfScope))
        (d.m.fieldOther none true) = none := by
      refine resolveMine_none (b := .fieldNumber) ?_ fun _ e => by cases e
      rw [e]; rfl
    simp only [Function.comp_apply, DField.merger, this, Option.bind_none]
  · refine mapM_ne hc hd ?_
    have : resolveMine v.item (("field_number", .fieldNumber) :: ("wire_type", .wireType) :: (binds v.item .mine none ++ ("tag", .tag) :: ("reader", .reader) :: selfScope))
        (d.m.fieldOther none true) = none := by
      refine resolveMine_none (b := .wireType) ?_ fun _ e => by cases e
      rw [e]; rfl
    simp only [Function.comp_apply, DField.merger, this, Option.bind_none]

theorem rtArms_inv (hs : v.item.state = true) (he : rtArms vars ≠ none) : ∀ d ∈ v.item.dfields, alias d ≠ "runtime" ∧ alias d ≠ "self_runtime" := by
  have hk := h.members v hv
  obtain ⟨f, hf⟩ : ∃ f, v.item.runtimeMember = some f := ⟨_, by rw [Item.runtimeMember, hs]; rfl⟩
  have ha := mapM_ne he hv
  simp only [hf] at ha
  obtain ⟨bs, hb, hc⟩ := armOf_inv h.names hv ha
  have hp := bind_plain hb
  have hself : ∀ d ∈ v.item.dfields, alias d ≠ "self_runtime" := by
    intro d hd e
    have h1 := mapM_destructure hk .mine none (.inl rfl) hp
    have h2 := bindOne_rt hk hf (x := "self_runtime") (by decide) (toString_ne (c := 's') ⟨_, rfl⟩ (by decide))
    have hm : (v.item.destructure none ++ [f.destructure "self_runtime"]).mapM (bindOne v.item .mine) =
        some (binds v.item .mine none ++ [("self_runtime", .mine .rt)]) := by
      rw [mapM_append, h1, List.mapM_cons, h2]; rfl
    rw [bindAll, hm] at hb
    have hn : ¬((binds v.item .mine none ++ [("self_runtime", Bind.mine .rt)]).map Prod.fst).Nodup := by
      rw [List.map_append, binds_names, List.nodup_append]
      exact fun hh => hh.2.2 _ (List.mem_map.2 ⟨d, hd, e⟩) _ (by simp) rfl
    simp only at hb
    split at hb
    · rename_i hh
      exact hn hh.1
    · cases hb
  rw [bind_rt hk (fun d hd => ⟨hp d hd, hself d hd⟩) hf] at hb
  cases hb
  rw [List.append_assoc] at hc
  intro d hd
  refine ⟨fun e => hc ?_, hself d hd⟩
  have hl : (binds v.item .mine none ++ ([("self_runtime", Bind.mine .rt)] ++ ("runtime", .runtime []) :: selfScope)).lookup "runtime" =
      some (.mine (.data d.m.index)) := by
    have := lookup_alias hk .mine none ([("self_runtime", Bind.mine .rt)] ++ ("runtime", .runtime []) :: selfScope) hd
    rwa [show d.m.aliasPrefixed none = "runtime" from e] at this
  simp only [compileRt, hl]

theorem handleArms_inv (he : handleArms vars ≠ none) :
    (∀ d ∈ v.item.dfields, alias d ≠ "path" ∧ alias d ≠ "kind") ∧
    (∀ d ∈ v.item.dfields, d.isState v.item.state = true → alias d ≠ "tag" ∧ ∀ d' ∈ v.item.dfields, alias d' ≠ "key") := by
  have hk := h.members v hv
  obtain ⟨r, hr, _⟩ := bind_inv (mapM_ne he hv)
  obtain ⟨bs, hb, hc⟩ := armOf_inv h.names hv (by rw [hr]; exact fun e => by cases e)
  have hp := bind_plain' hb
  rw [bind_fields hk hp] at hb
  cases hb
  simp only [compileReplayer, Option.bind_eq_bind] at hc
  obtain ⟨h1, hc⟩ := need_inv hc
  obtain ⟨arms, harms, hc⟩ := bind_inv hc
  obtain ⟨h2, _⟩ := need_inv (need_inv hc).2
  have h3 := arm_taken hk (fun _ e => by cases e) h1
  have h4 := arm_taken hk (fun _ e => by cases e) h2
  refine ⟨fun d hd => ⟨h3 d hd, h4 d hd⟩, fun d hd hst => ?_⟩
  rw [List.mapM_map] at harms
  have ha := mapM_inv harms hd
  simp only [Function.comp_apply, DField.replayer, hst, if_true, HandleArm.compile, Option.bind_eq_bind] at ha
  constructor
  · intro e
    refine ha ?_
    have : resolveMine v.item (("tag", .tag) :: (binds v.item .mine none ++ ("tag", .tag) :: handleScope)) (d.m.fieldOther none true) = none := by
      refine resolveMine_none (b := .tag) ?_ fun _ e => by cases e
      rw [e]; rfl
    rw [this]; rfl
  · obtain ⟨i, _, ha⟩ := bind_inv ha
    have hkey := (need_inv (need_inv (need_inv ha).2).2).1
    exact arm_taken hk (fun _ e => by cases e) (show (binds v.item .mine none ++ ("tag", .tag) :: handleScope).lookup "key" = some .key from hkey)

end

/-- Everything an enum needs. -/
theorem free_of_arms (h : Named vars) {cm : Gen.CaseMap} {pre : String} {v : Var} (hv : v ∈ vars) (h1 : sizeArms vars ≠ none) (h2 : serArms vars ≠ none)
    (h3 : mergeArms cm pre vars ≠ none) (h4 : v.item.state = true → rtArms vars ≠ none ∧ handleArms vars ≠ none) : FreeD v.item := by
  have a1 := sizeArms_inv h hv h1
  have a2 := serArms_inv h hv h2
  have a3 := mergeArms_inv h hv h3
  have st : ∀ {d : DField}, d.isState v.item.state = true → v.item.state = true := fun hd => by
    cases hs : v.item.state with
    | true => rfl
    | false => rw [hs] at hd; exact absurd hd (by simp [DField.isState])
  refine ⟨fun d hd => (a1 d hd).1, fun d hd s hs => ?_, fun hst d hd s hs => ?_, fun d hd hdst => ?_, ?_⟩
  · simp only [List.mem_cons, List.not_mem_nil, or_false] at hs
    rcases hs with rfl | rfl | rfl | rfl | rfl
    · exact (a1 d hd).2
    · exact a2 d hd
    · exact (a3 d hd).1
    · exact (a3 d hd).2.1
    · exact (a3 d hd).2.2
  · obtain ⟨b1, b2⟩ := h4 hst
    simp only [List.mem_cons, List.not_mem_nil, or_false] at hs
    rcases hs with rfl | rfl | rfl | rfl
    · exact (rtArms_inv h hv hst b1 d hd).1
    · exact (rtArms_inv h hv hst b1 d hd).2
    · exact ((handleArms_inv h hv b2).1 d hd).1
    · exact ((handleArms_inv h hv b2).1 d hd).2
  · exact ((handleArms_inv h hv (h4 (st hdst)).2).2 d hd hdst).1
  · rintro ⟨d, hd, hdst⟩
    exact ((handleArms_inv h hv (h4 (st hdst)).2).2 d hd hdst).2

end Steit.Derive
