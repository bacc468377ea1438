import Verif.Lemmas.DeriveValues

/-!
# When the code derived for enums compiles
-/

namespace Steit.Derive

open Spec

variable {vars : List Var}

/-! ## The list of variants -/

/-- A variant as it was parsed. -/
def Var.parsed (v : Var) : PVariant := ⟨v.tag, ⟨v.item.cache.isSome, v.item.parsed⟩⟩

theorem of_variantsOf : ∀ (l : List Var), (∀ v ∈ l, v ∈ vars) → Of vars (variantsOf (l.map Var.parsed))
  | [], _ => trivial
  | v :: l, h => ⟨⟨v, h v (.head _), rfl, rfl, rfl⟩, of_variantsOf l fun v hv => h v (.tail _ hv)⟩

theorem tags_variantsOf : ∀ (l : List Var), (variantsOf (l.map Var.parsed)).tags = l.map (·.tag)
  | [] => rfl
  | _ :: l => congrArg _ (tags_variantsOf l)

theorem listed_of {dv : Var} {W : Variants} (h : Listed vars dv W) (hdv : dv ∈ vars) (h0 : dv.tag = 0#32) : Of vars W := by
  rw [h]
  exact ⟨⟨dv, hdv, h0, rfl, rfl⟩, of_variantsOf _ fun v hv => (List.mem_filter.1 hv).1⟩

theorem listed_all {dv : Var} {W : Variants} (h : Listed vars dv W) : ∀ v ∈ vars, v.tag ∈ W.tags := fun v hv => by
  rw [h]
  show v.tag ∈ 0#32 :: (variantsOf ((vars.filter fun v => v.tag != 0#32).map Var.parsed)).tags
  rw [tags_variantsOf]
  by_cases e : v.tag = 0#32
  · rw [e]; exact .head _
  · exact .tail _ (List.mem_map.2 ⟨v, List.mem_filter.2 ⟨hv, by simpa using e⟩, rfl⟩)

theorem ctorNames_nodup {cm : Gen.CaseMap} {pre : String} {setters : Bool} (h : (enumMethods cm pre setters vars).Nodup) :
    (vars.map (·.ctorName cm pre)).Nodup := by
  rw [enumMethods, List.cons_append, List.nodup_cons, List.nodup_append] at h
  exact h.2.1

/-! ## Nothing else compiles -/

theorem enumNames_inv {cm : Gen.CaseMap} {pre : String} {setters : Bool} (h : enumNames cm pre setters vars ≠ none) :
    Named vars ∧ (enumMethods cm pre setters vars).Nodup := by
  simp only [enumNames, Option.bind_eq_bind] at h
  obtain ⟨h1, h⟩ := need_inv h
  obtain ⟨h2, h⟩ := need_inv h
  refine ⟨⟨h1, h2⟩, ?_⟩
  by_cases hm : (enumMethods cm pre setters vars).Nodup
  · exact hm
  · exact absurd (need_false hm) h

theorem bindNone {α β : Type} {o : Option α} {f : α → Option β} (h : (o >>= f) ≠ none) : ∃ a, o = some a ∧ f a ≠ none := bind_inv h

theorem enumCode_inv {cm : Gen.CaseMap} {pre : String} {setters state : Bool} {W : Variants} (hst : ∀ v ∈ vars, v.item.state = state)
    (h : enumCode cm pre setters state vars W ≠ none) :
    Named vars ∧ (enumMethods cm pre setters vars).Nodup ∧ ∀ v ∈ vars, FreeD v.item := by
  rw [enumCode] at h
  obtain ⟨_, h0, h⟩ := bindNone h
  obtain ⟨hn, hm⟩ := enumNames_inv (by rw [h0]; exact fun e => by cases e)
  obtain ⟨_, h1, h⟩ := bindNone h
  obtain ⟨_, h2, h⟩ := bindNone h
  obtain ⟨_, h3, h⟩ := bindNone h
  obtain ⟨_, h4, h⟩ := bindNone h
  obtain ⟨_, h5, h⟩ := bindNone h
  obtain ⟨_, h6, h⟩ := bindNone h
  simp only at h
  obtain ⟨_, h7, h⟩ := bindNone h
  refine ⟨hn, hm, fun v hv => free_of_arms (cm := cm) (pre := pre) hn hv (by rw [h1]; exact fun e => by cases e) (by rw [h2]; exact fun e => by cases e)
    (by rw [h4]; exact fun e => by cases e) fun hs => ?_⟩
  rw [hst v hv] at hs
  subst hs
  simp only [if_true] at h
  obtain ⟨_, h8, h⟩ := bindNone h
  obtain ⟨_, h9, h⟩ := bindNone h
  obtain ⟨_, h10, h⟩ := bindNone h
  exact ⟨fun e => by rw [h9] at e; (cases e), fun e => by rw [h10] at e; (cases e)⟩

/-! ## Hashes -/

theorem enumHash_eq {W : Variants} (h : Named vars) (ht : (vars.map (·.tag)).Nodup) (hof : Of vars W)
    (hp : ∀ v ∈ vars, ∀ d ∈ v.item.dfields, alias d ∉ keywords ∧ alias d ≠ "state") : enumHash vars W = some fun v => W.hash v.val := by
  simp only [enumHash, need_true h.names, need_true h.members, hashArms_eq h hp, Option.bind_eq_bind, Option.bind_some]
  refine congrArg some ?_
  funext x
  obtain ⟨v, hv, hd⟩ := does_of false W x.val hof
  have : matchSelf vars W (vars.map fun v => (v.name, HashAct.tag v.tag :: hashActs v.item 0 v.item.fields)) x.val =
      some (HashAct.tag v.tag :: hashActs v.item 0 v.item.fields) := by
    rw [matchSelf, hd.tag, nameOf_mem ht hv]
    exact lookup_map (f := fun v : Var => v.name) (g := fun v => HashAct.tag v.tag :: hashActs v.item 0 v.item.fields) h.names hv
  rw [this]
  exact hd.hash

theorem enumHash_inv {W : Variants} (h : enumHash vars W ≠ none) :
    Named vars ∧ ∀ v ∈ vars, ∀ d ∈ v.item.dfields, alias d ∉ keywords ∧ alias d ≠ "state" := by
  simp only [enumHash, Option.bind_eq_bind] at h
  obtain ⟨h1, h⟩ := need_inv h
  obtain ⟨h2, h⟩ := need_inv h
  obtain ⟨_, h3, h⟩ := bind_inv h
  exact ⟨⟨h1, h2⟩, fun v hv => hashArms_inv ⟨h1, h2⟩ hv (by rw [h3]; exact fun e => by cases e)⟩

/-! ## Comparisons -/

/-- What is on the left when a field is compared. -/
def leftOf (it : Item) (d : DField) : Side :=
  match it.dfields.find? fun d' => alias d == "other_" ++ alias d' with
  | some d' => (true, d'.m.index)
  | none => (false, d.m.index)

theorem eqArms_eq (h : Named vars) (hp : ∀ v ∈ vars, ∀ d ∈ v.item.dfields, alias d ∉ keywords ∧ alias d ≠ "other") :
    eqArms vars = some (vars.map fun v => (v.name, v.item.dfields.filterMap fun d =>
      if !d.p.attrs.noEqHash then some (leftOf v.item d, ((true, d.m.index) : Side)) else none)) :=
  mapM_some fun v hv => by
    have hk := h.members v hv
    refine armOf_ok h.names hv (bind_fields hk fun d hd => (hp v hv d hd).1) ?_
    have hl : (binds v.item .mine none ++ ("other", .other) :: selfScope).lookup "other" = some .other :=
      arm_other fun d hd => (hp v hv d hd).2
    have hb : bindAll v.item .others (v.item.destructure (some "other")) = some (binds v.item .others (some "other")) :=
      bindAll_alias hk others_inj (some "other") (.inr rfl) fun d _ => other_plain d
    simp only [need_true hl, hb, Option.bind_eq_bind, Option.bind_some]
    refine filterMap_mapM fun d hd => ?_
    by_cases hq : (!d.p.attrs.noEqHash) = true
    · right
      refine ⟨_, (leftOf v.item d, (true, d.m.index)), by rw [DField.eq, if_pos hq], ?_, by rw [if_pos hq]⟩
      have h2 : resolveSide v.item (binds v.item .others (some "other") ++ (binds v.item .mine none ++ ("other", .other) :: selfScope))
          (d.m.fieldOther (some "other") true) = some (true, d.m.index) := by
        simp only [resolveSide, Member.fieldOther, if_true, resolve, lookup_alias hk .others (some "other") _ hd]
      have h1 : resolveSide v.item (binds v.item .others (some "other") ++ (binds v.item .mine none ++ ("other", .other) :: selfScope))
          (d.m.fieldOther none true) = some (leftOf v.item d) := by
        simp only [resolveSide, Member.fieldOther, if_true, resolve]
        rw [leftOf]
        cases hf : v.item.dfields.find? fun d' => alias d == "other_" ++ alias d' with
        | some d' =>
          have hd' := List.mem_of_find?_eq_some hf
          have he : alias d = "other_" ++ alias d' := by simpa using List.find?_some hf
          have := lookup_alias hk .others (some "other") (binds v.item .mine none ++ ("other", .other) :: selfScope) hd'
          rw [alias_other, ← he] at this
          have this : List.lookup (d.m.aliasPrefixed none) _ = _ := this
          simp only [this]
        | none =>
          have he : ∀ d' ∈ v.item.dfields, d'.m.aliasPrefixed (some "other") ≠ d.m.aliasPrefixed none := fun d' hd' e => by
            have := List.find?_eq_none.1 hf d' hd'
            rw [alias_other] at e
            exact this (beq_iff_eq.2 e.symm)
          rw [lookup_other .others (some "other") _ he]
          simp only [lookup_alias hk .mine none _ hd]
      simp only [EqStmt.compile, h1, h2, Option.bind_eq_bind, Option.bind_some]
    · left
      exact ⟨by rw [DField.eq, if_neg hq], by rw [if_neg hq]⟩

theorem leftOf_self {it : Item} {d : DField} (h : ∀ d' ∈ it.dfields, alias d ≠ "other_" ++ alias d') : leftOf it d = (false, d.m.index) := by
  rw [leftOf, List.find?_eq_none.2 fun d' hd' e => h d' hd' (by simpa using e)]

theorem filterMap_congr' {α β : Type} {f g : α → Option β} : ∀ {l : List α}, (∀ a ∈ l, f a = g a) → l.filterMap f = l.filterMap g
  | [], _ => rfl
  | a :: l, h => by
    rw [List.filterMap_cons, List.filterMap_cons, h a (.head _), filterMap_congr' fun a ha => h a (.tail _ ha)]

theorem eqArms_same {it : Item} (h : ∀ d ∈ it.dfields, d.p.attrs.noEqHash = false → ∀ d' ∈ it.dfields, alias d ≠ "other_" ++ alias d') :
    (it.dfields.filterMap fun d => if !d.p.attrs.noEqHash then some (leftOf it d, ((true, d.m.index) : Side)) else none) = eqActs it 0 it.fields :=
  filterMap_congr' fun d hd => by
    cases hq : d.p.attrs.noEqHash with
    | true => rfl
    | false => rw [leftOf_self (h d hd hq)]

theorem case_tag : ∀ (W : Variants) (y : W.El), (W.case y).1 ∈ W.tags
  | .nil, y => nomatch y
  | .cons _ _ _ _, .inl _ => List.mem_cons_self
  | .cons _ _ _ vs, .inr y => List.mem_cons_of_mem _ (case_tag vs y)

/-- Comparing two values: of the same variant, by the arm about it; otherwise they differ. -/
theorem both_eq (ht : (vars.map (·.tag)).Nodup) : ∀ (W : Variants) (x y : W.El), Of vars W → W.tags.Nodup → ∃ v ∈ vars, (W.case x).1 = v.tag ∧
    ∃ v' ∈ vars, (W.case y).1 = v'.tag ∧ (v.tag = v'.tag → (match W.both x y with
      | some ⟨fs, a, b⟩ => runEq fs a b (eqActs v.item 0 v.item.fields)
      | none => false) = W.eq x y) ∧ (v.tag ≠ v'.tag → W.eq x y = false)
  | .nil, x, _, _, _ => nomatch x
  | .cons tag cached fs vs, x, y, h, hn => by
    obtain ⟨v, hv, rfl, rfl, rfl⟩ := h.1
    have hn' : v.tag ∉ vs.tags ∧ vs.tags.Nodup := List.nodup_cons.1 hn
    cases x with
    | inl x =>
      cases y with
      | inl y => exact ⟨v, hv, rfl, v, hv, rfl, fun _ => runEq_fields x y, fun e => absurd rfl e⟩
      | inr y =>
        obtain ⟨v', hv', hd⟩ := does_of false vs y h.2
        refine ⟨v, hv, rfl, v', hv', hd.tag, fun e => ?_, fun _ => rfl⟩
        have := case_tag vs y
        rw [hd.tag, ← e] at this
        exact absurd this hn'.1
    | inr x =>
      cases y with
      | inl y =>
        obtain ⟨v', hv', hd⟩ := does_of false vs x h.2
        refine ⟨v', hv', hd.tag, v, hv, rfl, fun e => ?_, fun _ => rfl⟩
        have := case_tag vs x
        rw [hd.tag, e] at this
        exact absurd this hn'.1
      | inr y => exact both_eq ht vs x y h.2 hn'.2

theorem enumEq_eq {W : Variants} (h : Named vars) (ht : (vars.map (·.tag)).Nodup) (hof : Of vars W) (hw : W.tags.Nodup)
    (hp : ∀ v ∈ vars, ∀ d ∈ v.item.dfields, alias d ∉ keywords ∧ alias d ≠ "other")
    (ho : ∀ v ∈ vars, ∀ d ∈ v.item.dfields, d.p.attrs.noEqHash = false → ∀ d' ∈ v.item.dfields, alias d ≠ "other_" ++ alias d') :
    enumEq vars W = some fun v w => W.eq v.val w.val := by
  have ha := eqArms_eq h hp
  rw [List.map_congr_left (g := fun v : Var => (v.name, eqActs v.item 0 v.item.fields)) fun v hv => by rw [eqArms_same (ho v hv)]] at ha
  simp only [enumEq, need_true h.names, need_true h.members, ha, Option.bind_eq_bind, Option.bind_some]
  refine congrArg some ?_
  funext x y
  obtain ⟨v, hv, h1, v', hv', h2, h3, h4⟩ := both_eq ht W x.val y.val hof hw
  have hm : matchSelf vars W (vars.map fun v => (v.name, eqActs v.item 0 v.item.fields)) x.val = some (eqActs v.item 0 v.item.fields) := by
    rw [matchSelf, h1, nameOf_mem ht hv]
    exact lookup_map (f := fun v : Var => v.name) (g := fun v => eqActs v.item 0 v.item.fields) h.names hv
  rw [hm]
  simp only
  rw [isVar, h1, h2, nameOf_mem ht hv, nameOf_mem ht hv']
  by_cases e : v.tag = v'.tag
  · have := eq_of_key ht hv hv' e
    subst this
    rw [if_pos (by simp)]
    exact h3 rfl
  · rw [if_neg, h4 e]
    intro hh
    exact e (by rw [eq_of_key h.names hv' hv (by simpa using hh)])

theorem eqArms_inv (h : Named vars) {v : Var} (hv : v ∈ vars) (he : eqArms vars ≠ none) : ∀ d ∈ v.item.dfields, alias d ∉ keywords ∧ alias d ≠ "other" := by
  have hk := h.members v hv
  obtain ⟨bs, hb, hc⟩ := armOf_inv h.names hv (mapM_ne he hv)
  have hp := bind_plain' hb
  rw [bind_fields hk hp] at hb
  cases hb
  have := arm_taken hk (fun _ e => by cases e) (need_inv hc).1
  exact fun d hd => ⟨hp d hd, this d hd⟩

theorem enumEq_inv {W : Variants} (h : enumEq vars W ≠ none) : Named vars ∧ ∀ v ∈ vars, ∀ d ∈ v.item.dfields, alias d ∉ keywords ∧ alias d ≠ "other" := by
  simp only [enumEq, Option.bind_eq_bind] at h
  obtain ⟨h1, h⟩ := need_inv h
  obtain ⟨h2, h⟩ := need_inv h
  obtain ⟨_, h3, h⟩ := bind_inv h
  exact ⟨⟨h1, h2⟩, fun v hv => eqArms_inv ⟨h1, h2⟩ hv (by rw [h3]; exact fun e => by cases e)⟩

theorem enumEq_some {W : Variants} (h : Named vars) (hp : ∀ v ∈ vars, ∀ d ∈ v.item.dfields, alias d ∉ keywords ∧ alias d ≠ "other") :
    enumEq vars W ≠ none := by
  simp only [enumEq, need_true h.names, need_true h.members, eqArms_eq h hp, Option.bind_eq_bind, Option.bind_some]
  exact fun e => by cases e

theorem listed_nodup {dv : Var} {W : Variants} (h : Listed vars dv W) (ht : (vars.map (·.tag)).Nodup) : W.tags.Nodup := by
  rw [h]
  show (0#32 :: (variantsOf ((vars.filter fun v => v.tag != 0#32).map Var.parsed)).tags).Nodup
  rw [tags_variantsOf, List.nodup_cons]
  refine ⟨fun hm => ?_, (List.filter_sublist.map _).nodup ht⟩
  obtain ⟨v, hv, e⟩ := List.mem_map.1 hm
  have := (List.mem_filter.1 hv).2
  rw [e] at this
  exact absurd this (by decide)

end Steit.Derive
