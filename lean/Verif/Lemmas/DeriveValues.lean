import Verif.Lemmas.DeriveArms

/-!
# The code that is derived for enums, on values
-/

namespace Steit.Derive

open Spec

variable {vars : List Var}

/-- Every variant of the values is one of those declared. -/
def Of (vars : List Var) : Variants → Prop
  | .nil => True
  | .cons tag cached fs vs => (∃ v ∈ vars, v.tag = tag ∧ v.item.cache.isSome = cached ∧ v.item.fs = fs) ∧ Of vars vs

/-- What the arms about a variant do to a value of it. -/
structure Does (ds : Bool) (W : Variants) (x : W.El) (v : Var) : Prop where
  tag : (W.case x).1 = v.tag
  tagOf : (W.dict ds).tagOf x = v.tag
  cache : (W.dict ds).hasCache x = v.item.cache.isSome
  sizes : ∀ m l size, runSizes m l (W.case x).2.1 (W.case x).2.2 (sizeActs v.item 0 v.item.fields) size = (W.dict ds).sizes m l size x
  ser : ∀ m l, runSer m l (W.case x).2.1 (W.case x).2.2 (sizeActs v.item 0 v.item.fields) = (W.dict ds).serialize m l x
  hash : .num .w32 v.tag :: runHash (W.case x).2.1 (W.case x).2.2 (hashActs v.item 0 v.item.fields) = W.hash x
  merge : ∀ m bs, W.modifyRes (fun _ fs y => runMerge fs (mergeActs v.item 0 v.item.fields) m y bs) x = (W.dict ds).mergeFields m x bs
  rt : ∀ param rt, (runRt (W.case x).2.1 param (rtActs ds [v.tag] v.item 0 v.item.fields ++ [.own [v.tag]]) ⟨rt, (W.case x).2.2⟩).rt = param.nested v.tag
  setRuntime : ∀ param rt, W.modify (fun _ fs y => (runRt fs param (rtActs ds [v.tag] v.item 0 v.item.fields ++ [.own [v.tag]]) ⟨rt, y⟩).fields) x =
    (W.dict ds).setRuntime (param.nested v.tag) x
  handle : ∀ m path kind key bs, W.modifyRes (fun _ fs y => runVarHandle fs (handleActs ds v.item 0 v.item.fields) m y path kind key bs) x =
    (W.dict ds).handleFields m x path kind key bs

theorem runVarHandle_eq (ds : Bool) (it : Item) (m : Mode) (y : it.fs.El) (path : List U32) (kind : LogKind) (key : Option U32) (bs : Bytes) :
    runVarHandle it.fs (handleActs ds it 0 it.fields) m y path kind key bs = variantHandle (it.fs.dict ds) m y path kind key bs := by
  cases path with
  | nil => rfl
  | cons tag path =>
    rw [runVarHandle, runHandle_fields, variantHandle]
    cases (it.fs.dict ds).handleField m tag y path kind key bs <;> rfl

theorem does_of (ds : Bool) : ∀ (W : Variants) (x : W.El), Of vars W → ∃ v ∈ vars, Does ds W x v
  | .nil, x, _ => nomatch x
  | .cons tag cached fs vs, .inl x, h => by
    obtain ⟨v, hv, rfl, rfl, rfl⟩ := h.1
    refine ⟨v, hv, ?_⟩
    constructor
    · rfl
    · rfl
    · rfl
    · exact fun m l size => runSizes_fields ds m l x size
    · exact fun m l => runSer_fields ds m l x
    · exact congrArg (HashTok.num .w32 v.tag :: ·) (runHash_fields x)
    · exact fun m bs => congrArg (fun r => Res.map Sum.inl r) (congrFun (congrFun (congrFun (runMerge_fields ds) m) x) bs)
    · exact fun param rt => congrArg StructV.rt (runRt_fields ds [v.tag] param [.own [v.tag]] ⟨rt, x⟩)
    · exact fun param rt => congrArg Sum.inl (congrArg StructV.fields (runRt_fields ds [v.tag] param [.own [v.tag]] ⟨rt, x⟩))
    · exact fun m path kind key bs => congrArg (Res.map Sum.inl) (runVarHandle_eq ds v.item m x path kind key bs)
  | .cons tag cached fs vs, .inr x, h => by
    obtain ⟨v, hv, hd⟩ := does_of ds vs x h.2
    refine ⟨v, hv, ?_⟩
    constructor
    · exact hd.tag
    · exact hd.tagOf
    · exact hd.cache
    · exact hd.sizes
    · exact hd.ser
    · exact hd.hash
    · exact fun m bs => congrArg (Res.map Sum.inr) (hd.merge m bs)
    · exact hd.rt
    · exact fun param rt => congrArg Sum.inr (hd.setRuntime param rt)
    · exact fun m path kind key bs => congrArg (Res.map Sum.inr) (hd.handle m path kind key bs)

theorem make_ctor (ds : Bool) (ht : (vars.map (·.tag)).Nodup) {v : Var} (hv : v ∈ vars) (hs : v.item.state = ds) (param : Rt) : ∀ (W : Variants), Of vars W →
    W.make v.tag (fun fs => ctorFields fs (ctorActs v.item [v.tag]) param) = (W.dict ds).ctor v.tag (if ds then some (param.nested v.tag) else none)
  | .nil, _ => rfl
  | .cons tag cached fs vs, h => by
    have ih := make_ctor ds ht hv hs param vs h.2
    obtain ⟨v', hv', rfl, rfl, rfl⟩ := h.1
    show (if v.tag = v'.tag then _ else _) = (if v.tag = v'.tag then _ else _)
    by_cases e : v.tag = v'.tag
    · have := eq_of_key ht hv hv' e
      subst this
      rw [if_pos rfl, if_pos rfl]
      subst hs
      exact congrArg (fun y => some (Sum.inl y)) (ctorActs_fields [v.tag] param)
    · rw [if_neg e, if_neg e, ih]

theorem ctor_none (ds : Bool) {tag : U32} (rt : Option Rt) : ∀ (W : Variants), Of vars W → (∀ v ∈ vars, v.tag ≠ tag) → (W.dict ds).ctor tag rt = none
  | .nil, _, _ => rfl
  | .cons tag' cached fs vs, h, hn => by
    have ih := ctor_none ds rt vs h.2 hn
    obtain ⟨v', hv', rfl, rfl, rfl⟩ := h.1
    show (if tag = v'.tag then _ else _) = _
    rw [if_neg fun e => hn v' hv' e.symm, ih]
    rfl

theorem ctor_some (ds : Bool) {tag : U32} (rt : Option Rt) : ∀ (W : Variants), tag ∈ W.tags → ∃ x, (W.dict ds).ctor tag rt = some x
  | .nil, h => by simp [Variants.tags] at h
  | .cons tag' cached fs vs, h => by
    by_cases e : tag = tag'
    · exact ⟨.inl ((fs.dict ds).init rt), if_pos e⟩
    · have hm : tag ∈ vs.tags := (List.mem_cons.1 h).resolve_left e
      obtain ⟨x, hx⟩ := ctor_some ds rt vs hm
      exact ⟨.inr x, (if_neg e).trans (by rw [hx]; rfl)⟩

theorem ctor_tag (ds : Bool) {tag : U32} {rt : Option Rt} : ∀ (W : Variants) (x : W.El), (W.dict ds).ctor tag rt = some x → (W.dict ds).tagOf x = tag
  | .nil, x, _ => nomatch x
  | .cons tag' cached fs vs, x, h => by
    by_cases e : tag = tag'
    · rw [show ((Variants.cons tag' cached fs vs).dict ds).ctor tag rt = some (.inl ((fs.dict ds).init rt)) from if_pos e] at h
      cases h
      exact e.symm
    · rw [show ((Variants.cons tag' cached fs vs).dict ds).ctor tag rt = ((vs.dict ds).ctor tag rt).map .inr from if_neg e] at h
      cases hc : (vs.dict ds).ctor tag rt with
      | none => rw [hc] at h; cases h
      | some y =>
        rw [hc] at h
        cases h
        exact ctor_tag ds vs y hc

/-! ## The methods of enums -/

/-- What an enum is asked for: tags that are different, names of constructors too, all its variants with or without `State`. -/
structure Fine (cm : Gen.CaseMap) (pre : String) (state : Bool) (vars : List Var) (W : Variants) : Prop where
  named : Named vars
  tags : (vars.map (·.tag)).Nodup
  ctors : (vars.map (·.ctorName cm pre)).Nodup
  state : ∀ v ∈ vars, v.item.state = state
  of : Of vars W
  all : ∀ v ∈ vars, v.tag ∈ W.tags

section
variable {cm : Gen.CaseMap} {pre : String} {state : Bool} {W : Variants} (h : Fine cm pre state vars W)
include h

theorem matchSelf_eq {β : Type} {x : W.El} {v : Var} (hv : v ∈ vars) (hd : (W.case x).1 = v.tag) (g : Var → β) :
    matchSelf vars W (vars.map fun v => (v.name, g v)) x = some (g v) := by
  rw [matchSelf, hd, nameOf_mem h.tags hv]
  exact lookup_map h.named.names hv

theorem isVar_eq {x : W.El} {v v' : Var} (hv : v ∈ vars) (hv' : v' ∈ vars) (hd : (W.case x).1 = v.tag) :
    isVar vars W x v'.name = decide (v'.tag = v.tag) := by
  rw [isVar, hd, nameOf_mem h.tags hv]
  by_cases e : v'.tag = v.tag
  · have := eq_of_key h.tags hv' hv e
    subst this
    simp
  · have : v.name ≠ v'.name := fun e' => e (by rw [eq_of_key h.named.names hv hv' e'])
    rw [decide_eq_false e]
    simpa using this

theorem callCtor_eq {v : Var} (hv : v ∈ vars) (param : Rt) :
    callCtor vars W (vars.map fun v => (v.ctorName cm pre, v.name, ctorActs v.item [v.tag])) (v.ctorName cm pre) param =
      ((W.dict state).ctor v.tag (if state then some (param.nested v.tag) else none)).map fun val => ⟨if state then param.nested v.tag else Rt.dflt, val⟩ := by
  have hl : (vars.map fun v => (v.ctorName cm pre, v.name, ctorActs v.item [v.tag])).lookup (v.ctorName cm pre) = some (v.name, ctorActs v.item [v.tag]) :=
    lookup_map (f := fun v : Var => v.ctorName cm pre) (g := fun v => (v.name, ctorActs v.item [v.tag])) h.ctors hv
  simp only [callCtor, hl, varNamed_mem h.named.names hv, make_ctor state h.tags hv (h.state v hv) param W h.of, ctorActs_rt, h.state v hv]
  rfl

theorem merge_arm {x : W.El} {v : Var} (hv : v ∈ vars) (ht : (W.dict state).tagOf x = v.tag) (rt : Rt) (m : Mode) (bs : Bytes) :
    runMergeArm vars W v.name (mergeActs v.item 0 v.item.fields) m ⟨rt, x⟩ bs =
      ((W.dict state).mergeFields m x bs).map fun val => ⟨rt, val⟩ := by
  obtain ⟨v', hv', hd⟩ := does_of state W x h.of
  have e : v' = v := eq_of_key h.tags hv' hv (hd.tagOf.symm.trans ht)
  subst e
  rw [runMergeArm, isVar_eq h hv hv hd.tag, decide_eq_true rfl, if_pos rfl, hd.merge]

theorem enumMerge_eq : runEnumMerge vars W state (vars.map fun v => (v.ctorName cm pre, v.name, ctorActs v.item [v.tag]))
    (vars.map fun v => (v.tag, v.name, v.ctorName cm pre, mergeActs v.item 0 v.item.fields)) = enumMerge state (W.dict state) := by
  funext m x bs
  obtain ⟨rt, val⟩ := x
  rw [runEnumMerge, enumMerge]
  cases getVarint m 32 bs with
  | error e => rfl
  | ok r =>
    obtain ⟨tag, rest⟩ := r
    simp only
    obtain ⟨v', hv', hd⟩ := does_of state W val h.of
    by_cases hx : ∃ v ∈ vars, v.tag = tag
    · obtain ⟨v, hv, rfl⟩ := hx
      have hl : (vars.map fun v => (v.tag, v.name, v.ctorName cm pre, mergeActs v.item 0 v.item.fields)).lookup v.tag =
          some (v.name, v.ctorName cm pre, mergeActs v.item 0 v.item.fields) :=
        lookup_map (f := fun v : Var => v.tag) (g := fun v => (v.name, v.ctorName cm pre, mergeActs v.item 0 v.item.fields)) h.tags hv
      rw [hl]
      simp only
      rw [isVar_eq h hv' hv hd.tag, hd.tagOf]
      by_cases e : v.tag = v'.tag
      · rw [decide_eq_true e, if_pos rfl, if_pos e, merge_arm h hv (hd.tagOf.trans e.symm)]
      · rw [decide_eq_false e, if_neg Bool.false_ne_true, if_neg e]
        cases hs : state with
        | false =>
          subst hs
          obtain ⟨y, hy⟩ := ctor_some false none W (h.all v hv)
          simp only [Bool.false_eq_true, if_false]
          rw [callCtor_eq h hv]
          simp only [Bool.false_eq_true, if_false, hy, Option.map_some]
          exact merge_arm h hv (ctor_tag false W y hy) _ m rest
        | true =>
          subst hs
          simp only [if_true]
          cases rt.parent with
          | error er =>
            obtain ⟨y, hy⟩ := ctor_some true none W (h.all v hv)
            simp only [hy]
          | ok parent =>
            obtain ⟨y, hy⟩ := ctor_some true (some (parent.nested v.tag)) W (h.all v hv)
            simp only
            rw [callCtor_eq h hv]
            simp only [if_true, hy, Option.map_some]
            exact merge_arm h hv (ctor_tag true W y hy) _ m rest
    · have hn : ∀ v ∈ vars, v.tag ≠ tag := fun v hv e => hx ⟨v, hv, e⟩
      have hl : (vars.map fun v => (v.tag, v.name, v.ctorName cm pre, mergeActs v.item 0 v.item.fields)).lookup tag = none :=
        lookup_none (by
          rw [List.map_map]; intro hm
          obtain ⟨v, hv, e⟩ := List.mem_map.1 hm
          exact hn v hv e)
      have hne : ¬tag = v'.tag := fun e => hn v' hv' e.symm
      rw [hl, hd.tagOf, if_neg hne]
      simp only [ctor_none state _ W h.of hn]
      cases state with
      | false => rfl
      | true => cases rt.parent <;> rfl

theorem enumHandle_eq (U : Mode → EnumV W.El → Bytes → Res (EnumV W.El)) (m : Mode) (x : EnumV W.El) (path : List U32) (kind : LogKind)
    (key : Option U32) (bs : Bytes) :
    runEnumHandle vars W (vars.map fun v => (v.tag, v.name, handleActs state v.item 0 v.item.fields)) U m x path kind key bs =
      match path with
      | tag :: path =>
        if tag = (W.dict state).tagOf x.val then
          ((W.dict state).handleFields m x.val path kind key bs).map (fun val => { x with val })
        else .err x .invalidData
      | [] => if kind = .update then U m x bs else .err x .invalidData := by
  obtain ⟨rt, val⟩ := x
  cases path with
  | nil => cases kind <;> rfl
  | cons tag path =>
    simp only [runEnumHandle]
    obtain ⟨v', hv', hd⟩ := does_of state W val h.of
    by_cases hx : ∃ v ∈ vars, v.tag = tag
    · obtain ⟨v, hv, rfl⟩ := hx
      have hl : (vars.map fun v => (v.tag, v.name, handleActs state v.item 0 v.item.fields)).lookup v.tag =
          some (v.name, handleActs state v.item 0 v.item.fields) :=
        lookup_map (f := fun v : Var => v.tag) (g := fun v => (v.name, handleActs state v.item 0 v.item.fields)) h.tags hv
      rw [hl]
      simp only
      rw [isVar_eq h hv' hv hd.tag, hd.tagOf]
      by_cases e : v.tag = v'.tag
      · have := eq_of_key h.tags hv hv' e
        subst this
        rw [decide_eq_true rfl, if_pos rfl, if_pos rfl, hd.handle]
      · rw [decide_eq_false e, if_neg Bool.false_ne_true, if_neg e]
    · have hn : ∀ v ∈ vars, v.tag ≠ tag := fun v hv e => hx ⟨v, hv, e⟩
      have hl : (vars.map fun v => (v.tag, v.name, handleActs state v.item 0 v.item.fields)).lookup tag = none :=
        lookup_none (by
          rw [List.map_map]; intro hm
          obtain ⟨v, hv, e⟩ := List.mem_map.1 hm
          exact hn v hv e)
      have hne : ¬tag = v'.tag := fun e => hn v' hv' e.symm
      rw [hl, hd.tagOf, if_neg hne]

end

theorem enumCode_eq {cm : Gen.CaseMap} {pre : String} {setters state : Bool} {cached : Bool} {fs : Fields} {vs : Variants}
    (h : Fine cm pre state vars (.cons 0#32 cached fs vs)) (hm : (enumMethods cm pre setters vars).Nodup)
    (hl : ∀ v ∈ vars, LegalItem v.item) (hf : ∀ v ∈ vars, FreeD v.item) {dv : Var} (hd : (vars.find? fun v => v.tag == 0#32) = some dv) :
    enumCode cm pre setters state vars (.cons 0#32 cached fs vs) = some (Ty.enum state cached fs vs).dict := by
  have hdv : dv ∈ vars := List.mem_of_find?_eq_some hd
  have hd0 : dv.tag = 0#32 := by simpa using List.find?_some hd
  have hv : ∀ v ∈ vars, ∀ d ∈ v.item.dfields, ∀ s ∈ ["size", "writer", "reader", "field_number", "wire_type"], alias d ≠ s := fun v hv => (hf v hv).vars
  have hk : ∀ v ∈ vars, ∀ d ∈ v.item.dfields, alias d ∉ keywords := fun v hv => (hf v hv).plain
  have h0 : enumNames cm pre setters vars = some () := by
    simp only [enumNames, need_true h.named.names, need_true h.named.members, need_true hm, Option.bind_eq_bind, Option.bind_some]
  have h1 := sizeArms_eq h.named fun v hv' d hd => ⟨hk v hv' d hd, hv v hv' d hd _ (by simp)⟩
  have h2 := serArms_eq h.named fun v hv' d hd => ⟨hk v hv' d hd, hv v hv' d hd _ (by simp)⟩
  have h3 := cacheArms_eq h.named
  have h4 := mergeArms_eq cm pre h.named fun v hv' d hd => ⟨hk v hv' d hd, hv v hv' d hd _ (by simp), hv v hv' d hd _ (by simp), hv v hv' d hd _ (by simp)⟩
  have h5 := ctors_eq cm pre h.named hl
  have hc : ∀ param, callCtor vars (.cons 0#32 cached fs vs) (vars.map fun v => (v.ctorName cm pre, v.name, ctorActs v.item [v.tag])) (dv.ctorName cm pre) param =
      some ⟨if state then param.nested 0#32 else Rt.dflt, .inl ((fs.dict state).init (if state then some (param.nested 0#32) else none))⟩ := fun param => by
    rw [callCtor_eq h hdv, hd0]
    rfl
  have hself : ∀ x : (Variants.cons 0#32 cached fs vs).El, ∃ v ∈ vars, Does state (.cons 0#32 cached fs vs) x v := fun x => does_of state _ x h.of
  have e1 : (fun v : EnumV (Variants.cons 0#32 cached fs vs).El =>
      (matchSelf vars (.cons 0#32 cached fs vs) (vars.map fun v => (v.name, v.item.cache.isSome)) v.val).getD false) =
      fun v => ((Variants.cons 0#32 cached fs vs).dict state).hasCache v.val := by
    funext x
    obtain ⟨v, hv, hd⟩ := hself x.val
    rw [matchSelf_eq h hv hd.tag fun v => v.item.cache.isSome, hd.cache]; rfl
  have e2 : runSizeArms vars (.cons 0#32 cached fs vs) (vars.map fun v => (v.name, SizeAct.tag v.tag :: sizeActs v.item 0 v.item.fields)) =
      (fun m l v => do
        let size ← Prog.addU32 m 0 (u32Size (((Variants.cons 0#32 cached fs vs).dict state).tagOf v.val))
        ((Variants.cons 0#32 cached fs vs).dict state).sizes m l size v.val) := by
    funext m l x
    obtain ⟨v, hv, hd⟩ := hself x.val
    rw [runSizeArms, matchSelf_eq h hv hd.tag fun v => SizeAct.tag v.tag :: sizeActs v.item 0 v.item.fields]
    simp only [runSizes, hd.sizes, hd.tagOf]
  have e3 : runSerArms vars (.cons 0#32 cached fs vs) (vars.map fun v => (v.name, SizeAct.tag v.tag :: sizeActs v.item 0 v.item.fields)) =
      (fun m l v => do
        let payload ← ((Variants.cons 0#32 cached fs vs).dict state).serialize m l v.val
        pure (putVarint (((Variants.cons 0#32 cached fs vs).dict state).tagOf v.val) ++ payload)) := by
    funext m l x
    obtain ⟨v, hv, hd⟩ := hself x.val
    rw [runSerArms, matchSelf_eq h hv hd.tag fun v => SizeAct.tag v.tag :: sizeActs v.item 0 v.item.fields]
    simp only [runSer, hd.ser, hd.tagOf]
  have e4 := enumMerge_eq h
  rw [enumCode, h0, h1, h2, h3, h4, h5, hd]
  simp only [Option.bind_eq_bind, Option.bind_some, hc, e1, e2, e3, e4, Option.getD_some]
  cases hs : state with
  | false =>
    subst hs
    rfl
  | true =>
    subst hs
    have hst := h.state
    have h6 := runtimeArms_eq h.named hst
    have hr : ∀ v ∈ vars, ∀ d ∈ v.item.dfields, ∀ s ∈ ["runtime", "self_runtime", "path", "kind"], alias d ≠ s := fun v hv => (hf v hv).state (hst v hv)
    have h7 := rtArms_eq h.named hst fun v hv' d hd => ⟨hk v hv' d hd, hr v hv' d hd _ (by simp), hr v hv' d hd _ (by simp)⟩
    have h8 := handleArms_eq h.named (fun v hv' d hd => ⟨hk v hv' d hd, hr v hv' d hd _ (by simp), hr v hv' d hd _ (by simp)⟩)
      fun v hv' d hd hds => ⟨(hf v hv').tag d hd hds, fun d' hd' => ⟨(hf v hv').key ⟨d, hd, hds⟩ d' hd', hv v hv' d' hd' _ (by simp)⟩⟩
    have c7 : (vars.map fun v => (v.name, rtActs v.item.state [v.tag] v.item 0 v.item.fields ++ [.own [v.tag]])) =
        vars.map fun v => (v.name, rtActs true [v.tag] v.item 0 v.item.fields ++ [.own [v.tag]]) :=
      List.map_congr_left fun v hv => by rw [hst v hv]
    have c8 : (vars.map fun v => (v.tag, v.name, handleActs v.item.state v.item 0 v.item.fields)) =
        vars.map fun v => (v.tag, v.name, handleActs true v.item 0 v.item.fields) :=
      List.map_congr_left fun v hv => by rw [hst v hv]
    have e5 : runRtArms vars (.cons 0#32 cached fs vs) (vars.map fun v => (v.name, rtActs true [v.tag] v.item 0 v.item.fields ++ [.own [v.tag]])) =
        fun rt v => ⟨rt.nested (((Variants.cons 0#32 cached fs vs).dict true).tagOf v.val), ((Variants.cons 0#32 cached fs vs).dict true).setRuntime
          (rt.nested (((Variants.cons 0#32 cached fs vs).dict true).tagOf v.val)) v.val⟩ := by
      funext rt x
      obtain ⟨v, hv, hd⟩ := hself x.val
      rw [runRtArms, matchSelf_eq h hv hd.tag fun v => rtActs true [v.tag] v.item 0 v.item.fields ++ [RtAct.own [v.tag]]]
      simp only [hd.rt, hd.setRuntime, hd.tagOf]
    simp only [if_true, h6, h7, h8, c7, c8, Option.bind_some, e5]
    refine congrArg some ?_
    have e7 : runEnumUpdate (fun rt => (⟨rt.nested 0#32, .inl ((fs.dict true).init (some (rt.nested 0#32)))⟩ : EnumV (Variants.cons 0#32 cached fs vs).El))
        (enumMerge true ((Variants.cons 0#32 cached fs vs).dict true)) =
        enumHandleUpdate ((Variants.cons 0#32 cached fs vs).dict true) (fun rt => .inl ((fs.dict true).init rt)) := by
      funext m x bs
      rw [runEnumUpdate, enumHandleUpdate]
      cases x.rt.parent <;> rfl
    have e6 : runEnumHandle vars (.cons 0#32 cached fs vs) (vars.map fun v => (v.tag, v.name, handleActs true v.item 0 v.item.fields))
        (enumHandleUpdate ((Variants.cons 0#32 cached fs vs).dict true) (fun rt => .inl ((fs.dict true).init rt))) =
        enumHandle ((Variants.cons 0#32 cached fs vs).dict true) (fun rt => .inl ((fs.dict true).init rt)) := by
      funext m x path kind key bs
      rw [enumHandle_eq h]
      cases path <;> rfl
    rw [e7, e6]
    rfl


end Steit.Derive
