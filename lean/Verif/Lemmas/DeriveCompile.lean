import Verif.Lemmas.DeriveNames

/-!
# Derived statements whose names are found
-/

namespace Steit.Derive

open Spec

variable {it : Item}

/-- The fields are what they are called. -/
def Sees (it : Item) (Γ : Scope) (isVariant : Bool) : Prop :=
  ∀ d ∈ it.dfields, resolveMine it Γ (d.m.fieldOther none isVariant) = some d.m.index

theorem sees_self (h : KeysNodup it) {Γ : Scope} (hΓ : Γ.lookup "self" = some .self) : Sees it Γ false := fun d hd => by
  simp only [resolveMine, Member.fieldOther, Bool.false_eq_true, if_false, Option.getD_none, resolve, hΓ, slotOf_field h hd, Option.map_some]

theorem resolveMine_var (h : KeysNodup it) {front Γ : Scope} {d : DField} (hd : d ∈ it.dfields) (hf : alias d ∉ front.map Prod.fst) :
    resolveMine it (front ++ (binds it .mine none ++ Γ)) (d.m.fieldOther none true) = some d.m.index := by
  have := lookup_alias h .mine none Γ hd
  simp only [resolveMine, Member.fieldOther, if_true, resolve]
  have hf' : front.lookup (d.m.aliasPrefixed none) = none := lookup_none hf
  rw [lookup_append, hf', this]
  rfl

theorem sees_arm (h : KeysNodup it) {front Γ : Scope} (hf : ∀ d ∈ it.dfields, alias d ∉ front.map Prod.fst) :
    Sees it (front ++ (binds it .mine none ++ Γ)) true := fun d hd => resolveMine_var h hd (hf d hd)

/-! ## Sizes, serialization, hashes -/

theorem sizer_compile {Γ : Scope} {isVariant : Bool} (hs : Sees it Γ isVariant) (hΓ : Γ.lookup "size" = some .size) {d : DField} (hd : d ∈ it.dfields) :
    (d.sizer isVariant).compile it Γ = some (.field d.m.index d.p.tag) := by
  simp only [DField.sizer, SizeStmt.compile, need_true hΓ, hs d hd, Option.bind_eq_bind, Option.bind_some]

theorem sizers_compile {Γ : Scope} {isVariant : Bool} (hs : Sees it Γ isVariant) (hΓ : Γ.lookup "size" = some .size) :
    (it.dfields.mapM fun d => (d.sizer isVariant).compile it Γ) = some (sizeActs it 0 it.fields) :=
  mapM_some fun _ hd => sizer_compile hs hΓ hd

theorem sers_compile {Γ : Scope} {isVariant : Bool} (hs : Sees it Γ isVariant) (hΓ : Γ.lookup "writer" = some .writer) :
    (it.dfields.mapM fun d => (d.serializer isVariant).compile it Γ) = some (sizeActs it 0 it.fields) :=
  mapM_some fun d hd => by
    simp only [DField.serializer, SerStmt.compile, need_true hΓ, hs d hd, Option.bind_eq_bind, Option.bind_some]

theorem filterMap_mapM {α β γ : Type} {f : α → Option β} {c : β → Option γ} {g : α → Option γ} {l : List α}
    (h : ∀ a ∈ l, (f a = none ∧ g a = none) ∨ ∃ b x, f a = some b ∧ c b = some x ∧ g a = some x) :
    (l.filterMap f).mapM c = some (l.filterMap g) := by
  induction l with
  | nil => rfl
  | cons a l ih =>
    have ih := ih fun a ha => h a (.tail _ ha)
    rcases h a (.head _) with ⟨hf, hg⟩ | ⟨b, x, hf, hc, hg⟩
    · rw [List.filterMap_cons_none hf, List.filterMap_cons_none hg, ih]
    · rw [List.filterMap_cons_some hf, List.filterMap_cons_some hg, List.mapM_cons, hc, ih]; rfl

theorem hashes_compile {Γ : Scope} {isVariant : Bool} (hs : Sees it Γ isVariant) (hΓ : Γ.lookup "state" = some .hasher) :
    (it.dfields.filterMap (·.hash isVariant)).mapM (·.compile it Γ) = some (hashActs it 0 it.fields) :=
  filterMap_mapM fun d hd => by
    by_cases hb : (!d.p.attrs.noHash && !d.p.attrs.noEqHash) = true
    · right
      exact ⟨_, .field d.m.index, by rw [DField.hash, if_pos hb], by
        simp only [HashStmt.compile, need_true hΓ, hs d hd, Option.bind_eq_bind, Option.bind_some], by rw [if_pos hb]⟩
    · left
      exact ⟨by rw [DField.hash, if_neg hb], by rw [if_neg hb]⟩

/-! ## Merging -/

theorem merger_compile {Γ : Scope} {isVariant : Bool} (hr : Γ.lookup "reader" = some .reader)
    (hs : Sees it ([("field_number", .fieldNumber), ("wire_type", .wireType)] ++ Γ) isVariant) :
    compileMerger it Γ (it.dfields.map (·.merger isVariant)) = some (mergeActs it 0 it.fields) := by
  have h1 : (("field_number", Bind.fieldNumber) :: ("wire_type", .wireType) :: Γ : Scope).lookup "field_number" = some .fieldNumber := rfl
  have h2 : (("field_number", Bind.fieldNumber) :: ("wire_type", .wireType) :: Γ : Scope).lookup "reader" = some .reader := hr
  have h3 : (("field_number", Bind.fieldNumber) :: ("wire_type", .wireType) :: Γ : Scope).lookup "wire_type" = some .wireType := rfl
  simp only [compileMerger, need_true hr, need_true h1, need_true h2, need_true h3, Option.bind_eq_bind, Option.bind_some, List.mapM_map]
  refine mapM_some fun d hd => ?_
  have hd := hs d hd
  simp only [List.cons_append, List.nil_append] at hd
  simp only [Function.comp_apply, DField.merger, hd, need_true h2, need_true h3, Option.bind_some]

/-! ## Runtimes -/

theorem compileRt_fields (ds : Bool) {Γ : Scope} {isVariant : Bool} {under : List U32} (hr : Γ.lookup "runtime" = some (.runtime under)) (ss : List RtStmt) :
    ∀ {l : List DField}, (∀ d ∈ l, d.isState ds = true → resolveMine it Γ (d.m.fieldOther none isVariant) = some d.m.index) →
    compileRt it Γ (l.filterMap (·.runtimeSetter ds isVariant) ++ ss) =
      (compileRt it Γ ss).map ((l.filterMap fun d => if d.isState ds then some (.field d.m.index (under ++ [d.p.tag])) else none) ++ ·)
  | [], _ => by simp
  | d :: l, h => by
    have ih := compileRt_fields ds hr ss fun d hd => h d (.tail _ hd)
    by_cases hb : d.isState ds = true
    · rw [List.filterMap_cons_some (b := .field (d.m.fieldOther none isVariant) "runtime" d.p.tag) (by rw [DField.runtimeSetter, if_pos hb]),
        List.filterMap_cons_some (b := .field d.m.index (under ++ [d.p.tag])) (by rw [if_pos hb])]
      simp only [List.cons_append, compileRt, h d (.head _) hb, hr, ih, Option.map_map]
      rfl
    · rw [List.filterMap_cons_none (by rw [DField.runtimeSetter, if_neg hb]), List.filterMap_cons_none (by rw [if_neg hb]), ih]

theorem setter_compile {Γ : Scope} {isVariant : Bool} {under : List U32} (hr : Γ.lookup "runtime" = some (.runtime under)) (hs : Sees it Γ isVariant)
    {f : Member} (hf : it.runtimeMember = some f)
    (ha : resolve it Γ (if isVariant then .var "self_runtime" else .dot "self" f.access) = some (.mine .rt)) :
    compileRt it Γ (it.runtimeSetter isVariant) = some (rtActs it.state under it 0 it.fields ++ [.own under]) := by
  simp only [Item.runtimeSetter, hf, Option.map_some, Option.toList_some]
  rw [compileRt_fields it.state hr _ fun d hd _ => hs d hd]
  simp only [compileRt, ha, hr, Option.map_some]
  rfl

/-! ## Replaying -/

theorem replayer_compile {Γ : Scope} {isVariant : Bool} (hp : Γ.lookup "path" = some .path) (hk : Γ.lookup "kind" = some .kind)
    (hu : isVariant = true ∨ (Γ.lookup "self" = some .self ∧ Γ.lookup "reader" = some .reader))
    (hs : ∀ d ∈ it.dfields, d.isState it.state = true → resolveMine it (("tag", .tag) :: Γ) (d.m.fieldOther none isVariant) = some d.m.index ∧
      Γ.lookup "key" = some .key ∧ Γ.lookup "reader" = some .reader) :
    compileReplayer it isVariant Γ (it.dfields.map (·.replayer it.state isVariant)) = some (handleActs it.state it 0 it.fields) := by
  have ht : (("tag", Bind.tag) :: Γ : Scope).lookup "tag" = some .tag := rfl
  have hp' : (("tag", Bind.tag) :: Γ : Scope).lookup "path" = some .path := hp
  have hk' : (("tag", Bind.tag) :: Γ : Scope).lookup "kind" = some .kind := hk
  have hm : (it.dfields.map (·.replayer it.state isVariant)).mapM (·.compile it (("tag", .tag) :: Γ)) = some (handleActs it.state it 0 it.fields) := by
    rw [List.mapM_map]
    refine mapM_some fun d hd => ?_
    by_cases hb : d.isState it.state = true
    · obtain ⟨h1, h2, h3⟩ := hs d hd hb
      have h2' : (("tag", Bind.tag) :: Γ : Scope).lookup "key" = some .key := h2
      have h3' : (("tag", Bind.tag) :: Γ : Scope).lookup "reader" = some .reader := h3
      simp only [Function.comp_apply, DField.replayer, hb, if_true, HandleArm.compile, h1, need_true hp', need_true hk', need_true h2', need_true h3', Option.bind_eq_bind,
        Option.bind_some]
    · simp only [Function.comp_apply, DField.replayer, if_neg hb, HandleArm.compile]
  simp only [compileReplayer, need_true hp, hm, need_true ht, need_true hk, need_true hu, Option.bind_eq_bind, Option.bind_some]

/-! ## Constructors -/

/-- What the members are given. -/
def ctorActs (it : Item) (under : List U32) : List (Slot × InitAct) :=
  (it.dfields.map fun d => (Slot.data d.m.index, initAct it.state under d.p)) ++ (it.cacheMember.map fun _ => (Slot.cache, InitAct.cacheNew)).toList ++
    (it.runtimeMember.map fun _ => (Slot.rt, InitAct.runtime under)).toList

theorem blank_default : ' ' ∈ (InitExpr.shown .default).toList := by decide

theorem blank_cache : ' ' ∈ (InitExpr.shown .cacheNew).toList := by decide

theorem mem_left {a : String} (b : String) {c : Char} (h : c ∈ a.toList) : c ∈ (a ++ b).toList := by
  rw [String.toList_append]; exact List.mem_append_left _ h

theorem blank_withRuntime (x : String) (t : U32) : ' ' ∈ (InitExpr.shown (.withRuntime x t)).toList := by
  have h : ' ' ∈ "State :: with_runtime (".toList := by decide
  unfold InitExpr.shown
  generalize toString t.toNat = n
  exact mem_left _ (mem_left _ (mem_left _ (mem_left _ h)))

theorem digit_noBlank (n : Nat) : ' ' ∉ (toString n).toList := fun h => absurd (digits_toString n h) (by decide)

theorem shown_noBlank {x : Ident} (h : Legal x) : ' ' ∉ x.shown.toList := by
  rw [Ident.shown]
  split
  · rw [String.toList_append]
    intro hm
    rcases List.mem_append.1 hm with hm | hm
    · exact absurd hm (by decide)
    · exact h.noBlank hm
  · exact h.noBlank

theorem member_noBlank {x : Ident} {i : Nat} (h : it.tuple = false → Legal x) : ' ' ∉ (it.member x i).access.shown.toList := by
  cases ht : it.tuple with
  | true => simp only [Item.member, ht, if_true, Member.access, Access.shown]; exact digit_noBlank i
  | false => simp only [Item.member, ht, Bool.false_eq_true, if_false, Member.access, Access.shown]; exact shown_noBlank (h ht)

theorem init_pair {α : Type} {f : Member} (h : ' ' ∉ f.access.shown.toList) (v : α) {s : String} (hs : ' ' ∈ s.toList) :
    f.init v s = .pair f.access v := by
  rw [Member.init, if_pos]
  intro e
  rw [e] at h
  exact h hs

theorem dfield_noBlank (hl : LegalItem it) {d : DField} (hd : d ∈ it.dfields) : ' ' ∉ d.m.access.shown.toList := by
  obtain ⟨j, x, p, hj, rfl⟩ := mem_dfields hd
  exact member_noBlank fun ht => hl.fields ht _ (List.mem_of_getElem? hj)

theorem initDefault_compile (h : KeysNodup it) (hl : LegalItem it) {Γ : Scope} {under : List U32}
    (hr : it.state = true → Γ.lookup "runtime" = some (.runtime under)) {d : DField} (hd : d ∈ it.dfields) :
    compileInit it Γ (d.initDefault it.state) = some (.data d.m.index, initAct it.state under d.p) := by
  have hb := dfield_noBlank hl hd
  have hslot := slotOf_field h hd
  rw [DField.initDefault]
  by_cases hst : d.isState it.state = true
  · have hst' : (it.state && !d.p.attrs.noState) = true := hst
    have hstate : it.state = true := by cases hs : it.state <;> simp [hs] at hst' ⊢
    simp only [hst, if_true]
    rw [init_pair hb _ (blank_withRuntime _ _)]
    simp only [compileInit, hslot, InitExpr.compile, hr hstate, Option.bind_eq_bind, Option.bind_some, initAct, hst', if_true]
  · have hst' : ¬(it.state && !d.p.attrs.noState) = true := hst
    simp only [if_neg hst]
    rw [init_pair hb _ blank_default]
    simp only [compileInit, hslot, InitExpr.compile, Option.bind_eq_bind, Option.bind_some, initAct, if_neg hst']

theorem mapM_append {α β : Type} (f : α → Option β) (l l' : List α) :
    (l ++ l').mapM f = (l.mapM f).bind fun a => (l'.mapM f).map (a ++ ·) := by
  induction l with
  | nil => simp
  | cons a l ih =>
    rw [List.cons_append, List.mapM_cons, List.mapM_cons, ih]
    cases f a <;> cases l.mapM f <;> cases l'.mapM f <;> simp

theorem ctor_compile (h : KeysNodup it) (hl : LegalItem it) {Γ : Scope} {under : List U32}
    (hr : it.state = true → Γ.lookup "runtime" = some (.runtime under)) : compileCtor it Γ it.inits = some (ctorActs it under) := by
  have hm : it.inits.mapM (compileInit it Γ) = some (ctorActs it under) := by
    have h1 : it.dfields.mapM (compileInit it Γ ∘ fun d => d.initDefault it.state) =
        some (it.dfields.map fun d => (Slot.data d.m.index, initAct it.state under d.p)) := mapM_some fun d hd => initDefault_compile h hl hr hd
    rw [Item.inits, mapM_append, mapM_append, List.mapM_map, h1]
    have h2 : ((it.cacheMember.map fun f => f.init .cacheNew InitExpr.cacheNew.shown).toList).mapM (compileInit it Γ) =
        some ((it.cacheMember.map fun _ => (Slot.cache, InitAct.cacheNew)).toList) := by
      cases hc : it.cacheMember with
      | none => rfl
      | some f =>
        have hb : ' ' ∉ f.access.shown.toList := by
          cases hn : it.cache with
          | none => simp [Item.cacheMember, hn] at hc
          | some n =>
            simp [Item.cacheMember, hn] at hc
            rw [← hc]
            exact member_noBlank fun _ => hl.cache n hn
        simp only [Option.map_some, Option.toList_some, init_pair hb _ blank_cache, List.mapM_cons, List.mapM_nil, compileInit, slotOf_cache h hc,
          InitExpr.compile, Option.bind_eq_bind, Option.bind_some]
        rfl
    have h3 : ((it.runtimeMember.map fun f => f.init (.var "runtime") "runtime").toList).mapM (compileInit it Γ) =
        some ((it.runtimeMember.map fun _ => (Slot.rt, InitAct.runtime under)).toList) := by
      cases hc : it.runtimeMember with
      | none => rfl
      | some f =>
        have hst : it.state = true := by
          cases hs : it.state with
          | true => rfl
          | false => simp [Item.runtimeMember, hs] at hc
        have hslot := slotOf_rt h hc
        have hi : compileInit it Γ (f.init (.var "runtime") "runtime") = some (.rt, .runtime under) := by
          rw [Member.init]
          split
          · simp only [compileInit, hslot, InitExpr.compile, hr hst, Option.bind_eq_bind, Option.bind_some]
          · rename_i he
            simp only [ne_eq, Decidable.not_not] at he
            have hs : slotOf it (.name ⟨false, "runtime"⟩) = some .rt := by
              rw [← hslot]
              refine slotOf_key ?_
              simp only [Item.runtimeMember, hst, if_true, Option.some.injEq] at hc
              rw [← hc] at he ⊢
              cases ht : it.tuple with
              | true =>
                exfalso
                simp only [Item.member, ht, if_true, Member.access, Access.shown] at he
                exact head_ne (c := 'r') ⟨_, rfl⟩ (by decide) he rfl (fun _ hx => digits_toString _ hx)
              | false =>
                simp only [Item.member, ht, Bool.false_eq_true, if_false, Member.access, Access.shown, Ident.shown] at he
                simp only [Item.member, ht, Bool.false_eq_true, if_false, Member.access, Access.key, he]
            simp only [compileInit, hs, InitExpr.compile, hr hst, Option.bind_eq_bind, Option.bind_some]
        simp only [Option.map_some, Option.toList_some, List.mapM_cons, List.mapM_nil, hi, Option.bind_eq_bind, Option.bind_some]
        rfl
    rw [h2, h3]
    rfl
  have hf : (ctorActs it under).map Prod.fst = it.members.map Prod.snd := by
    rw [slots_eq, ctorActs, List.map_append, List.map_append, List.map_map]
    congr 1
    · congr 1
      cases it.cacheMember <;> rfl
    · cases it.runtimeMember <;> rfl
  have hfits : ∀ a ∈ ctorActs it under, a.2.fits a.1 = true := by
    intro a ha
    rcases List.mem_append.1 ha with ha | ha
    · rcases List.mem_append.1 ha with ha | ha
      · obtain ⟨d, _, rfl⟩ := List.mem_map.1 ha
        show (initAct _ _ _).fits _ = true
        rw [initAct]; split <;> rfl
      · cases hc : it.cacheMember <;> simp [hc] at ha
        rw [ha]; rfl
    · cases hc : it.runtimeMember <;> simp [hc] at ha
      rw [ha]; rfl
  have hperm : ((ctorActs it under).map Prod.fst).Perm (it.members.map Prod.snd) := by rw [hf]
  simp only [compileCtor, hm, need_true hperm, need_true hfits, Option.bind_eq_bind, Option.bind_some]

theorem members_slots_nodup : (it.members.map Prod.snd).Nodup := by
  rw [slots_eq, List.append_assoc, List.nodup_append]
  refine ⟨data_nodup, ?_, ?_⟩
  · cases it.cacheMember <;> cases it.runtimeMember <;> simp
  · intro a ha b hb e
    obtain ⟨d, _, rfl⟩ := List.mem_map.1 ha
    rw [← e] at hb
    cases hc : it.cacheMember <;> cases hr : it.runtimeMember <;> simp [hc, hr] at hb

theorem ctorActs_fst (under : List U32) : (ctorActs it under).map Prod.fst = it.members.map Prod.snd := by
  rw [slots_eq, ctorActs, List.map_append, List.map_append, List.map_map]
  congr 1
  · congr 1
    cases it.cacheMember <;> rfl
  · cases it.runtimeMember <;> rfl

theorem ctorActs_data (under : List U32) (j : Nat) :
    (ctorActs it under).lookup (.data j) = (it.fields[j]?).map fun e => initAct it.state under e.2 := by
  cases hj : it.fields[j]? with
  | some e =>
    obtain ⟨x, p⟩ := e
    refine lookup_of_mem (by rw [ctorActs_fst]; exact members_slots_nodup) ?_
    refine List.mem_append_left _ (List.mem_append_left _ (List.mem_map.2 ⟨_, dfields_mem hj, rfl⟩))
  | none =>
    refine lookup_none ?_
    rw [ctorActs_fst, slots_eq]
    intro hm
    rcases List.mem_append.1 hm with hm | hm
    · rcases List.mem_append.1 hm with hm | hm
      · obtain ⟨d, hd, e⟩ := List.mem_map.1 hm
        obtain ⟨j', x, p, hj', rfl⟩ := mem_dfields hd
        cases e
        rw [show (it.member x j').index = j' from rfl, hj'] at hj
        cases hj
      · cases hc : it.cacheMember <;> simp [hc] at hm
    · cases hc : it.runtimeMember <;> simp [hc] at hm

theorem ctorActs_rt (under : List U32) (param : Rt) : ctorRt (ctorActs it under) param = if it.state then nestedUnder param under else Rt.dflt := by
  cases hs : it.state with
  | true =>
    have : (ctorActs it under).lookup .rt = some (.runtime under) := by
      refine lookup_of_mem (by rw [ctorActs_fst]; exact members_slots_nodup) ?_
      exact List.mem_append_right _ (by simp [Item.runtimeMember, hs])
    rw [ctorRt, this]; rfl
  | false =>
    have : (ctorActs it under).lookup .rt = none := by
      refine lookup_none ?_
      rw [ctorActs_fst, slots_eq]
      intro hm
      rcases List.mem_append.1 hm with hm | hm
      · rcases List.mem_append.1 hm with hm | hm
        · obtain ⟨d, _, e⟩ := List.mem_map.1 hm
          cases e
        · cases hc : it.cacheMember <;> simp [hc] at hm
      · simp [Item.runtimeMember, hs] at hm
    rw [ctorRt, this]; rfl

theorem ctorActs_fields (under : List U32) (param : Rt) :
    ctorFields it.fs (ctorActs it under) param = (it.fs.dict it.state).init (if it.state then some (nestedUnder param under) else none) :=
  ctorFields_eq it.state under param _ (ctorActs_data under)

end Steit.Derive
