import Verif.Lemmas.DeriveCompile

/-!
# The code that is derived for structs
-/

namespace Steit.Derive

open Spec

variable {it : Item}

/-! ## Names that are different -/

theorem keys_eq : it.members.map Prod.fst = (it.dfields.map fun d => d.m.access.key) ++ (it.cacheMember.map fun f => f.access.key).toList ++
    (it.runtimeMember.map fun f => f.access.key).toList := by
  simp only [Item.members, List.map_append, List.map_map]
  congr 1
  · congr 1
    cases it.cacheMember <;> rfl
  · cases it.runtimeMember <;> rfl

theorem dfieldsFrom_map_named {β : Type} (ht : it.tuple = false) (g : Member → β) (g' : Ident → β) (hg : ∀ x i, g ⟨some x, i⟩ = g' x) :
    ∀ (l : List (Ident × PField)) (k : Nat), (it.dfieldsFrom k l).map (fun d => g d.m) = l.map fun e => g' e.1
  | [], _ => rfl
  | (x, p) :: l, k => by
    show g (it.member x k) :: (it.dfieldsFrom (k + 1) l).map (fun d => g d.m) = _
    rw [dfieldsFrom_map_named ht g g' hg l (k + 1), List.map_cons]
    simp only [Item.member, ht, Bool.false_eq_true, if_false, hg]

theorem dfieldsFrom_map_tuple {β : Type} (ht : it.tuple = true) (g : Member → β) :
    ∀ (l : List (Ident × PField)) (k : Nat), (it.dfieldsFrom k l).map (fun d => g d.m) = (List.range' k l.length).map fun i => g ⟨none, i⟩
  | [], _ => rfl
  | (x, p) :: l, k => by
    show g (it.member x k) :: (it.dfieldsFrom (k + 1) l).map (fun d => g d.m) = _
    rw [dfieldsFrom_map_tuple ht g l (k + 1), List.length_cons, List.range'_succ, List.map_cons]
    simp only [Item.member, ht, if_true]

theorem keys_named (ht : it.tuple = false) :
    it.members.map Prod.fst = (it.fields.map (·.1.text) ++ it.cache.toList ++ if it.state then [it.runtime] else []).map Key.name := by
  rw [keys_eq, Item.dfields, dfieldsFrom_map_named ht (fun m => m.access.key) (fun x => Key.name x.text) (fun _ _ => rfl), List.map_append, List.map_append,
    List.map_map]
  congr 1
  · congr 1
    cases hc : it.cache <;> simp [Item.cacheMember, hc, Item.member, ht, Member.access, Access.key]
  · cases hs : it.state <;> simp [Item.runtimeMember, hs, Item.member, ht, Member.access, Access.key]

theorem keys_tuple (ht : it.tuple = true) : KeysNodup it := by
  rw [KeysNodup, keys_eq, Item.dfields, dfieldsFrom_map_tuple ht fun m => m.access.key]
  have e : ∀ l : List Nat, (l.map fun i => (Member.access ⟨none, i⟩).key) = l.map Key.index := fun _ => rfl
  rw [e]
  have e2 : (it.cacheMember.map fun f => f.access.key).toList = (it.cache.map fun _ => it.fields.length).toList.map Key.index := by
    cases hc : it.cache <;> simp [Item.cacheMember, hc, Item.member, ht, Member.access, Access.key]
  have e3 : (it.runtimeMember.map fun f => f.access.key).toList =
      (if it.state then [it.fields.length + if it.cache.isSome then 1 else 0] else []).map Key.index := by
    cases hs : it.state <;> simp [Item.runtimeMember, hs, Item.member, ht, Member.access, Access.key]
  rw [e2, e3, ← List.map_append, ← List.map_append]
  refine nodup_map (fun a b h => by cases h; rfl) ?_
  rw [List.append_assoc, List.nodup_append]
  refine ⟨List.nodup_range', ?_, ?_⟩
  · cases hc : it.cache <;> cases hs : it.state <;> simp
  · intro a ha b hb e
    rw [List.mem_range'] at ha
    obtain ⟨i, hi, rfl⟩ := ha
    cases hc : it.cache <;> cases hs : it.state <;> simp [hc, hs] at hb <;> omega

theorem distinct_iff : KeysNodup it ↔ Distinct it := by
  cases ht : it.tuple with
  | true => exact ⟨fun _ => .inl ht, fun _ => keys_tuple ht⟩
  | false =>
    rw [KeysNodup, keys_named ht, Distinct, ht]
    simp only [Bool.false_eq_true, false_or]
    constructor
    · exact fun h => by
        have := h
        rw [List.Nodup, List.pairwise_map] at this
        exact this.imp fun h e => h (by rw [e])
    · exact nodup_map fun a b h => by cases h; rfl

theorem setters_from (pre : String) : ∀ (l : List (Ident × PField)) (k : Nat),
    ((it.dfieldsFrom k l).flatMap fun d => d.m.aliasPrefixed (some pre) :: if d.isState it.state then [d.m.aliasPrefixed (some pre) ++ "_with"] else []) =
      (l.zipIdx k).flatMap fun e =>
        (pre ++ "_" ++ spoken it e.1.1 e.2) :: if inState it e.1.2 then [pre ++ "_" ++ spoken it e.1.1 e.2 ++ "_with"] else []
  | [], _ => rfl
  | (x, p) :: l, k => by
    have ha : (it.member x k).aliasPrefixed (some pre) = pre ++ "_" ++ spoken it x k := by
      cases ht : it.tuple <;> simp [Member.aliasPrefixed, Item.member, ht, spoken, String.append_assoc]
    have hs : (DField.mk (it.member x k) p).isState it.state = decide (inState it p) := by
      cases hs : it.state <;> simp [DField.isState, inState, hs]
    rw [Item.dfieldsFrom, List.flatMap_cons, setters_from pre l (k + 1), List.zipIdx_cons, List.flatMap_cons]
    simp only [ha, hs, decide_eq_true_eq]

theorem setterNames_eq (pre : String) : it.setterNames pre = setters it pre := setters_from pre it.fields 0

/-! ## The methods -/

theorem structCache_eq (h : KeysNodup it) : structCache it = some it.cache.isSome := by
  rw [structCache]
  cases hc : it.cacheMember with
  | none =>
    have : it.cache = none := by cases hn : it.cache <;> simp [Item.cacheMember, hn] at hc ⊢
    rw [this]; rfl
  | some f =>
    have : it.cache.isSome = true := by cases hn : it.cache <;> simp [Item.cacheMember, hn] at hc ⊢
    have hr : resolve it selfScope (f.fieldOther none false) = some (.mine .cache) := by
      show (slotOf it f.access).map Bind.mine = _
      rw [slotOf_cache h hc]; rfl
    simp only [hr, need_true, this, Option.bind_eq_bind, Option.bind_some]

theorem structCode_eq (h : KeysNodup it) (hl : LegalItem it) {pre : String} {setters : Bool}
    (hm : (pre :: if setters then it.setterNames "set" else []).Nodup) :
    structCode pre setters it = some (structDict it.state it.cache.isSome (it.fs.dict it.state)) := by
  have h1 : (it.dfields.mapM fun d => (d.sizer false).compile it (("size", .size) :: selfScope)) = _ := sizers_compile (sees_self h rfl) rfl
  have h2 : (it.dfields.mapM fun d => (d.serializer false).compile it (("writer", .writer) :: selfScope)) = _ := sers_compile (sees_self h rfl) rfl
  have h3 : compileMerger it (("reader", .reader) :: selfScope) (it.dfields.map (·.merger false)) = _ := merger_compile rfl (sees_self h rfl)
  have h4 : compileCtor it (if it.state then [("runtime", .runtime [])] else []) it.inits = some (ctorActs it []) :=
    ctor_compile h hl fun hs => by rw [hs]; rfl
  rw [structCode, need_true h, need_true hm, h1, h2, structCache_eq h, h3, h4]
  simp only [Option.bind_eq_bind, Option.bind_some, runSizes_fields it.state, runSer_fields it.state, runMerge_fields it.state, ctorActs_rt,
    ctorActs_fields]
  cases hs : it.state with
  | false =>
    have hr : it.runtimeMember = none := by simp [Item.runtimeMember, hs]
    rw [hr]
    rfl
  | true =>
    obtain ⟨f, hr⟩ : ∃ f, it.runtimeMember = some f := ⟨_, by rw [Item.runtimeMember, hs]; rfl⟩
    have h5 : resolve it selfScope (f.fieldOther none false) = some (.mine .rt) := by
      show (slotOf it f.access).map Bind.mine = _
      rw [slotOf_rt h hr]; rfl
    have h6 : compileRt it (("runtime", .runtime []) :: selfScope) (it.runtimeSetter false) = _ :=
      setter_compile (under := []) rfl (sees_self h rfl) hr h5
    have h7 : compileReplayer it false handleScope (it.dfields.map (·.replayer it.state false)) = _ :=
      replayer_compile rfl rfl (.inr ⟨rfl, rfl⟩) fun d hd _ => ⟨sees_self h rfl d hd, rfl, rfl⟩
    rw [hs] at h6 h7
    simp only [hr, need_true h5, h6, h7, Option.bind_some, runRt_fields, runHandle_fields]
    refine congrArg some ?_
    simp only [structDict, if_true]
    congr 1
    funext m v path kind key bs
    cases path with
    | nil => cases kind <;> rfl
    | cons tag path =>
      simp only [structHandle]
      cases (it.fs.dict true).handleField m tag v.fields path kind key bs <;> rfl

theorem structHash_eq (h : KeysNodup it) : structHash it = some fun v => it.fs.hash v.fields := by
  have h1 : (it.dfields.filterMap (·.hash false)).mapM (·.compile it (("state", .hasher) :: selfScope)) = _ := hashes_compile (sees_self h rfl) rfl
  simp only [structHash, need_true h, h1, runHash_fields, Option.bind_eq_bind, Option.bind_some]

theorem eqs_compile {Γ : Scope} {isVariant : Bool}
    (hs : ∀ d ∈ it.dfields, d.p.attrs.noEqHash = false → resolveSide it Γ (d.m.fieldOther none isVariant) = some (false, d.m.index) ∧
      resolveSide it Γ (d.m.fieldOther (some "other") isVariant) = some (true, d.m.index)) :
    (it.dfields.filterMap (·.eq isVariant)).mapM (·.compile it Γ) = some (eqActs it 0 it.fields) :=
  filterMap_mapM fun d hd => by
    by_cases hb : (!d.p.attrs.noEqHash) = true
    · right
      obtain ⟨h1, h2⟩ := hs d hd (by simpa using hb)
      exact ⟨_, ((false, d.m.index), (true, d.m.index)), by rw [DField.eq, if_pos hb], by
        simp only [EqStmt.compile, h1, h2, Option.bind_eq_bind, Option.bind_some], by rw [if_pos hb]⟩
    · left
      exact ⟨by rw [DField.eq, if_neg hb], by rw [if_neg hb]⟩

theorem structEq_eq (h : KeysNodup it) : structEq it = some fun v w => it.fs.eq v.fields w.fields := by
  have h1 : (it.dfields.filterMap (·.eq false)).mapM (·.compile it (("other", .other) :: selfScope)) = _ := eqs_compile fun d hd _ => by
    have := slotOf_field h hd
    constructor
    · show (match (slotOf it d.m.access).map Bind.mine with | some (.mine (.data i)) => _ | some (.others (.data i)) => _ | _ => _) = _
      rw [this]; rfl
    · show (match (slotOf it d.m.access).map Bind.others with | some (.mine (.data i)) => _ | some (.others (.data i)) => _ | _ => _) = _
      rw [this]; rfl
  simp only [structEq, need_true h, h1, runEq_fields, Option.bind_eq_bind, Option.bind_some]

end Steit.Derive
