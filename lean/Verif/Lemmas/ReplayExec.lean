import Verif.Model.ReplayExec

/-! # Nothing that replaying runs uses a logger -/

namespace Steit

theorem Exec.pure_bind {α β : Type} (a : α) (f : α → Exec β) : (Pure.pure a >>= f) = f a := rfl

/-- The transcription `x` of the methods `d` returns what `d` says without any action. -/
structure Silent {α : Type} (d : Dict α) (x : DictX α) : Prop where
  wire : x.wire = d.wire
  runtime : x.runtime = d.runtime
  dflt : x.dflt = pure d.dflt
  withRuntime : ∀ rt, x.withRuntime rt = pure (d.withRuntime rt)
  merge : ∀ m v bs, x.merge m v bs = pure (d.merge m v bs)
  isRoot : ∀ v, x.isRoot v = pure (d.isRoot v)
  handleUpdate : ∀ m v bs, x.handleUpdate m v bs = pure (d.handleUpdate m v bs)
  handle : ∀ m v path kind key bs, x.handle m v path kind key bs = pure (d.handle m v path kind key bs)

theorem withNestedX_eq {α : Type} (m : Mode) (v : α) (bs : Bytes) {body : Bytes → Exec (Res α)} {body' : Bytes → Res α}
    (h : ∀ bs, body bs = pure (body' bs)) : withNestedX m v bs body = pure (withNested m v bs body') := by
  unfold withNestedX withNested
  cases getVarint m 64 bs with
  | error e => rfl
  | ok p =>
    simp only [h, Exec.pure_bind]
    cases body' (p.2.take p.1.toNat) <;> rfl

theorem untilEofX_eq {α : Type} {step : α → Bytes → Exec (Res α)} {step' : α → Bytes → Res α}
    (h : ∀ v bs, step v bs = pure (step' v bs)) : ∀ (fuel : Nat) (v : α) (bs : Bytes),
    untilEofX step fuel v bs = pure (untilEof step' fuel v bs)
  | 0, v, [] => rfl
  | 0, v, _ :: _ => rfl
  | _ + 1, v, [] => rfl
  | fuel + 1, v, b :: bs => by
    simp only [untilEofX, untilEof, h, Exec.pure_bind]
    cases step' v (b :: bs) with
    | ok v' rest => exact untilEofX_eq h fuel v' rest
    | err v' e => rfl

section
variable {α : Type} {d : Dict α} {x : DictX α}

theorem Silent.mergeNested (h : Silent d x) (m : Mode) (v : α) (wt : WireType) (bs : Bytes) :
    x.mergeNested m v wt bs = pure (d.mergeNested m v wt bs) := by
  unfold DictX.mergeNested Dict.mergeNested
  rw [h.wire]
  split
  · cases skipField m wt bs <;> rfl
  · cases wt with
    | varint => exact h.merge m v bs
    | sized => exact withNestedX_eq m v bs (fun bs => h.merge m v bs)

theorem Silent.deserializeNested (h : Silent d x) (m : Mode) (wt : WireType) (bs : Bytes) :
    x.deserializeNested m wt bs = pure (d.deserializeNested m wt bs) := by
  unfold DictX.deserializeNested Dict.deserializeNested
  rw [h.dflt, Exec.pure_bind, h.mergeNested, Exec.pure_bind]
  cases d.mergeNested m d.dflt wt bs <;> rfl

end

theorem handleUpdateDefaultX_eq {α : Type} {runtime : α → Option Rt} {w : Rt → Exec α} {w' : Rt → α}
    {merge : Mode → α → Bytes → Exec (Res α)} {merge' : Mode → α → Bytes → Res α} (hw : ∀ rt, w rt = pure (w' rt))
    (hm : ∀ m v bs, merge m v bs = pure (merge' m v bs)) (m : Mode) (v : α) (bs : Bytes) :
    handleUpdateDefaultX runtime w merge m v bs = pure (handleUpdateDefault runtime w' merge' m v bs) := by
  unfold handleUpdateDefaultX handleUpdateDefault
  cases runtime v with
  | none => rfl
  | some rt => simp only [hw, Exec.pure_bind, hm]

theorem isRootDefaultX_eq {α : Type} (runtime : α → Option Rt) (v : α) :
    isRootDefaultX runtime v = pure (isRootDefault runtime v) := by
  unfold isRootDefaultX isRootDefault
  cases runtime v <;> rfl

theorem silent_prim {α : Type} [DecidableEq α] (size : α → Nat) (put : α → Bytes) (get : Mode → Bytes → Except Err (α × Bytes))
    (dflt : α) : Silent (primDict size put get dflt) (primX get dflt) := by
  have hm : ∀ m v bs, (primX get dflt).merge m v bs = pure ((primDict size put get dflt).merge m v bs) := by
    intro m v bs
    simp only [primX, primDict]
    cases get m bs <;> rfl
  refine ⟨rfl, rfl, rfl, fun _ => rfl, hm, fun _ => rfl, hm, fun m v path kind key bs => ?_⟩
  have := hm m v bs
  simp only [primX, primDict] at this ⊢
  split
  · split
    · exact this
    · rfl
  · rfl

theorem silent_plain {α : Type} (ser : SerD α) (om : Mode → Loc → α → Option Nat → Prog Bool) {dflt : Exec α} {dflt' : α}
    {merge : Mode → α → Bytes → Exec (Res α)} {merge' : Mode → α → Bytes → Res α} (hd : dflt = pure dflt')
    (hm : ∀ m v bs, merge m v bs = pure (merge' m v bs)) : Silent (plainDict ser om dflt' merge') (plainX dflt merge) :=
  ⟨rfl, rfl, hd, fun _ => hd, hm, fun _ => rfl, fun _ _ _ => rfl, fun _ _ _ _ _ _ => rfl⟩

theorem silent_string : Silent stringDict stringX := by
  refine silent_plain _ _ rfl fun m v bs => ?_
  split <;> rfl

theorem silent_bytes : Silent bytesDict bytesX := silent_plain _ _ rfl fun _ _ _ => rfl

section
variable {α : Type} {d : Dict α} {x : DictX α} (h : Silent d x)
include h

theorem silent_vec : Silent (vecDict d) (vecX x) := by
  refine silent_plain _ _ rfl fun m v bs => ?_
  refine untilEofX_eq (fun v bs => ?_) _ _ _
  unfold vecStepX vecStep
  rw [h.deserializeNested, h.wire, Exec.pure_bind]
  cases d.deserializeNested m d.wire bs <;> rfl

theorem arrayLoopX_eq (m : Mode) : ∀ (todo done : List α) (bs : Bytes),
    arrayLoopX x m done todo bs = pure (arrayLoop d m done todo bs)
  | [], _, _ => by simp only [arrayLoopX, arrayLoop]
  | _ :: _, _, [] => by simp only [arrayLoopX, arrayLoop]
  | t :: todo, done, b :: bs => by
    simp only [arrayLoopX, arrayLoop]
    rw [h.deserializeNested, h.wire, Exec.pure_bind]
    cases d.deserializeNested m d.wire (b :: bs) with
    | error e => rfl
    | ok p =>
      simp only
      rw [arrayLoopX_eq m todo, Exec.pure_bind]

theorem replicateX_eq : ∀ n, replicateX x.dflt n = pure ⟨List.replicate n d.dflt, by simp⟩
  | 0 => rfl
  | n + 1 => by
    rw [replicateX, h.dflt, Exec.pure_bind, ← h.dflt, replicateX_eq n, Exec.pure_bind]
    rfl

theorem silent_array (n : Nat) : Silent (arrayDict n d) (arrayX n x) := by
  refine silent_plain _ _ (replicateX_eq h n) fun m v bs => ?_
  rw [arrayLoopX_eq h, Exec.pure_bind]
  cases arrayLoop d m [] v.1 bs <;> rfl

theorem silent_option : Silent (optionDict d) (optionX x) := by
  refine silent_plain _ _ rfl fun m v bs => ?_
  refine untilEofX_eq (fun o bs => ?_) _ _ _
  unfold optionStepX optionStep
  cases o with
  | none =>
    simp only [h.dflt, Exec.pure_bind, h.mergeNested, h.wire]
    rfl
  | some v =>
    simp only [Exec.pure_bind, h.mergeNested, h.wire]
    rfl

theorem silent_box : Silent (boxDict d) (boxX x) := by
  refine ⟨h.wire, h.runtime, h.dflt, h.withRuntime, h.merge, fun v => ?_, fun m v bs => ?_, h.handle⟩
  · simp only [boxX, boxDict, h.runtime]
    exact isRootDefaultX_eq _ _
  · simp only [boxX, boxDict, h.runtime]
    exact handleUpdateDefaultX_eq h.withRuntime h.merge m v bs

end

/-- The same for the components of a tuple. -/
structure SilentTuple {α : Type} (t : TupleD α) (x : TupleX α) : Prop where
  dflt : x.dflt = pure t.dflt
  read : ∀ m bs, x.read m bs = pure (t.read m bs)

theorem silent_tupleNil : SilentTuple tupleNil tupleNilX := ⟨rfl, fun _ _ => rfl⟩

theorem silent_tupleCons {α β : Type} {d : Dict α} {x : DictX α} {t : TupleD β} {y : TupleX β} (h : Silent d x)
    (ht : SilentTuple t y) : SilentTuple (tupleCons d t) (tupleConsX x y) := by
  refine ⟨?_, fun m bs => ?_⟩
  · simp only [tupleConsX, h.dflt, ht.dflt, Exec.pure_bind]
    rfl
  · simp only [tupleConsX, tupleCons]
    rw [h.deserializeNested, h.wire, Exec.pure_bind]
    cases d.deserializeNested m d.wire bs with
    | error e => rfl
    | ok p =>
      simp only [ht.read, Exec.pure_bind]
      cases t.read m p.2 <;> rfl

theorem silent_tuple {α : Type} {t : TupleD α} {x : TupleX α} (h : SilentTuple t x) : Silent (tupleDict t) (tupleX x) := by
  refine silent_plain _ _ h.dflt fun m v bs => ?_
  rw [h.read, Exec.pure_bind]
  cases t.read m bs <;> rfl

theorem silent_hashMap {κ ν : Type} (eq : κ → κ → Bool) {dk : Dict κ} {xk : DictX κ} {dv : Dict ν} {xv : DictX ν}
    (hk : Silent dk xk) (hv : Silent dv xv) : Silent (hashMapDict eq dk dv) (hashMapX eq xk xv) := by
  refine silent_plain _ _ rfl fun m v bs => ?_
  refine untilEofX_eq (fun es bs => ?_) _ _ _
  unfold hashMapStepX hashMapStep
  rw [hk.deserializeNested, hk.wire, Exec.pure_bind]
  cases dk.deserializeNested m dk.wire bs with
  | error e => rfl
  | ok p =>
    simp only
    rw [hv.deserializeNested, hv.wire, Exec.pure_bind]
    cases dv.deserializeNested m dv.wire p.2 <;> rfl

section
variable {α : Type} {d : Dict α} {x : DictX α} (h : Silent d x)
include h

theorem listMergeX_eq (m : Mode) (l : ListV α) (bs : Bytes) : listMergeX x m l bs = pure (listMerge d m l bs) := by
  refine untilEofX_eq (fun l bs => ?_) _ _ _
  simp only [listStepX, listStep, h.withRuntime, Exec.pure_bind, h.mergeNested, h.wire]
  cases d.mergeNested m (d.withRuntime (l.rt.nested (fieldNo l.items.length))) d.wire bs <;> rfl

theorem listHandleX_eq (m : Mode) (l : ListV α) (path : List U32) (kind : LogKind) (key : Option U32) (bs : Bytes) :
    listHandleX x m l path kind key bs = pure (listHandle d m l path kind key bs) := by
  unfold listHandleX listHandle
  cases path with
  | cons n path =>
    simp only
    cases l.items[n.toNat]? with
    | none => rfl
    | some item => simp only [h.handle, Exec.pure_bind]
  | nil =>
    cases kind with
    | update => exact listMergeX_eq h m _ bs
    | listPush =>
      simp only [h.withRuntime, Exec.pure_bind, h.merge]
      cases d.merge m (d.withRuntime (l.rt.nested (fieldNo l.items.length))) bs <;> rfl
    | listPop =>
      simp only
      split <;> rfl
    | mapRemove => rfl

theorem silent_list : Silent (listDict d) (listX x) :=
  ⟨rfl, rfl, rfl, fun _ => rfl, listMergeX_eq h, fun v => isRootDefaultX_eq (fun l : ListV α => some l.rt) v,
    fun m v bs => handleUpdateDefaultX_eq (runtime := fun l : ListV α => some l.rt) (w' := fun rt => ⟨rt, []⟩) (fun _ => rfl)
      (listMergeX_eq h) m v bs, listHandleX_eq h⟩

theorem mapMergeX_eq (kt : KeyTy) (m : Mode) (v : MapV α) (bs : Bytes) : mapMergeX kt x m v bs = pure (mapMerge kt d m v bs) := by
  refine untilEofX_eq (fun v bs => ?_) _ _ _
  unfold mapStepX mapStep
  cases readMapKey m kt bs with
  | error e => rfl
  | ok p =>
    simp only
    cases entriesGet p.1 v.entries with
    | some y => simp only [h.mergeNested, h.wire, Exec.pure_bind]
    | none =>
      simp only [h.withRuntime, h.mergeNested, h.wire, Exec.pure_bind]
      cases d.mergeNested m (d.withRuntime (v.rt.nested p.1)) d.wire p.2 <;> rfl

theorem mapHandleX_eq (kt : KeyTy) (m : Mode) (v : MapV α) (path : List U32) (kind : LogKind) (key : Option U32) (bs : Bytes) :
    mapHandleX kt x m v path kind key bs = pure (mapHandle kt d m v path kind key bs) := by
  unfold mapHandleX mapHandle
  cases path with
  | cons n path =>
    simp only
    cases entriesGet n v.entries with
    | some y => simp only [h.handle, Exec.pure_bind]
    | none =>
      simp only
      split
      · simp only [h.withRuntime, Exec.pure_bind, h.merge]
        cases d.merge m (d.withRuntime (v.rt.nested n)) bs <;> rfl
      · rfl
  | nil =>
    cases kind with
    | update => exact mapMergeX_eq h kt m _ bs
    | mapRemove =>
      cases key with
      | none => rfl
      | some k =>
        simp only
        cases entriesGet k v.entries <;> rfl
    | listPush => rfl
    | listPop => rfl

theorem silent_map (kt : KeyTy) : Silent (mapDict kt d) (mapX kt x) :=
  ⟨rfl, rfl, rfl, fun _ => rfl, mapMergeX_eq h kt, fun v => isRootDefaultX_eq (fun v : MapV α => some v.rt) v,
    fun m v bs => handleUpdateDefaultX_eq (runtime := fun v : MapV α => some v.rt) (w' := fun rt => ⟨rt, []⟩) (fun _ => rfl)
      (mapMergeX_eq h kt) m v bs, mapHandleX_eq h kt⟩

end

/-- The same for the fields of a message. -/
structure SilentFields {β : Type} (fs : FieldsD β) (x : FieldsX β) : Prop where
  init : ∀ rt, x.init rt = pure (fs.init rt)
  mergeField : ∀ m n wt v bs, x.mergeField m n wt v bs = (fs.mergeField m n wt v bs).map pure
  handleField : ∀ m n v path kind key bs, x.handleField m n v path kind key bs = (fs.handleField m n v path kind key bs).map pure

theorem silent_fieldsNil : SilentFields fieldsNil fieldsNilX := ⟨fun _ => rfl, fun _ _ _ _ _ => rfl, fun _ _ _ _ _ _ _ => rfl⟩

theorem silent_fieldsCons {α β : Type} (deriveState : Bool) (tag : U32) (attrs : FieldAttrs) {d : Dict α} {x : DictX α}
    {fs : FieldsD β} {y : FieldsX β} (h : Silent d x) (hf : SilentFields fs y) :
    SilentFields (fieldsCons deriveState tag attrs d fs) (fieldsConsX deriveState tag attrs x y) := by
  refine ⟨fun rt => ?_, fun m n wt v bs => ?_, fun m n v path kind key bs => ?_⟩
  · simp only [fieldsConsX, fieldsCons]
    cases rt with
    | none => simp only [h.dflt, Exec.pure_bind, hf.init]
    | some rt =>
      cases deriveState && !attrs.noState with
      | false => simp only [h.dflt, Exec.pure_bind, hf.init]
      | true => simp only [h.withRuntime, Exec.pure_bind, hf.init]
  · simp only [fieldsConsX, fieldsCons]
    split
    · simp only [h.mergeNested, Exec.pure_bind, Option.map_some]
    · rw [hf.mergeField]
      cases fs.mergeField m n wt v.2 bs <;> rfl
  · simp only [fieldsConsX, fieldsCons]
    split
    · simp only [Option.map_some]
      split
      · simp only [h.handle, Exec.pure_bind]
      · rfl
    · rw [hf.handleField]
      cases fs.handleField m n v.2 path kind key bs <;> rfl

section
variable {β : Type} {fs : FieldsD β} {x : FieldsX β} (h : SilentFields fs x)
include h

theorem SilentFields.merge (m : Mode) (v : β) (bs : Bytes) : x.merge m v bs = pure (fs.merge m v bs) := by
  refine untilEofX_eq (fun v bs => ?_) _ _ _
  unfold FieldsX.mergeStep FieldsD.mergeStep
  cases readTag m bs with
  | error e => rfl
  | ok p =>
    simp only [h.mergeField]
    cases fs.mergeField m p.1.1 p.1.2 v p.2 with
    | some r => rfl
    | none =>
      simp only [Option.map_none]
      cases skipField m p.1.2 p.2 <;> rfl

theorem structHandleX_eq (m : Mode) (v : StructV β) (path : List U32) (kind : LogKind) (key : Option U32) (bs : Bytes) :
    structHandleX x m v path kind key bs = pure (structHandle fs m v path kind key bs) := by
  unfold structHandleX structHandle
  cases path with
  | cons n path =>
    simp only [h.handleField]
    cases fs.handleField m n v.fields path kind key bs <;> rfl
  | nil =>
    cases kind with
    | update => simp only [h.init, Exec.pure_bind, h.merge]
    | _ => rfl

theorem silent_struct (deriveState cached : Bool) : Silent (structDict deriveState cached fs) (structX deriveState x) := by
  have hm : ∀ m (v : StructV β) bs, (do
      let r ← x.merge m v.fields bs
      pure (r.map (fun fields => { v with fields })) : Exec (Res (StructV β))) =
      pure ((fs.merge m v.fields bs).map (fun fields => { v with fields })) := by
    intro m v bs
    rw [h.merge, Exec.pure_bind]
  have hw : ∀ rt : Rt, (do
      let fields ← x.init (some rt)
      pure ⟨rt, fields⟩ : Exec (StructV β)) = pure ⟨rt, fs.init (some rt)⟩ := by
    intro rt
    rw [h.init, Exec.pure_bind]
  cases deriveState with
  | true =>
    exact ⟨rfl, rfl, hw Rt.dflt, hw, hm, fun v => isRootDefaultX_eq (fun v : StructV β => some v.rt) v,
      fun m v bs => handleUpdateDefaultX_eq (runtime := fun v : StructV β => some v.rt) hw hm m v bs, structHandleX_eq h⟩
  | false =>
    refine silent_plain _ _ ?_ hm
    rw [h.init, Exec.pure_bind]

theorem variantHandleX_eq (m : Mode) (v : β) (path : List U32) (kind : LogKind) (key : Option U32) (bs : Bytes) :
    variantHandleX x m v path kind key bs = pure (variantHandle fs m v path kind key bs) := by
  unfold variantHandleX variantHandle
  cases path with
  | cons n path =>
    simp only [h.handleField]
    cases fs.handleField m n v path kind key bs <;> rfl
  | nil => rfl

end

/-- The same for the variants of an enum. -/
structure SilentVariants {γ : Type} (vs : VariantsD γ) (x : VariantsX γ) : Prop where
  tagOf : x.tagOf = vs.tagOf
  ctor : ∀ tag rt, x.ctor tag rt = (vs.ctor tag rt).map pure
  mergeFields : ∀ m v bs, x.mergeFields m v bs = pure (vs.mergeFields m v bs)
  handleFields : ∀ m v path kind key bs, x.handleFields m v path kind key bs = pure (vs.handleFields m v path kind key bs)

theorem silent_variantsNil : SilentVariants variantsNil variantsNilX :=
  ⟨rfl, fun _ _ => rfl, fun _ => nofun, fun _ => nofun⟩

theorem silent_variantsCons {β γ : Type} (tag : U32) (cached : Bool) {fs : FieldsD β} {x : FieldsX β} {vs : VariantsD γ}
    {y : VariantsX γ} (hf : SilentFields fs x) (hv : SilentVariants vs y) :
    SilentVariants (variantsCons tag cached fs vs) (variantsConsX tag x y) := by
  refine ⟨?_, fun tag' rt => ?_, fun m v bs => ?_, fun m v path kind key bs => ?_⟩
  · funext v
    cases v with
    | inl v => rfl
    | inr v => exact congrFun hv.tagOf v
  · simp only [variantsConsX, variantsCons]
    split
    · rw [hf.init]; rfl
    · rw [hv.ctor]
      cases vs.ctor tag' rt <;> rfl
  · cases v with
    | inl v => simp only [variantsConsX, variantsCons, hf.merge, Exec.pure_bind]
    | inr v => simp only [variantsConsX, variantsCons, hv.mergeFields, Exec.pure_bind]
  · cases v with
    | inl v => simp only [variantsConsX, variantsCons, variantHandleX_eq hf, Exec.pure_bind]
    | inr v => simp only [variantsConsX, variantsCons, hv.handleFields, Exec.pure_bind]

section
variable {γ : Type} {vs : VariantsD γ} {x : VariantsX γ} (h : SilentVariants vs x)
include h

theorem enumMergeX_eq (deriveState : Bool) (m : Mode) (v : EnumV γ) (bs : Bytes) :
    enumMergeX deriveState x m v bs = pure (enumMerge deriveState vs m v bs) := by
  unfold enumMergeX enumMerge
  cases getVarint m 32 bs with
  | error e => rfl
  | ok p =>
    simp only [h.tagOf]
    split
    · rw [h.mergeFields, Exec.pure_bind]
    · cases deriveState with
      | true =>
        simp only [if_true]
        cases v.rt.parent with
        | error e =>
          simp only [h.ctor]
          cases vs.ctor p.1 none <;> rfl
        | ok parent =>
          simp only [h.ctor]
          cases vs.ctor p.1 (some (parent.nested p.1)) with
          | none => rfl
          | some val => simp only [Option.map_some, Exec.pure_bind, h.mergeFields]
      | false =>
        simp only [Bool.false_eq_true, if_false, h.ctor]
        cases vs.ctor p.1 none with
        | none => rfl
        | some val => simp only [Option.map_some, Exec.pure_bind, h.mergeFields]

theorem silent_enum (deriveState : Bool) {dfltVal : Option Rt → γ} {dfltX : Option Rt → Exec γ}
    (hd : ∀ rt, dfltX rt = pure (dfltVal rt)) : Silent (enumDict deriveState vs dfltVal) (enumX deriveState x dfltX) := by
  have hu : ∀ m v bs, enumHandleUpdateX x dfltX m v bs = pure (enumHandleUpdate vs dfltVal m v bs) := by
    intro m v bs
    unfold enumHandleUpdateX enumHandleUpdate
    cases v.rt.parent with
    | error e => rfl
    | ok parent => simp only [hd, Exec.pure_bind, enumMergeX_eq h]
  cases deriveState with
  | true =>
    refine ⟨rfl, rfl, ?_, fun rt => ?_, enumMergeX_eq h true, fun _ => rfl, hu, fun m v path kind key bs => ?_⟩
    · simp only [enumX, if_true, hd, Exec.pure_bind]; rfl
    · simp only [enumX, if_true, hd, Exec.pure_bind]; rfl
    · simp only [enumX, enumDict, if_true]
      unfold enumHandleX enumHandle
      cases path with
      | cons n path =>
        simp only [h.tagOf]
        split
        · rw [h.handleFields, Exec.pure_bind]
        · rfl
      | nil =>
        simp only
        split
        · exact hu m v bs
        · rfl
  | false =>
    refine silent_plain _ _ ?_ (enumMergeX_eq h false)
    rw [hd, Exec.pure_bind]

end

mutual
/-- No method of any type that replaying runs uses a logger. -/
theorem silent : ∀ t : Ty, Silent t.dict t.dictX
  | .uint _ => silent_prim _ _ _ _
  | .sint _ => silent_prim _ _ _ _
  | .bool => silent_prim _ _ _ _
  | .string => silent_string
  | .bytes => silent_bytes
  | .vec t => silent_vec (silent t)
  | .array n t => silent_array (silent t) n
  | .tuple ts => silent_tuple (silentTys ts)
  | .option t => silent_option (silent t)
  | .box t => silent_box (silent t)
  | .hashMap k v => silent_hashMap k.eq (silent k) (silent v)
  | .list t => silent_list (silent t)
  | .map kt t => silent_map (silent t) kt
  | .struct deriveState cached fs => silent_struct (silentFields fs deriveState) deriveState cached
  | .enum deriveState cached fs vs => by
    refine silent_enum (silent_variantsCons 0#32 cached (silentFields fs deriveState) (silentVariants vs deriveState)) deriveState
      fun rt => ?_
    rw [(silentFields fs deriveState).init, Exec.pure_bind]

theorem silentTys : ∀ ts : Tys, SilentTuple ts.dict ts.dictX
  | .nil => silent_tupleNil
  | .cons t ts => silent_tupleCons (silent t) (silentTys ts)

theorem silentFields : ∀ (fs : Fields) (deriveState : Bool), SilentFields (fs.dict deriveState) (fs.dictX deriveState)
  | .nil, _ => silent_fieldsNil
  | .cons tag attrs t fs, deriveState => silent_fieldsCons deriveState tag attrs (silent t) (silentFields fs deriveState)

theorem silentVariants : ∀ (vs : Variants) (deriveState : Bool), SilentVariants (vs.dict deriveState) (vs.dictX deriveState)
  | .nil, _ => silent_variantsNil
  | .cons tag cached fs vs, deriveState =>
    silent_variantsCons tag cached (silentFields fs deriveState) (silentVariants vs deriveState)
end

/-- `State::replay` uses no logger. -/
theorem replayX_eq {α : Type} {d : Dict α} {x : DictX α} (h : Silent d x) (m : Mode) (v : α) (bs : Bytes) :
    replayX x m v bs = pure (replay d m v bs) := by
  unfold replayX replay
  rw [h.isRoot, Exec.pure_bind]
  cases d.isRoot v with
  | error e => rfl
  | ok r =>
    cases r with
    | false => rfl
    | true =>
      refine untilEofX_eq (fun v bs => ?_) _ _ _
      unfold replayStepX replayStep
      rw [(silent logEntryTy).deserializeNested, (silent logEntryTy).wire, Exec.pure_bind]
      cases logEntryTy.dict.deserializeNested m logEntryTy.dict.wire bs with
      | error e => rfl
      | ok p =>
        simp only [applyEntryX, applyEntry, h.handle, Exec.pure_bind]
        generalize d.handle m v (Entry.ofEl p.1).unpack.2.1 (Entry.ofEl p.1).unpack.1 (Entry.ofEl p.1).unpack.2.2.1
          ((Entry.ofEl p.1).unpack.2.2.2.getD []) = r
        cases r <;> rfl

end Steit
