import Verif.Lemmas.AttemptFail

/-! # Failed calls that leave the object as it was -/

namespace Steit
open Spec

/-- A call that fails changes nothing, unless it is one that switches a variant. -/
def Keeps (t : Ty) : Prop :=
  ∀ m op v rt (w : Fallible) v' w', At t rt v → Carried t v → OpAddr t op v → OpSync t op v → ¬ Switches t op v →
    t.attempt m op v w = (⟨true, v'⟩, w') → v' = v

section list
variable {t : Ty}

theorem keeps_swapRemove (ht : (Ty.list t).WF) {m : Mode} {i : Nat} {v v' : (Ty.list t).El} {rt : Rt} {w w' : Fallible}
    (hv : At (.list t) rt v) (hc : Carried (.list t) v) (ha : shape t = .enum → v.items.length ≤ i + 1)
    (ho : i + 1 < v.items.length → i < 2 ^ 32 ∧ ∀ x, v.items.getLast? = some x → (encode t x).length < 2 ^ 32)
    (h : attemptSwapRemove t.dict m v i w = (⟨true, v'⟩, w')) :
    v' = v := by
  unfold attemptSwapRemove at h
  cases hr : v.items[i]? with
  | none => rw [hr] at h; cases h
  | some removed =>
    cases hla : v.items.getLast? with
    | none => rw [hr, hla] at h; cases h
    | some last =>
      rw [hr, hla] at h
      simp only at h
      by_cases hi : i + 1 = v.items.length
      · rw [if_pos hi] at h
        exact (fails_pop hv h).1
      · rw [if_neg hi] at h
        have hi0 : i < v.items.length := by
          obtain ⟨hi0, _⟩ := List.getElem?_eq_some_iff.1 hr
          exact hi0
        have hlt : i + 1 < v.items.length := by omega
        obtain ⟨_, hsmall⟩ := ho hlt
        have hsend : Sendable t last := ⟨hc _ (List.mem_of_getLast? hla), hsmall _ hla⟩
        obtain ⟨w1, h1, _⟩ := toBytesNow_run ht.2 m hsend w.world
        refine logThen_keeps (a := encode t last) (w1 := w1) h1 ?_ h
        by_cases hw : t.dict.wire = .sized
        · have hat := runtime_at t ht.1 _ removed (hv.2 i removed hr)
          have hpl : t.dict.runtime removed = some (rt.nested (fieldNo i)) := by
            cases hsh : shape t with
            | prim => exact absurd hsh ((wire_shape t ht.1).1 hw)
            | plain => rw [hsh] at hat; exact hat
            | enum => have := ha hsh; omega
          simp only [if_pos hw, hpl, Rt.sibling_nested]
        · simp only [if_neg hw]

theorem keeps_list (ht : (Ty.list t).WF) (ih : Keeps t) : Keeps (.list t) := by
  intro m op v rt w v' w' hv hc ha ho hn h
  cases op with
  | item i op =>
    simp only [Ty.attempt, attemptList] at h
    cases hx : v.items[i]? with
    | none => rw [hx] at h; cases h
    | some x =>
      rw [hx] at h
      obtain ⟨x', h1, rfl⟩ := inside_true h
      obtain ⟨hi, ho⟩ := ho x hx
      cases ih m op x (rt.nested (fieldNo i)) w x' w' (hv.2 i x hx) (hc x (List.mem_of_getElem? hx)) (ha x hx) ho
        (fun hs => hn ⟨x, hx, hs⟩) h1
      obtain ⟨hlt, rfl⟩ := List.getElem?_eq_some_iff.1 hx
      rw [List.set_getElem_self]
  | push x =>
    refine (fails_pushWith (f := fun runtime => pure (t.dict.setRuntime runtime x)) (m := m) (w := w) (w' := w') ht hv
      (fun w _ => ⟨_, w, rfl, sendable_same (strip_setRuntime t _ _) ho, rfl⟩) ?_).1
    simpa only [Ty.attempt, attemptList] using h
  | pushWith f => exact (fails_pushWith ht hv (closure_run ho rt _) (by simpa only [Ty.attempt, attemptList] using h)).1
  | pop => exact (fails_pop hv (by simpa only [Ty.attempt, attemptList] using h)).1
  | swapRemove i => exact keeps_swapRemove ht hv hc ha ho (by simpa only [Ty.attempt, attemptList] using h)

end list

theorem keeps_map {t : Ty} {kt : KeyTy} (ht : (Ty.map kt t).WF) (ih : Keeps t) : Keeps (.map kt t) := by
  intro m op v rt w v' w' hv hc ha ho hn h
  have hlog : v.rt = rt := hv.1
  cases op with
  | value k op =>
    simp only [Ty.attempt, attemptMap] at h
    cases hx : entriesGet k v.entries with
    | none => rw [hx] at h; cases h
    | some x =>
      rw [hx] at h
      obtain ⟨x', h1, rfl⟩ := inside_true h
      have hm := entriesGet_mem hx
      cases ih m op x (rt.nested k) w x' w' (hv.2.2 _ hm) (hc.1 _ hm).2.2 (ha _ hm rfl) (ho _ hm rfl)
        (fun hs => hn ⟨_, hm, rfl, hs⟩) h1
      rw [entriesInsert_same hx]
  | insert k x =>
    obtain ⟨w1, h1, hw1⟩ := toBytesNow_run ht.2 m ho.2.2 w.world
    simp only [Ty.attempt, attemptMap] at h
    exact logThen_keeps (w1 := w1) h1 rfl h
  | insertWith k f =>
    obtain ⟨x, w1, hx, hw1, hrun, _⟩ := paused_run rt k w.world
      (fun x => do
        let bytes ← toBytesNow t.dict m x
        pure (x, bytes)) (closure_run ho.2.2 rt k)
    obtain ⟨w2, h2, hw2⟩ := toBytesNow_run ht.2 m hx w1
    simp only [Ty.attempt, attemptMap] at h
    rw [hlog] at h
    refine logThen_keeps (a := (x, encode t x)) (w1 := w2) ?_ rfl h
    rw [hrun, Exec.bind_of h2]
    rfl
  | remove k =>
    simp only [Ty.attempt, attemptMap] at h
    exact logThen_keeps (a := ()) (w1 := w.world) rfl rfl h

/-- As `Keeps`, for fields. -/
def KeepsFields (fs : Fields) : Prop :=
  ∀ m op v rt (w : Fallible) v' w', AtFields fs true rt v → CarriedFields fs v → OpAddrFields fs op v → OpSyncFields fs op v →
    ¬ SwitchesFields fs op v → fs.attempt m rt op v w = (⟨true, v'⟩, w') → v' = v

theorem keeps_fields_cons {tag : U32} {attrs : FieldAttrs} {t : Ty} {fs : Fields} (hf : (Fields.cons tag attrs t fs).WF true)
    (iht : Keeps t) (ihf : KeepsFields fs) : KeepsFields (.cons tag attrs t fs) := by
  intro m op v rt w v' w' hv hc ha ho hn h
  rcases op with op | op
  · obtain ⟨hno, ho⟩ := ho
    have hat : At t (rt.nested tag) v.1 := by
      have := hv.1
      simpa [hno] using this
    simp only [Fields.attempt] at h
    obtain ⟨x', h1, rfl⟩ := inside_true h
    suffices x' = v.1 by rw [this]
    cases op with
    | inner op => exact iht m op v.1 (rt.nested tag) w x' w' hat hc.1 ha ho hn h1
    | set x =>
      simp only [attemptField, hno, Bool.not_false, if_true] at h1
      obtain ⟨w1, h2, hw1⟩ := toBytesNow_run hf.2.2.1 m
        (sendable_same (strip_setRuntime t (rt.nested tag) x) ho) w.world
      exact logThen_keeps (w1 := w1) h2 rfl h1
    | setWith f =>
      simp only [attemptField, hno, Bool.not_false, if_true] at h1
      obtain ⟨x, w1, hx, hw1, hrun, _⟩ := paused_run rt tag w.world
        (fun x => do
          let bytes ← toBytesNow t.dict m x
          pure (x, bytes)) (closure_run ho rt tag)
      obtain ⟨w2, h2, hw2⟩ := toBytesNow_run hf.2.2.1 m hx w1
      refine logThen_keeps (a := (x, encode t x)) (w1 := w2) ?_ rfl h1
      rw [hrun, Exec.bind_of h2]
      rfl
  · simp only [Fields.attempt] at h
    obtain ⟨y', h1, rfl⟩ := inside_true h
    rw [ihf m op v.2 rt w y' w' hv.2 hc.2 ha ho hn h1]

/-- As `Keeps`, for variants. -/
def KeepsVariants (vs : Variants) : Prop :=
  ∀ m op v rt (w : Fallible) v' w', VarAt vs true rt v → CarriedVariant vs v → OpAddrVariant vs op v → OpSyncVariant vs op v →
    ¬ SwitchesVariant vs op v → vs.attempt m (rt.nested ((vs.dict true).tagOf v)) op v w = (⟨true, v'⟩, w') → v' = v

theorem keeps_variants_cons {tag : U32} {cached : Bool} {fs : Fields} {vs : Variants} (ihf : KeepsFields fs)
    (ihv : KeepsVariants vs) : KeepsVariants (.cons tag cached fs vs) := by
  intro m op v rt w v' w' hv hc ha ho hn h
  rcases op with op | op <;> rcases v with v | v
  · simp only [Variants.attempt] at h
    obtain ⟨x', h1, rfl⟩ := inside_true h
    rw [ihf m op v (rt.nested tag) w x' w' hv hc ha ho hn h1]
  · simp only [Variants.attempt] at h
    cases h
  · simp only [Variants.attempt] at h
    cases h
  · simp only [Variants.attempt] at h
    obtain ⟨x', h1, rfl⟩ := inside_true h
    rw [ihv m op v rt w x' w' hv hc ha ho hn h1]

theorem stays : (vs : Variants) → ∀ op v, vs.isSet op = true → ¬ SwitchesVariant vs op v →
    (vs.dict true).tagOf v = vs.opTag op
  | .nil, op, _, _, _ => nomatch op
  | .cons _ _ _ _, .inl _, .inl _, _, _ => rfl
  | .cons _ _ _ _, .inl _, .inr _, hs, h => absurd hs h
  | .cons _ _ _ _, .inr _, .inl _, hs, h => absurd hs h
  | .cons _ _ _ vs, .inr op, .inr x, hs, h => stays vs op x hs h

theorem switches_enum (cached : Bool) (fs : Fields) (vs : Variants) (op : (Ty.enum true cached fs vs).Op)
    (v : (Ty.enum true cached fs vs).El) :
    Switches (.enum true cached fs vs) op v ↔ SwitchesVariant (allVariants cached fs vs) op v.val := by
  rcases v with ⟨_, x | x⟩ <;> rcases op with op | op <;> exact Iff.rfl

theorem keeps_enum {cached : Bool} {fs : Fields} {vs : Variants} (ih : KeepsVariants (allVariants cached fs vs)) :
    Keeps (.enum true cached fs vs) := by
  intro m op v rt w v' w' hv hc ha ho hn h
  rw [opAddr_enum] at ha
  rw [opSync_enum] at ho
  rw [switches_enum] at hn
  rw [enum_attempt_eq] at h
  unfold attemptEnum Attempt.andThen at h
  rw [if_neg (fun hcond => hcond.1 (stays _ _ _ hcond.2 hn))] at h
  obtain ⟨x', h1, rfl⟩ := inside_true h
  rw [at_enum_iff] at hv
  rw [carried_enum] at hc
  rw [hv.1] at h1
  rw [ih m op v.val rt w x' w' hv.2 hc ha ho.2 hn h1]

mutual
theorem keeps : (t : Ty) → t.WF → Keeps t
  | .uint _, _ => fun _ op => nomatch op
  | .sint _, _ => fun _ op => nomatch op
  | .bool, _ => fun _ op => nomatch op
  | .string, _ => fun _ op => nomatch op
  | .bytes, _ => fun _ op => nomatch op
  | .vec _, _ => fun _ op => nomatch op
  | .array _ _, _ => fun _ op => nomatch op
  | .tuple _, _ => fun _ op => nomatch op
  | .option _, _ => fun _ op => nomatch op
  | .hashMap _ _, _ => fun _ op => nomatch op
  | .struct false _ _, _ => fun _ op => nomatch op
  | .enum false _ _ _, _ => fun _ op => nomatch op
  | .box t, ht => keeps t ht
  | .list t, ht => keeps_list ht (keeps t ht.2)
  | .map _ t, ht => keeps_map ht (keeps t ht.2)
  | .struct true _ fs, ht => by
    intro m op v rt w v' w' hv hc ha ho hn h
    simp only [Ty.attempt] at h
    obtain ⟨x', h1, rfl⟩ := inside_true h
    rw [hv.1 rfl] at h1
    rw [keeps_fields fs ht.2 m op v.fields rt w x' w' hv.2 hc ha ho hn h1]
  | .enum true _ fs vs, ht => keeps_enum (keeps_variants_cons (keeps_fields fs ht.2.1) (keeps_variants vs ht.2.2.2.2))

theorem keeps_fields : (fs : Fields) → fs.WF true → KeepsFields fs
  | .nil, _ => fun _ op => nomatch op
  | .cons _ _ t fs, hf => keeps_fields_cons hf (keeps t hf.2.2.1) (keeps_fields fs hf.2.2.2)

theorem keeps_variants : (vs : Variants) → vs.WF true → KeepsVariants vs
  | .nil, _ => fun _ op => nomatch op
  | .cons _ _ fs vs, hv => keeps_variants_cons (keeps_fields fs hv.2.2.1) (keeps_variants vs hv.2.2.2)
end

/-! ### Poisoned mutexes -/

/-- The attempt has changed nothing at all. -/
def Frozen {σ : Type} (x : Attempt σ) (v : σ) (w : Fallible) : Prop := (x w).1.self = v ∧ (x w).2 = w

theorem Frozen.idle {σ : Type} (v : σ) (w : Fallible) : Frozen (idle v) v w := ⟨rfl, rfl⟩

theorem Frozen.inside {σ τ : Type} {x : Attempt σ} {v : σ} {w : Fallible} {put : σ → τ} {u : τ} (h : Frozen x v w)
    (hu : put v = u) : Frozen (x.inside put) u w := by
  obtain ⟨h1, h2⟩ := h
  cases hx : x w with
  | mk r w1 =>
    rw [hx] at h1 h2
    have : x.inside put w = (⟨r.panicked, put r.self⟩, w1) := by
      unfold Attempt.inside
      rw [hx]
    unfold Frozen
    rw [this]
    exact ⟨by rw [← hu, ← h1], h2⟩

theorem Frozen.andThen {σ : Type} {x : Attempt σ} {v : σ} {w : Fallible} {next : σ → Attempt σ} (h : Frozen x v w)
    (h' : Frozen (next v) v w) : Frozen (x.andThen next) v w := by
  obtain ⟨h1, h2⟩ := h
  cases hx : x w with
  | mk r w1 =>
    obtain ⟨p, u⟩ := r
    rw [hx] at h1 h2
    simp only at h1 h2
    subst h1 h2
    cases p with
    | true =>
      have : x.andThen next w1 = (⟨true, u⟩, w1) := by
        unfold Attempt.andThen
        rw [hx]
      unfold Frozen
      rw [this]
      exact ⟨rfl, rfl⟩
    | false =>
      have : x.andThen next w1 = next u w1 := by
        unfold Attempt.andThen
        rw [hx]
      unfold Frozen
      rw [this]
      exact h'

theorem Frozen.logThen {α σ : Type} {id : Nat} {prepare : Exec α} {entries : α → List Entry} {commit : α → Left σ} {v : σ}
    {w : Fallible} (h : w.poisoned id = true) : Frozen (logThen id prepare entries commit v) v w := by
  unfold Frozen Steit.logThen
  rw [if_pos h]
  exact ⟨rfl, rfl⟩

mutual
theorem frozen : (t : Ty) → ∀ m op v rt w, At t rt v → OpSync t op v → w.poisoned rt.logger = true →
    Frozen (t.attempt m op v) v w
  | .uint _, _, op, _, _, _, _, _, _ => nomatch op
  | .sint _, _, op, _, _, _, _, _, _ => nomatch op
  | .bool, _, op, _, _, _, _, _, _ => nomatch op
  | .string, _, op, _, _, _, _, _, _ => nomatch op
  | .bytes, _, op, _, _, _, _, _, _ => nomatch op
  | .vec _, _, op, _, _, _, _, _, _ => nomatch op
  | .array _ _, _, op, _, _, _, _, _, _ => nomatch op
  | .tuple _, _, op, _, _, _, _, _, _ => nomatch op
  | .option _, _, op, _, _, _, _, _, _ => nomatch op
  | .hashMap _ _, _, op, _, _, _, _, _, _ => nomatch op
  | .struct false _ _, _, op, _, _, _, _, _, _ => nomatch op
  | .enum false _ _ _, _, op, _, _, _, _, _, _ => nomatch op
  | .box t, m, op, v, rt, w, hv, ho, hp => by
    simp only [Ty.attempt]
    exact frozen t m op v rt w hv ho hp
  | .list t, m, op, v, rt, w, hv, ho, hp => by
    have hp' : w.poisoned v.rt.logger = true := by rw [hv.1]; exact hp
    have pop : Frozen (attemptPop v) v w := by
      unfold attemptPop
      split
      · exact .logThen hp'
      · exact .idle v w
    simp only [Ty.attempt]
    cases op with
    | item i op =>
      simp only [attemptList]
      cases hx : v.items[i]? with
      | none => exact .idle v w
      | some x =>
        refine (frozen t m op x (rt.nested (fieldNo i)) w (hv.2 i x hx) (ho x hx).2 hp).inside ?_
        obtain ⟨hlt, rfl⟩ := List.getElem?_eq_some_iff.1 hx
        rw [List.set_getElem_self]
    | push x => exact .logThen hp'
    | pushWith f => exact .logThen hp'
    | pop => exact pop
    | swapRemove i =>
      simp only [attemptList, attemptSwapRemove]
      cases v.items[i]? with
      | none => exact .idle v w
      | some removed =>
        cases v.items.getLast? with
        | none => exact .idle v w
        | some last =>
          simp only
          split
          · exact pop
          · exact .logThen hp'
  | .map _ t, m, op, v, rt, w, hv, ho, hp => by
    have hp' : w.poisoned v.rt.logger = true := by rw [hv.1]; exact hp
    simp only [Ty.attempt]
    cases op with
    | value k op =>
      simp only [attemptMap]
      cases hx : entriesGet k v.entries with
      | none => exact .idle v w
      | some x =>
        have hm := entriesGet_mem hx
        refine (frozen t m op x (rt.nested k) w (hv.2.2 _ hm) (ho _ hm rfl) hp).inside ?_
        rw [entriesInsert_same hx]
    | insert k x => exact .logThen hp'
    | insertWith k f => exact .logThen hp'
    | remove k => exact .logThen hp'
  | .struct true _ fs, m, op, v, rt, w, hv, ho, hp => by
    simp only [Ty.attempt]
    have := frozen_fields fs m op v.fields rt w hv.2 ho hp
    rw [← hv.1 rfl] at this
    exact this.inside rfl
  | .enum true cached fs vs, m, op, v, rt, w, hv, ho, hp => by
    rw [enum_attempt_eq]
    rw [opSync_enum] at ho
    rw [at_enum_iff] at hv
    have fields : Frozen ((allVariants cached fs vs).attempt m v.rt op v.val) v.val w := by
      rcases v with ⟨vrt, x | x⟩ <;> rcases op with op | op
      · obtain ⟨h1, h2⟩ := hv
        simp only at h1
        subst h1
        exact (frozen_fields fs m op x (rt.nested 0#32) w h2 ho.2 hp).inside rfl
      · exact .idle _ w
      · exact .idle _ w
      · obtain ⟨h1, h2⟩ := hv
        simp only at h1
        subst h1
        exact (frozen_variants vs m op x rt w h2 ho.2 hp).inside rfl
    unfold attemptEnum
    have hpar : v.rt.parent = .ok rt := by rw [hv.1, Rt.parent_nested']
    rw [hpar]
    refine Frozen.andThen ?_ (fields.inside rfl)
    split
    · simp only
      split
      · exact .logThen hp
      · exact .idle v w
    · exact .idle v w

theorem frozen_fields : (fs : Fields) → ∀ m op v rt w, AtFields fs true rt v → OpSyncFields fs op v →
    w.poisoned rt.logger = true → Frozen (fs.attempt m rt op v) v w
  | .nil, _, op, _, _, _, _, _, _ => nomatch op
  | .cons tag attrs t fs, m, .inl op, v, rt, w, hv, ho, hp => by
    obtain ⟨hno, ho⟩ := ho
    have hat : At t (rt.nested tag) v.1 := by
      have := hv.1
      simpa [hno] using this
    simp only [Fields.attempt]
    refine Frozen.inside (v := v.1) ?_ rfl
    cases op with
    | inner op => exact frozen t m op v.1 (rt.nested tag) w hat ho hp
    | set x =>
      simp only [attemptField, hno, Bool.not_false, if_true]
      exact .logThen hp
    | setWith f =>
      simp only [attemptField, hno, Bool.not_false, if_true]
      exact .logThen hp
  | .cons _ _ _ fs, m, .inr op, v, rt, w, hv, ho, hp => by
    simp only [Fields.attempt]
    exact (frozen_fields fs m op v.2 rt w hv.2 ho hp).inside rfl

theorem frozen_variants : (vs : Variants) → ∀ m op v rt w, VarAt vs true rt v → OpSyncVariant vs op v →
    w.poisoned rt.logger = true → Frozen (vs.attempt m (rt.nested ((vs.dict true).tagOf v)) op v) v w
  | .nil, _, op, _, _, _, _, _, _ => nomatch op
  | .cons tag _ fs _, m, .inl op, .inl x, rt, w, hv, ho, hp => by
    simp only [Variants.attempt]
    exact (frozen_fields fs m op x (rt.nested tag) w hv ho hp).inside rfl
  | .cons _ _ _ vs, m, .inr op, .inr x, rt, w, hv, ho, hp => by
    simp only [Variants.attempt]
    exact (frozen_variants vs m op x rt w hv ho hp).inside rfl
  | .cons _ _ _ _, _, .inl _, .inr _, _, w, _, _, _ => by
    simp only [Variants.attempt]
    exact .idle _ w
  | .cons _ _ _ _, _, .inr _, .inl _, _, w, _, _, _ => by
    simp only [Variants.attempt]
    exact .idle _ w
end

end Steit
