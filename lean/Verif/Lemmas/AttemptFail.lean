import Verif.Lemmas.Attempt

/-! # What a failed call leaves behind: exactly what the log says -/

namespace Steit
open Spec

theorem log_false {w w' : Fallible} {id : Nat} {e : Entry} (h : w.log id e = (false, w')) : w'.world = w.world := by
  unfold Fallible.log at h
  split at h
  · cases h; rfl
  · split at h
    · split at h <;> cases h <;> rfl
    · cases h

theorem logMulti_one_false {w w' : Fallible} {id : Nat} {e : Entry} (h : w.logMulti id [e] = (false, w')) :
    w'.world = w.world := by
  simp only [Fallible.logMulti] at h
  split at h
  · cases h
  · next h1 => cases h; exact log_false h1

theorem log_true_next {w w' w'' : Fallible} {id : Nat} {e e' : Entry} (h : w.log id e = (true, w'))
    (h' : w'.log id e' = (false, w'')) : RefusesSecond w := by
  unfold Fallible.log at h
  split at h
  · cases h
  · next hp =>
    split at h
    · next hz =>
      split at h
      · next hv =>
        refine ⟨hv, fun hv1 => ?_⟩
        cases h
        unfold Fallible.log at h'
        rw [if_neg hp, if_pos (by simp [World.onLogger, LoggerSt.log, hz])] at h'
        simp only [hv1] at h'
        cases h'
      · cases h
      · cases h
    · next hz =>
      cases h
      unfold Fallible.log at h'
      rw [if_neg hp, if_neg hz] at h'
      cases h'

theorem logMulti_two_false {w w' : Fallible} {id : Nat} {e e' : Entry} (h : w.logMulti id [e, e'] = (false, w'))
    (hn : ¬ RefusesSecond w) : w'.world = w.world := by
  simp only [Fallible.logMulti] at h
  split at h
  · next w1 h1 =>
    split at h
    · cases h
    · next h2 => exact absurd (log_true_next h1 h2) hn
  · next h1 => cases h; exact log_false h1

section logThen
variable {α σ : Type} {id : Nat} {prepare : Exec α} {entries : α → List Entry} {commit : α → Left σ} {self v' : σ}
  {w w' : Fallible} {a : α} {w1 : World}

/-- The pattern of all methods: if one fails nothing has been changed, and nothing logged. -/
theorem logThen_fails (hp : prepare w.world = (.ok a, w1)) (hw : w1.loggers id = w.world.loggers id)
    (hc : (commit a).panicked = false)
    (he : (∃ e, entries a = [e]) ∨ (∃ e e', entries a = [e, e']) ∧ ¬ RefusesSecond w)
    (h : logThen id prepare entries commit self w = (⟨true, v'⟩, w')) :
    v' = self ∧ w'.world.loggers id = w.world.loggers id := by
  unfold logThen at h
  split at h
  · cases h; exact ⟨rfl, rfl⟩
  · rw [hp] at h
    simp only at h
    split at h
    · obtain ⟨h, _⟩ := Prod.mk.inj h
      rw [h] at hc
      cases hc
    · next w2 hl =>
      obtain ⟨hr, rfl⟩ := Prod.mk.inj h
      refine ⟨(Left.mk.inj hr).2.symm, ?_⟩
      rw [← hw]
      have : w2.world = w1 := by
        rcases he with ⟨e, he⟩ | ⟨⟨e, e', he⟩, hn⟩
        · rw [he] at hl; exact logMulti_one_false hl
        · rw [he] at hl; exact logMulti_two_false hl hn
      rw [this]

theorem logThen_keeps (hp : prepare w.world = (.ok a, w1)) (hc : (commit a).panicked = false)
    (h : logThen id prepare entries commit self w = (⟨true, v'⟩, w')) : v' = self := by
  unfold logThen at h
  split at h
  · cases h; rfl
  · rw [hp] at h
    simp only at h
    split at h
    · obtain ⟨h, _⟩ := Prod.mk.inj h
      rw [h] at hc
      cases hc
    · obtain ⟨hr, _⟩ := Prod.mk.inj h
      exact (Left.mk.inj hr).2.symm

theorem logThen_returns (hp : prepare w.world = (.ok a, w1)) (hw : w1.loggers id = w.world.loggers id)
    (h : logThen id prepare entries commit self w = (⟨false, v'⟩, w')) :
    commit a = ⟨false, v'⟩ ∧ w'.world.loggers id = appended (w.world.loggers id) (entries a) := by
  unfold logThen at h
  split at h
  · cases h
  · rw [hp] at h
    simp only at h
    split at h
    · next w2 hl =>
      obtain ⟨hr, rfl⟩ := Prod.mk.inj h
      refine ⟨hr, ?_⟩
      rw [logMulti_true hl, ← hw]
      simp [World.onLogger, logMulti_eq]
    · cases h

end logThen

/-- What a failed call leaves of an object at `rt`: a state at `rt` which the wire can carry, and a log saying how it came
about. -/
def Lost (t : Ty) (v : t.El) (rt : Rt) (w : World) (v' : t.El) (w' : World) : Prop :=
  ∃ es, At t rt v' ∧ Carried t v' ∧ Logged rt w w' es ∧ Steps (Means t) v es v'

theorem Lost.same {t : Ty} {v v' : t.El} {rt : Rt} {w w' : World} (hv : At t rt v) (hc : Carried t v)
    (h : v' = v ∧ w'.loggers rt.logger = w.loggers rt.logger) : Lost t v rt w v' w' := by
  obtain ⟨rfl, h⟩ := h
  exact ⟨[], hv, hc, .refl h, rfl⟩

/-- All admissible calls on a type fail well. -/
def Fails (t : Ty) : Prop :=
  ∀ m op v rt (w : Fallible) v' w', At t rt v → Carried t v → OpAddr t op v → OpSync t op v → ¬ (Swaps t op v ∧ RefusesSecond w) →
    t.attempt m op v w = (⟨true, v'⟩, w') → Lost t v rt w.world v' w'.world

theorem inside_true {σ τ : Type} {x : Attempt σ} {put : σ → τ} {w w' : Fallible} {p : Bool} {v' : τ}
    (h : x.inside put w = (⟨p, v'⟩, w')) : ∃ u, x w = (⟨p, u⟩, w') ∧ v' = put u := by
  unfold Attempt.inside at h
  cases hx : x w with
  | mk r w1 =>
    obtain ⟨p', u⟩ := r
    rw [hx] at h
    cases h
    exact ⟨u, rfl, rfl⟩

section list
variable {t : Ty}

theorem fails_pushWith (ht : (Ty.list t).WF) {m : Mode} {f : Rt → Exec t.El} {v v' : (Ty.list t).El} {rt : Rt}
    {w w' : Fallible} (hv : At (.list t) rt v)
    (hf : ∀ w, 0 < (w.loggers rt.logger).paused → ∃ x w', f (rt.nested (fieldNo v.items.length)) w = (.ok x, w') ∧
      Sendable t x ∧ w'.loggers rt.logger = w.loggers rt.logger)
    (h : attemptPushWith t.dict m v f w = (⟨true, v'⟩, w')) :
    v' = v ∧ w'.world.loggers rt.logger = w.world.loggers rt.logger := by
  obtain ⟨x, w1, hx, hw1, hrun, _⟩ := paused_run rt (fieldNo v.items.length) w.world
    (fun item => do
      let bytes ← toBytesNow t.dict m item
      pure (item, bytes)) hf
  obtain ⟨w2, h2, hw2⟩ := toBytesNow_run ht.2 m hx w1
  unfold attemptPushWith at h
  rw [hv.1] at h
  refine logThen_fails (a := (x, encode t x)) (w1 := w2) ?_ (by rw [hw2, hw1]) rfl (.inl ⟨_, rfl⟩) h
  rw [hrun, Exec.bind_of h2]
  rfl

theorem fails_pop {v v' : (Ty.list t).El} {rt : Rt} {w w' : Fallible} (hv : At (.list t) rt v)
    (h : attemptPop v w = (⟨true, v'⟩, w')) :
    v' = v ∧ w'.world.loggers rt.logger = w.world.loggers rt.logger := by
  unfold attemptPop at h
  rw [hv.1] at h
  split at h
  · exact logThen_fails (a := ()) (w1 := w.world) rfl rfl rfl (.inl ⟨_, rfl⟩) h
  · cases h

theorem fails_swapRemove (ht : (Ty.list t).WF) {m : Mode} {i : Nat} {v v' : (Ty.list t).El} {rt : Rt} {w w' : Fallible}
    (hv : At (.list t) rt v) (hc : Carried (.list t) v) (ha : shape t = .enum → v.items.length ≤ i + 1)
    (ho : i + 1 < v.items.length → i < 2 ^ 32 ∧ ∀ x, v.items.getLast? = some x → (encode t x).length < 2 ^ 32)
    (hn : ¬ (i + 1 < v.items.length ∧ RefusesSecond w))
    (h : attemptSwapRemove t.dict m v i w = (⟨true, v'⟩, w')) :
    v' = v ∧ w'.world.loggers rt.logger = w.world.loggers rt.logger := by
  unfold attemptSwapRemove at h
  cases hr : v.items[i]? with
  | none => rw [hr] at h; cases h
  | some removed =>
    cases hla : v.items.getLast? with
    | none => rw [hr, hla] at h; cases h
    | some last =>
      rw [hr, hla] at h
      simp only at h
      by_cases hi : i + 1 = v.items.length
      · rw [if_pos hi] at h
        exact fails_pop hv h
      · rw [if_neg hi] at h
        have hi0 : i < v.items.length := by
          obtain ⟨hi0, _⟩ := List.getElem?_eq_some_iff.1 hr
          exact hi0
        have hlt : i + 1 < v.items.length := by omega
        obtain ⟨hi32, hsmall⟩ := ho hlt
        have hsend : Sendable t last := ⟨hc _ (List.mem_of_getLast? hla), hsmall _ hla⟩
        obtain ⟨w1, h1, hw1⟩ := toBytesNow_run ht.2 m hsend w.world
        have hlog : v.rt.logger = rt.logger := by rw [hv.1]
        rw [hlog] at h
        refine logThen_fails (a := encode t last) (w1 := w1) h1 (by rw [hw1]) ?_
          (.inr ⟨⟨_, _, rfl⟩, fun hs => hn ⟨hlt, hs⟩⟩) h
        by_cases hw : t.dict.wire = .sized
        · have hat := runtime_at t ht.1 _ removed (hv.2 i removed hr)
          have hpl : t.dict.runtime removed = some (rt.nested (fieldNo i)) := by
            cases hsh : shape t with
            | prim => exact absurd hsh ((wire_shape t ht.1).1 hw)
            | plain => rw [hsh] at hat; exact hat
            | enum => have := ha hsh; omega
          simp only [if_pos hw, hpl, Rt.sibling_nested]
        · simp only [if_neg hw]

theorem fails_list (ht : (Ty.list t).WF) (ih : Fails t) : Fails (.list t) := by
  intro m op v rt w v' w' hv hc ha ho hn h
  cases op with
  | item i op =>
    simp only [Ty.attempt, attemptList] at h
    cases hx : v.items[i]? with
    | none => rw [hx] at h; cases h
    | some x =>
      rw [hx] at h
      obtain ⟨x', h1, rfl⟩ := inside_true h
      obtain ⟨hi, ho⟩ := ho x hx
      obtain ⟨es, h2, h3, h4, h5⟩ := ih m op x (rt.nested (fieldNo i)) w x' w' (hv.2 i x hx) (hc x (List.mem_of_getElem? hx))
        (ha x hx) ho (fun hs => hn ⟨⟨x, hx, hs.1⟩, hs.2⟩) h1
      refine ⟨es.map (under [fieldNo i]), ⟨hv.1, at_list_set hv.2 h2⟩, ?_, h4.nested, steps_item hi hx h5⟩
      intro y hy
      rcases List.mem_or_eq_of_mem_set hy with h | rfl
      · exact hc y h
      · exact h3
  | push x =>
    refine .same hv hc (fails_pushWith (f := fun runtime => pure (t.dict.setRuntime runtime x)) (m := m) ht hv
      (fun w _ => ⟨_, w, rfl, sendable_same (strip_setRuntime t _ _) ho, rfl⟩) ?_)
    simpa only [Ty.attempt, attemptList] using h
  | pushWith f => exact .same hv hc (fails_pushWith ht hv (closure_run ho rt _) (by simpa only [Ty.attempt, attemptList] using h))
  | pop => exact .same hv hc (fails_pop hv (by simpa only [Ty.attempt, attemptList] using h))
  | swapRemove i => exact .same hv hc (fails_swapRemove ht hv hc ha ho hn (by simpa only [Ty.attempt, attemptList] using h))

end list

section map
variable {t : Ty} {kt : KeyTy}

theorem fails_map (ht : (Ty.map kt t).WF) (ih : Fails t) : Fails (.map kt t) := by
  intro m op v rt w v' w' hv hc ha ho hn h
  have hlog : v.rt = rt := hv.1
  cases op with
  | value k op =>
    simp only [Ty.attempt, attemptMap] at h
    cases hx : entriesGet k v.entries with
    | none => rw [hx] at h; cases h
    | some x =>
      rw [hx] at h
      obtain ⟨x', h1, rfl⟩ := inside_true h
      have hm := entriesGet_mem hx
      obtain ⟨es, h2, h3, h4, h5⟩ := ih m op x (rt.nested k) w x' w' (hv.2.2 _ hm) (hc.1 _ hm).2.2 (ha _ hm rfl)
        (ho _ hm rfl) (fun hs => hn ⟨⟨_, hm, rfl, hs.1⟩, hs.2⟩) h1
      exact ⟨es.map (under [k]), at_map_insert hv h2, carried_map_insert hc (hc.1 _ hm).1 (hc.1 _ hm).2.1 h3, h4.nested,
        steps_value hx h5⟩
  | insert k x =>
    obtain ⟨w1, h1, hw1⟩ := toBytesNow_run ht.2 m ho.2.2 w.world
    simp only [Ty.attempt, attemptMap] at h
    rw [hlog] at h
    exact .same hv hc (logThen_fails (w1 := w1) h1 (by rw [hw1]) rfl (.inl ⟨_, rfl⟩) h)
  | insertWith k f =>
    obtain ⟨x, w1, hx, hw1, hrun, _⟩ := paused_run rt k w.world
      (fun x => do
        let bytes ← toBytesNow t.dict m x
        pure (x, bytes)) (closure_run ho.2.2 rt k)
    obtain ⟨w2, h2, hw2⟩ := toBytesNow_run ht.2 m hx w1
    simp only [Ty.attempt, attemptMap] at h
    rw [hlog] at h
    refine .same hv hc (logThen_fails (a := (x, encode t x)) (w1 := w2) ?_ (by rw [hw2, hw1]) rfl (.inl ⟨_, rfl⟩) h)
    rw [hrun, Exec.bind_of h2]
    rfl
  | remove k =>
    simp only [Ty.attempt, attemptMap] at h
    rw [hlog] at h
    exact .same hv hc (logThen_fails (a := ()) (w1 := w.world) rfl rfl rfl (.inl ⟨_, rfl⟩) h)

end map

/-- As `Fails`, for the fields of a message. -/
def FailsFields (fs : Fields) : Prop :=
  ∀ m op v rt (w : Fallible) v' w', AtFields fs true rt v → CarriedFields fs v → OpAddrFields fs op v → OpSyncFields fs op v →
    ¬ (SwapsFields fs op v ∧ RefusesSecond w) → fs.attempt m rt op v w = (⟨true, v'⟩, w') →
    ∃ es, AtFields fs true rt v' ∧ CarriedFields fs v' ∧ Logged rt w.world w'.world es ∧ Steps (InsideFields fs) v es v'

section fields
variable {tag : U32} {attrs : FieldAttrs} {t : Ty} {fs : Fields}

theorem fails_fields_cons (hf : (Fields.cons tag attrs t fs).WF true) (iht : Fails t) (ihf : FailsFields fs) :
    FailsFields (.cons tag attrs t fs) := by
  intro m op v rt w v' w' hv hc ha ho hn h
  rcases op with op | op
  · obtain ⟨hno, ho⟩ := ho
    have hat : At t (rt.nested tag) v.1 := by
      have := hv.1
      simpa [hno] using this
    simp only [Fields.attempt] at h
    obtain ⟨x', h1, rfl⟩ := inside_true h
    have same : x' = v.1 ∧ w'.world.loggers rt.logger = w.world.loggers rt.logger →
        ∃ es, AtFields (.cons tag attrs t fs) true rt (x', v.2) ∧ CarriedFields (.cons tag attrs t fs) (x', v.2) ∧
          Logged rt w.world w'.world es ∧ Steps (InsideFields (.cons tag attrs t fs)) v es (x', v.2) := by
      rintro ⟨rfl, hl⟩
      exact ⟨[], hv, hc, .refl hl, rfl⟩
    cases op with
    | inner op =>
      obtain ⟨es, h2, h3, h4, h5⟩ := iht m op v.1 (rt.nested tag) w x' w' hat hc.1 ha ho hn h1
      refine ⟨es.map (under [tag]), ⟨?_, hv.2⟩, ⟨h3, hc.2⟩, h4.nested, steps_field hno h5⟩
      simpa [hno] using h2
    | set x =>
      simp only [attemptField, hno, Bool.not_false, if_true] at h1
      obtain ⟨w1, h2, hw1⟩ := toBytesNow_run hf.2.2.1 m
        (sendable_same (strip_setRuntime t (rt.nested tag) x) ho) w.world
      exact same (logThen_fails (w1 := w1) h2 (by rw [hw1]) rfl (.inl ⟨_, rfl⟩) h1)
    | setWith f =>
      simp only [attemptField, hno, Bool.not_false, if_true] at h1
      obtain ⟨x, w1, hx, hw1, hrun, _⟩ := paused_run rt tag w.world
        (fun x => do
          let bytes ← toBytesNow t.dict m x
          pure (x, bytes)) (closure_run ho rt tag)
      obtain ⟨w2, h2, hw2⟩ := toBytesNow_run hf.2.2.1 m hx w1
      refine same (logThen_fails (a := (x, encode t x)) (w1 := w2) ?_ (by rw [hw2, hw1]) rfl (.inl ⟨_, rfl⟩) h1)
      rw [hrun, Exec.bind_of h2]
      rfl
  · simp only [Fields.attempt] at h
    obtain ⟨y', h1, rfl⟩ := inside_true h
    obtain ⟨es, h2, h3, h4, h5⟩ := ihf m op v.2 rt w y' w' hv.2 hc.2 ha ho hn h1
    exact ⟨es, ⟨hv.1, h2⟩, ⟨hc.1, h3⟩, h4, steps_fields_tail h5⟩

end fields

theorem fails_struct {cached : Bool} {fs : Fields} (ih : FailsFields fs) : Fails (.struct true cached fs) := by
  intro m op v rt w v' w' hv hc ha ho hn h
  simp only [Ty.attempt] at h
  obtain ⟨x', h1, rfl⟩ := inside_true h
  rw [hv.1 rfl] at h1
  obtain ⟨es, h2, h3, h4, h5⟩ := ih m op v.fields rt w x' w' hv.2 hc ha ho hn h1
  exact ⟨es, ⟨hv.1, h2⟩, h3, h4, steps_struct h5⟩

/-- As `Fails`, for the variants of an enum at `rt`. -/
def FailsVariants (vs : Variants) : Prop :=
  ∀ m op v rt (w : Fallible) v' w', VarAt vs true rt v → CarriedVariant vs v → OpAddrVariant vs op v → OpSyncVariant vs op v →
    ¬ (SwapsVariant vs op v ∧ RefusesSecond w) →
    vs.attempt m (rt.nested ((vs.dict true).tagOf v)) op v w = (⟨true, v'⟩, w') →
    ∃ es, (VarAt vs true rt v' ∧ (vs.dict true).tagOf v' = (vs.dict true).tagOf v) ∧ CarriedVariant vs v' ∧
      Logged rt w.world w'.world es ∧ Steps (InsideVariant vs) v es v'

theorem fails_variants_cons {tag : U32} {cached : Bool} {fs : Fields} {vs : Variants} (ihf : FailsFields fs)
    (ihv : FailsVariants vs) : FailsVariants (.cons tag cached fs vs) := by
  intro m op v rt w v' w' hv hc ha ho hn h
  rcases op with op | op <;> rcases v with v | v
  · simp only [Variants.attempt] at h
    obtain ⟨x', h1, rfl⟩ := inside_true h
    obtain ⟨es, h2, h3, h4, h5⟩ := ihf m op v (rt.nested tag) w x' w' hv hc ha ho hn h1
    refine ⟨es.map (under [tag]), ⟨h2, rfl⟩, h3, h4.nested, ?_⟩
    exact h5.lift (N := InsideVariant (.cons tag cached fs vs)) (fun z => (Sum.inl z : fs.El ⊕ vs.El)) (under [tag])
      (fun _ e _ hy => ⟨e, rfl, hy⟩)
  · simp only [Variants.attempt] at h
    cases h
  · simp only [Variants.attempt] at h
    cases h
  · simp only [Variants.attempt] at h
    obtain ⟨x', h1, rfl⟩ := inside_true h
    obtain ⟨es, h2, h3, h4, h5⟩ := ihv m op v rt w x' w' hv hc ha ho hn h1
    refine ⟨es, h2, h3, h4, ?_⟩
    exact h5.lift_id (N := InsideVariant (.cons tag cached fs vs)) (fun z => (Sum.inr z : fs.El ⊕ vs.El))
      (fun _ _ _ hy => hy)

theorem enum_attempt_eq (cached : Bool) (fs : Fields) (vs : Variants) (m : Mode) (op : (Ty.enum true cached fs vs).Op)
    (v : (Ty.enum true cached fs vs).El) :
    (Ty.enum true cached fs vs).attempt m op v =
      attemptEnum (Ty.enum true cached fs vs).dict ((allVariants cached fs vs).dict true) m ((allVariants cached fs vs).opTag op)
        ((allVariants cached fs vs).isSet op) (fun rt val => (allVariants cached fs vs).attempt m rt op val) v := by
  rcases op with op | op
  · simp only [Ty.attempt]
    unfold attemptEnum
    refine congrArg (Attempt.andThen _) ?_
    funext u
    refine congrArg (fun q => Attempt.inside q _) ?_
    rcases u with ⟨_, x | x⟩ <;> simp only [Variants.attempt]
  · simp only [Ty.attempt]
    unfold attemptEnum
    refine congrArg (Attempt.andThen _) ?_
    funext u
    refine congrArg (fun q => Attempt.inside q _) ?_
    rcases u with ⟨_, x | x⟩ <;> simp only [Variants.attempt]

theorem swaps_enum (cached : Bool) (fs : Fields) (vs : Variants) (op : (Ty.enum true cached fs vs).Op)
    (v : (Ty.enum true cached fs vs).El) :
    Swaps (.enum true cached fs vs) op v ↔ SwapsVariant (allVariants cached fs vs) op v.val := by
  rcases v with ⟨_, x | x⟩ <;> rcases op with op | op <;> exact Iff.rfl

theorem setter_not_swaps_fields : (fs : Fields) → ∀ op, fs.isSet op = true → ∀ v, ¬ SwapsFields fs op v
  | .nil, op, _, _ => nomatch op
  | .cons _ _ _ _, .inl (.inner _), h, _ => nomatch h
  | .cons _ _ _ _, .inl (.set _), _, _ => fun h => h
  | .cons _ _ _ _, .inl (.setWith _), _, _ => fun h => h
  | .cons _ _ _ fs, .inr op, h, v => setter_not_swaps_fields fs op h v.2

theorem setter_not_swaps : (vs : Variants) → ∀ op, vs.isSet op = true → ∀ v, ¬ SwapsVariant vs op v
  | .nil, op, _, _ => nomatch op
  | .cons _ _ fs _, .inl op, h, .inl x => setter_not_swaps_fields fs op h x
  | .cons _ _ _ _, .inl _, _, .inr _ => fun h => h
  | .cons _ _ _ _, .inr _, _, .inl _ => fun h => h
  | .cons _ _ _ vs, .inr op, h, .inr x => setter_not_swaps vs op h x

theorem fails_enum {cached : Bool} {fs : Fields} {vs : Variants} (ht : (Ty.enum true cached fs vs).WF)
    (ih : FailsVariants (allVariants cached fs vs)) : Fails (.enum true cached fs vs) := by
  intro m op v rt w v' w' hv hc ha ho hn h
  rw [opAddr_enum] at ha
  rw [opSync_enum] at ho
  rw [swaps_enum] at hn
  obtain ⟨hsw, ho⟩ := ho
  have hwf : Variants.WF (allVariants cached fs vs) true := ⟨by decide, ht.1, ht.2.1, ht.2.2.2.2⟩
  rw [enum_attempt_eq] at h
  unfold attemptEnum at h
  -- the fields of the (possibly new) variant
  have fin : ∀ (u : (Ty.enum true cached fs vs).El) (w1 : Fallible), At (.enum true cached fs vs) rt u →
      Carried (.enum true cached fs vs) u →
      OpAddrVariant (allVariants cached fs vs) op u.val → OpSyncVariant (allVariants cached fs vs) op u.val →
      ¬ (SwapsVariant (allVariants cached fs vs) op u.val ∧ RefusesSecond w1) →
      ((allVariants cached fs vs).attempt m u.rt op u.val).inside (fun val => ({ u with val } : EnumV _)) w1 = (⟨true, v'⟩, w') →
      Lost (.enum true cached fs vs) u rt w1.world v' w'.world := by
    intro u w1 hu hcu hau hou hnu h
    obtain ⟨x', h1, rfl⟩ := inside_true h
    rw [at_enum_iff] at hu
    rw [carried_enum] at hcu
    rw [hu.1] at h1
    obtain ⟨es, h2, h3, h4, h5⟩ := ih m op u.val rt w1 x' w' hu.2 hcu hau hou hnu h1
    refine ⟨es, ?_, carried_enum.2 h3, h4, steps_enum h5⟩
    rw [at_enum_iff]
    exact ⟨by rw [h2.2]; exact hu.1, h2.1⟩
  unfold Attempt.andThen at h
  by_cases hcond : ((allVariants cached fs vs).dict true).tagOf v.val ≠ (allVariants cached fs vs).opTag op ∧
      (allVariants cached fs vs).isSet op = true
  · have hpar : v.rt.parent = .ok rt := by
      rw [((at_enum_iff cached fs vs rt v).1 hv).1, Rt.parent_nested']
    rw [if_pos hcond, hpar] at h
    simp only at h
    cases hval : ((allVariants cached fs vs).dict true).ctor ((allVariants cached fs vs).opTag op)
        (some (rt.nested ((allVariants cached fs vs).opTag op))) with
    | some val =>
      rw [hval] at h
      have hc' := (variantsAny (allVariants cached fs vs) true hwf).ctor_some rfl _ rt val hval
      have hat : At (.enum true cached fs vs) rt ⟨rt.nested ((allVariants cached fs vs).opTag op), val⟩ := by
        rw [at_enum_iff]
        exact ⟨by rw [hc'.2], hc'.1⟩
      have hsend : Sendable (.enum true cached fs vs) ⟨rt.nested ((allVariants cached fs vs).opTag op), val⟩ :=
        ⟨carried_enum.2 (carried_ctor _ _ _ _ _ hval), by rw [encode_enum]; exact hsw hcond.2 hcond.1 _ _ hval⟩
      obtain ⟨w1, h1, hw1⟩ := toBytesNow_run ht m hsend w.world
      simp only at h
      split at h
      · next u w2 hl =>
        cases h
        exact .same hv hc (logThen_fails (w1 := w1) h1 (by rw [hw1]) rfl (.inl ⟨_, rfl⟩) hl)
      · next u w2 hl =>
        obtain ⟨hu, hlog⟩ := logThen_returns (w1 := w1) h1 (by rw [hw1]) hl
        cases hu
        obtain ⟨es, h2, h3, h4, h5⟩ := fin _ w2 hat hsend.1 (opAddr_switch _ _ _ hcond.2 hcond.1 ha _)
          (opSync_switch _ _ _ hcond.2 hcond.1 ho _) (fun hs => setter_not_swaps _ _ hcond.2 _ hs.1) h
        have hlog' : Logged rt w.world w2.world [.update [] (encode (.enum true cached fs vs)
            ⟨rt.nested ((allVariants cached fs vs).opTag op), val⟩)] := by
          unfold Logged
          rw [hlog]
          simp [under]
        exact ⟨_, h2, h3, hlog'.trans h4, (Steps.one (.inl ⟨rfl, hsend⟩)).trans h5⟩
    | none =>
      rw [hval] at h
      exact fin v w hv hc ha ho hn h
  · rw [if_neg hcond] at h
    exact fin v w hv hc ha ho hn h

mutual
theorem fails : (t : Ty) → t.WF → Fails t
  | .uint _, _ => fun _ op => nomatch op
  | .sint _, _ => fun _ op => nomatch op
  | .bool, _ => fun _ op => nomatch op
  | .string, _ => fun _ op => nomatch op
  | .bytes, _ => fun _ op => nomatch op
  | .vec _, _ => fun _ op => nomatch op
  | .array _ _, _ => fun _ op => nomatch op
  | .tuple _, _ => fun _ op => nomatch op
  | .option _, _ => fun _ op => nomatch op
  | .hashMap _ _, _ => fun _ op => nomatch op
  | .struct false _ _, _ => fun _ op => nomatch op
  | .enum false _ _ _, _ => fun _ op => nomatch op
  | .box t, ht => fails t ht
  | .list t, ht => fails_list ht (fails t ht.2)
  | .map _ t, ht => fails_map ht (fails t ht.2)
  | .struct true _ fs, ht => fails_struct (fails_fields fs ht.2)
  | .enum true _ fs vs, ht => fails_enum ht (fails_variants_cons (fails_fields fs ht.2.1) (fails_variants vs ht.2.2.2.2))

theorem fails_fields : (fs : Fields) → fs.WF true → FailsFields fs
  | .nil, _ => fun _ op => nomatch op
  | .cons _ _ t fs, hf => fails_fields_cons hf (fails t hf.2.2.1) (fails_fields fs hf.2.2.2)

theorem fails_variants : (vs : Variants) → vs.WF true → FailsVariants vs
  | .nil, _ => fun _ op => nomatch op
  | .cons _ _ fs vs, hv => fails_variants_cons (fails_fields fs hv.2.2.1) (fails_variants vs hv.2.2.2)
end

end Steit
