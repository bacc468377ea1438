import Verif.Spec.Record
import Verif.Lemmas.Tell
import Verif.Lemmas.Setter

/-!
# What API calls log, exactly

As in `Verif/Lemmas/Tell.lean`, with the entries themselves in place of what they mean.
-/

namespace Steit
open Spec

/-- All admissible calls on a type succeed and log what `Records` says. -/
def Recs (t : Ty) : Prop :=
  ∀ m op v rt w, At t rt v → Carried t v → OpAddr t op v → OpSync t op v →
    ∃ v' w' es, t.run m op v w = (.ok v', w') ∧ Logged rt w w' es ∧ Records t op v es v'

/-! ### Lists -/

section list
variable {t : Ty}

theorem rec_pushWith (ht : (Ty.list t).WF) {m : Mode} {f : Rt → Exec t.El} {v : (Ty.list t).El} {rt : Rt} {w : World}
    (hv : At (.list t) rt v)
    (hf : ∀ w, 0 < (w.loggers rt.logger).paused → ∃ x w', f (rt.nested (fieldNo v.items.length)) w = (.ok x, w') ∧
      Sendable t x ∧ w'.loggers rt.logger = w.loggers rt.logger) :
    ∃ v' w' x, (Prod.snd <$> listPushWith t.dict m v f) w = (.ok v', w') ∧ Logged rt w w' [.listPush [] (encode t x)] ∧
      v'.items.getLast? = some x ∧ ∃ w1 w2, f (rt.nested (fieldNo v.items.length)) w1 = (.ok x, w2) := by
  obtain ⟨x, w1, hx, hw1, hrun, hcall⟩ := paused_run rt (fieldNo v.items.length) w
    (fun item => do
      v.rt.logListPush t.dict m item
      pure ((fieldNo v.items.length).toNat, ({ v with items := v.items ++ [item] } : ListV t.El))) hf
  obtain ⟨w2, h2, hlog⟩ := logListPush_run ht.2 rt m hx w1
  refine ⟨{ v with items := v.items ++ [x] }, w2, x, ?_, hlog.from hw1, by simp, hcall⟩
  refine Exec.map_of (a := ((fieldNo v.items.length).toNat, ({ v with items := v.items ++ [x] } : ListV t.El))) ?_
  unfold listPushWith
  rw [hv.1] at hrun ⊢
  rw [hrun, Exec.bind_of h2]
  rfl

theorem rec_pop {v : (Ty.list t).El} {rt : Rt} {w : World} (hv : At (.list t) rt v) :
    ∃ v' w', (Prod.snd <$> listPop v) w = (.ok v', w') ∧ Logged rt w w' (if v.items.isEmpty then [] else [.listPop []]) := by
  by_cases he : v.items = []
  · refine ⟨v, w, ?_, ?_⟩
    · refine Exec.map_of (a := (none, v)) ?_
      unfold listPop
      rw [if_neg (by simp [he])]
      rfl
    · rw [he]; exact .refl rfl
  · obtain ⟨w1, h1, h2⟩ := log_run rt (.listPop rt.path) w
    refine ⟨{ v with items := v.items.dropLast }, w1, ?_, ?_⟩
    · refine Exec.map_of (a := (v.items.getLast?, ({ v with items := v.items.dropLast } : ListV t.El))) ?_
      unfold listPop
      rw [if_pos he]
      unfold Rt.logListPop
      rw [hv.1, Exec.bind_of h1]
      rfl
    · rw [if_neg (by simpa using he)]
      unfold Logged
      rw [h2]
      simp [under]

theorem rec_swapRemove (ht : (Ty.list t).WF) {m : Mode} {i : Nat} {v : (Ty.list t).El} {rt : Rt} {w : World}
    (hv : At (.list t) rt v) (hc : Carried (.list t) v) (ha : shape t = .enum → v.items.length ≤ i + 1)
    (ho : i + 1 < v.items.length → i < 2 ^ 32 ∧ ∀ x, v.items.getLast? = some x → (encode t x).length < 2 ^ 32) :
    ∃ v' w' es, (Prod.snd <$> listSwapRemove t.dict m v i) w = (.ok v', w') ∧ Logged rt w w' es ∧
      Records (.list t) (.swapRemove i) v es v' := by
  by_cases hi : i < v.items.length
  · obtain ⟨removed, hr⟩ : ∃ x, v.items[i]? = some x := ⟨_, List.getElem?_eq_getElem hi⟩
    obtain ⟨last, hla⟩ : ∃ x, v.items.getLast? = some x := by
      cases h : v.items.getLast? with
      | none => rw [List.getLast?_eq_none_iff] at h; rw [h] at hi; simp at hi
      | some x => exact ⟨x, rfl⟩
    have hm : last ∈ v.items := List.mem_of_getLast? hla
    by_cases hi' : i + 1 = v.items.length
    · have : listSwapRemove t.dict m v i = listPop v := by
        unfold listSwapRemove
        simp only [hr, hla, if_pos hi']
      rw [this]
      obtain ⟨v', w', h1, h2⟩ := rec_pop (w := w) hv
      refine ⟨v', w', _, h1, h2, ?_⟩
      simp only [Records]
      rw [if_neg (by omega), if_pos hi', if_neg]
      intro he
      rw [List.isEmpty_iff] at he
      rw [he] at hi
      simp at hi
    · have hlt : i + 1 < v.items.length := by omega
      obtain ⟨hi32, hsmall⟩ := ho hlt
      have hsend : Sendable t last := ⟨hc _ hm, hsmall _ hla⟩
      obtain ⟨w1, h1, hw1⟩ := toBytesNow_run ht.2 m hsend w
      obtain ⟨w2, h2, hw2⟩ := logMulti_run rt [.listPop rt.path, .update (rt.path ++ [fieldNo i]) (encode t last)] w1
      have fin : ∀ last', 
          (Prod.snd <$> listSwapRemove t.dict m v i) w = (.ok { v with items := vecSwapRemove v.items i last' }, w2) →
          ∃ v' w' es, (Prod.snd <$> listSwapRemove t.dict m v i) w = (.ok v', w') ∧ Logged rt w w' es ∧
            Records (.list t) (.swapRemove i) v es v' := by
        intro last' hrun
        refine ⟨_, w2, [.listPop [], .update [fieldNo i] (encode t last)], hrun, ?_, ?_⟩
        · unfold Logged
          rw [hw2, hw1]
          simp [under]
        · simp only [Records]
          rw [if_pos hlt]
          exact ⟨last, hla, rfl⟩
      by_cases hw : t.dict.wire = .sized
      · have hat := runtime_at t ht.1 _ removed (hv.2 i removed hr)
        have hpl : t.dict.runtime removed = some (rt.nested (fieldNo i)) := by
          cases hsh : shape t with
          | prim => exact absurd hsh ((wire_shape t ht.1).1 hw)
          | plain => rw [hsh] at hat; exact hat
          | enum => have := ha hsh; omega
        refine fin (t.dict.setRuntime (rt.nested (fieldNo i)) last) ?_
        refine Exec.map_of (a := (some removed,
          ({ v with items := vecSwapRemove v.items i (t.dict.setRuntime (rt.nested (fieldNo i)) last) } : ListV t.El))) ?_
        unfold listSwapRemove
        simp only [hr, hla, if_neg hi']
        rw [Exec.bind_of h1, hv.1, Exec.bind_of h2]
        simp only [hw, if_true, hpl, Rt.sibling_nested]
        rfl
      · refine fin last ?_
        refine Exec.map_of (a := (some removed, ({ v with items := vecSwapRemove v.items i last } : ListV t.El))) ?_
        unfold listSwapRemove
        simp only [hr, hla, if_neg hi']
        rw [Exec.bind_of h1, hv.1, Exec.bind_of h2]
        simp only [hw, if_false]
        rfl
  · refine ⟨v, w, [], ?_, .refl rfl, ?_⟩
    · refine Exec.map_of (a := (none, v)) ?_
      unfold listSwapRemove
      have : v.items[i]? = none := List.getElem?_eq_none (by omega)
      simp only [this]
      rfl
    · simp only [Records]
      rw [if_neg (by omega), if_neg (by omega)]

theorem recs_list (ht : (Ty.list t).WF) (ih : Recs t) : Recs (.list t) := by
  intro m op v rt w hv hc ha ho
  cases op with
  | item i op =>
    simp only [Ty.run, runList]
    cases hx : v.items[i]? with
    | none => exact ⟨v, w, [], rfl, .refl rfl, .inl ⟨hx, rfl⟩⟩
    | some x =>
      obtain ⟨hi, ho⟩ := ho x hx
      obtain ⟨x', w', es, h1, h3, h4⟩ := ih m op x (rt.nested (fieldNo i)) w (hv.2 i x hx)
        (hc x (List.mem_of_getElem? hx)) (ha x hx) ho
      refine ⟨{ v with items := v.items.set i x' }, w', es.map (under [fieldNo i]),
        Exec.bind_of (f := fun x => pure ({ v with items := v.items.set i x } : ListV t.El)) h1, h3.nested,
        .inr ⟨x, x', es, hx, ?_, h4, rfl⟩⟩
      have hlt : i < v.items.length := by
        rcases Nat.lt_or_ge i v.items.length with h | h
        · exact h
        · rw [List.getElem?_eq_none h] at hx; cases hx
      show (v.items.set i x')[i]? = some x'
      simp [hlt]
  | push x =>
    obtain ⟨v', w', y, h1, h2, _, w1, w2, h3⟩ := rec_pushWith (m := m) (w := w)
      (f := fun runtime => pure (t.dict.setRuntime runtime x)) ht hv
      (fun w _ => ⟨_, w, rfl, sendable_same (strip_setRuntime t _ _) ho, rfl⟩)
    cases h3
    rw [encode_same (strip_setRuntime t _ x)] at h2
    exact ⟨v', w', _, h1, h2, rfl⟩
  | pushWith f =>
    obtain ⟨v', w', x, h1, h2, h3, _⟩ := rec_pushWith (m := m) (w := w) ht hv (closure_run ho rt _)
    exact ⟨v', w', _, h1, h2, x, h3, rfl⟩
  | pop =>
    obtain ⟨v', w', h1, h2⟩ := rec_pop (w := w) hv
    exact ⟨v', w', _, h1, h2, rfl⟩
  | swapRemove i => exact rec_swapRemove ht hv hc ha ho

end list

/-! ### Maps -/

section map
variable {t : Ty} {kt : KeyTy}

theorem rec_insert (ht : (Ty.map kt t).WF) {m : Mode} {v : (Ty.map kt t).El} {rt : Rt} {w0 w : World} {k : U32} {x : t.El}
    (hv : At (.map kt t) rt v) (hx : Sendable t x) (hw : w.loggers rt.logger = w0.loggers rt.logger) :
    ∃ w', (Prod.snd <$> mapInsert t.dict m v k x) w = (.ok { v with entries := entriesInsert k x v.entries }, w') ∧
      Logged rt w0 w' [.update [k] (encode t x)] := by
  obtain ⟨w1, h1, hlog⟩ := logUpdateChild_run ht.2 rt m k hx w
  refine ⟨w1, ?_, hlog.from hw⟩
  refine Exec.map_of (a := (entriesGet k v.entries, ({ v with entries := entriesInsert k x v.entries } : MapV t.El))) ?_
  unfold mapInsert
  rw [hv.1, Exec.bind_of h1]
  rfl

theorem mem_entriesInsert (k : U32) (x : t.El) (es : List (U32 × t.El)) : (k, x) ∈ entriesInsert k x es :=
  entriesGet_mem (entriesGet_insert k x es)

theorem recs_map (ht : (Ty.map kt t).WF) (ih : Recs t) : Recs (.map kt t) := by
  intro m op v rt w hv hc ha ho
  cases op with
  | value k op =>
    simp only [Ty.run, runMap]
    cases hx : entriesGet k v.entries with
    | none =>
      refine ⟨v, w, [], rfl, .refl rfl, .inl ⟨fun hk => ?_, rfl⟩⟩
      obtain ⟨x, h⟩ := entriesGet_some_of_mem hk
      rw [h] at hx; cases hx
    | some x =>
      have hm := entriesGet_mem hx
      obtain ⟨x', w', es, h1, h3, h4⟩ := ih m op x (rt.nested k) w (hv.2.2 _ hm) (hc.1 _ hm).2.2 (ha _ hm rfl)
        (ho _ hm rfl)
      exact ⟨{ v with entries := entriesInsert k x' v.entries }, w', es.map (under [k]),
        Exec.bind_of (f := fun x => pure ({ v with entries := entriesInsert k x v.entries } : MapV t.El)) h1,
        h3.nested, .inr ⟨x, x', es, hm, mem_entriesInsert k x' _, h4, rfl⟩⟩
  | insert k x =>
    obtain ⟨w', h1, h2⟩ := rec_insert (m := m) (w := w) (w0 := w) (k := k) ht hv ho.2.2 rfl
    exact ⟨_, w', _, h1, h2, rfl⟩
  | insertWith k f =>
    obtain ⟨x, w1, hx, hw1, hrun, _⟩ := paused_run rt k w (fun x => mapInsert t.dict m v k x) (closure_run ho.2.2 rt k)
    obtain ⟨w', h1, h2⟩ := rec_insert (m := m) (w := w1) (w0 := w) (k := k) ht hv hx hw1
    refine ⟨{ v with entries := entriesInsert k x v.entries }, w', _, ?_, h2, x, mem_entriesInsert k x _, rfl⟩
    obtain ⟨a, h3, h4⟩ := Exec.map_ok h1
    rw [h4]
    refine Exec.map_of (a := a) ?_
    unfold mapInsertWith
    rw [hv.1, hrun, h3]
  | remove k =>
    obtain ⟨w1, h1, h2⟩ := log_run rt (.mapRemove rt.path k) w
    refine ⟨{ v with entries := entriesRemove k v.entries }, w1, [.mapRemove [] k], ?_, ?_, rfl⟩
    · refine Exec.map_of (a := (entriesGet k v.entries, ({ v with entries := entriesRemove k v.entries } : MapV t.El))) ?_
      unfold mapRemove Rt.logMapRemove
      rw [hv.1, Exec.bind_of h1]
      rfl
    · unfold Logged
      rw [h2]
      simp [under]

end map

/-! ### Fields -/

/-- As `Recs`, for the fields of a message. -/
def RecsFields (fs : Fields) : Prop :=
  ∀ m op v rt w, AtFields fs true rt v → CarriedFields fs v → OpAddrFields fs op v → OpSyncFields fs op v →
    ∃ v' w' es, fs.run m rt op v w = (.ok v', w') ∧ Logged rt w w' es ∧ RecordsFields fs op v es v'

section fields
variable {tag : U32} {attrs : FieldAttrs} {t : Ty} {fs : Fields}

theorem recs_fields_cons (hf : (Fields.cons tag attrs t fs).WF true) (iht : Recs t)
    (ihf : RecsFields fs) : RecsFields (.cons tag attrs t fs) := by
  intro m op v rt w hv hc ha ho
  rcases op with op | op
  · obtain ⟨hn, ho⟩ := ho
    have hat : At t (rt.nested tag) v.1 := by
      have := hv.1
      simpa [hn] using this
    have setter : ∀ (x : t.El) (w0 : World), Sendable t x → w0.loggers rt.logger = w.loggers rt.logger →
        (runField (!attrs.noState) tag t.dict t.run m rt op v.1) w =
          (do
            rt.logUpdateChild t.dict m tag x
            pure x : Exec _) w0 →
        ∃ w', (Fields.cons tag attrs t fs).run m rt (.inl op) v w = (.ok (x, v.2), w') ∧
          Logged rt w w' [.update [tag] (encode t x)] := by
      intro x w0 hx hw0 hrun
      obtain ⟨w1, h1, hlog⟩ := logUpdateChild_run hf.2.2.1 rt m tag hx w0
      refine ⟨w1, ?_, hlog.from hw0⟩
      simp only [Fields.run]
      have : (runField (!attrs.noState) tag t.dict t.run m rt op v.1) w = (.ok x, w1) := by
        rw [hrun, Exec.bind_of h1]; rfl
      rw [Exec.bind_of this]
      rfl
    cases op with
    | inner op =>
      obtain ⟨x', w', es, h1, h3, h4⟩ := iht m op v.1 (rt.nested tag) w hat hc.1 ha ho
      refine ⟨(x', v.2), w', es.map (under [tag]), ?_, h3.nested, es, h4, rfl⟩
      · simp only [Fields.run, runField]
        rw [Exec.bind_of h1]
        rfl
    | set x =>
      obtain ⟨w', h1, h2⟩ := setter (t.dict.setRuntime (rt.nested tag) x) w (sendable_same (strip_setRuntime t _ _) ho) rfl
        (by simp only [runField, hn, Bool.not_false, if_true])
      rw [encode_same (strip_setRuntime t _ x)] at h2
      exact ⟨_, w', _, h1, h2, rfl⟩
    | setWith f =>
      obtain ⟨x, w1, hx, hw1, hrun, _⟩ := paused_run rt tag w
        (fun x => (do
            rt.logUpdateChild t.dict m tag x
            pure x : Exec _)) (closure_run ho rt tag)
      obtain ⟨w', h1, h2⟩ := setter x w1 hx hw1 (by
        simp only [runField, hn, Bool.not_false, if_true]
        exact hrun)
      exact ⟨_, w', _, h1, h2, rfl⟩
  · obtain ⟨y', w', es, h1, h3, h4⟩ := ihf m op v.2 rt w hv.2 hc.2 ha ho
    refine ⟨(v.1, y'), w', es, ?_, h3, h4⟩
    · simp only [Fields.run]
      rw [Exec.bind_of h1]
      rfl

end fields

theorem recs_struct {cached : Bool} {fs : Fields} (ih : RecsFields fs) : Recs (.struct true cached fs) := by
  intro m op v rt w hv hc ha ho
  obtain ⟨x', w', es, h1, h3, h4⟩ := ih m op v.fields rt w hv.2 hc ha ho
  refine ⟨{ v with fields := x' }, w', es, ?_, h3, h4⟩
  · show (do
      let fields ← fs.run m v.rt op v.fields
      pure { v with fields } : Exec (StructV fs.El)) w = _
    rw [hv.1 rfl, Exec.bind_of h1]
    rfl

/-! ### Enums -/

/-- As `Recs`, for the variants of an enum at `rt`. -/
def RecsVariants (vs : Variants) : Prop :=
  ∀ m op v rt w, VarAt vs true rt v → CarriedVariant vs v → OpAddrVariant vs op v → OpSyncVariant vs op v →
    ∃ v' w' es, vs.run m (rt.nested ((vs.dict true).tagOf v)) op v w = (.ok v', w') ∧ Logged rt w w' es ∧
      RecordsVariant vs op v es v'

theorem recs_variants_cons {tag : U32} {cached : Bool} {fs : Fields} {vs : Variants} (ihf : RecsFields fs)
    (ihv : RecsVariants vs) : RecsVariants (.cons tag cached fs vs) := by
  intro m op v rt w hv hc ha ho
  rcases op with op | op <;> rcases v with v | v
  · obtain ⟨v', w', es, h1, h3, h4⟩ := ihf m op v (rt.nested tag) w hv hc ha ho
    refine ⟨.inl v', w', es.map (under [tag]), ?_, h3.nested, es, h4, rfl⟩
    simp only [Variants.run]
    exact Exec.map_of h1
  · exact ⟨.inr v, w, [], rfl, .refl rfl, rfl⟩
  · exact ⟨.inl v, w, [], rfl, .refl rfl, rfl⟩
  · obtain ⟨v', w', es, h1, h3, h4⟩ := ihv m op v rt w hv hc ha ho
    refine ⟨.inr v', w', es, ?_, h3, h4⟩
    simp only [Variants.run]
    exact Exec.map_of h1

/-- What a setter logs does not depend on the other fields. -/
theorem records_setFields : (fs : Fields) → ∀ op, fs.isSet op = true → ∀ x y es x', RecordsFields fs op x es x' →
    RecordsFields fs op y es x'
  | .nil, op => nomatch op
  | .cons _ _ _ _, .inl (.inner _) => fun h => nomatch h
  | .cons _ _ _ _, .inl (.set _) => fun _ _ _ _ _ h => h
  | .cons _ _ _ _, .inl (.setWith _) => fun _ _ _ _ _ h => h
  | .cons _ _ _ fs, .inr op => fun hs x y es x' h => records_setFields fs op hs x.2 y.2 es x'.2 h

theorem records_set : (vs : Variants) → ∀ op, vs.isSet op = true → ∀ u u' es v', isCurrent vs op u = true →
    isCurrent vs op u' = true → RecordsVariant vs op u es v' → RecordsVariant vs op u' es v'
  | .nil, op => nomatch op
  | .cons _ _ fs _, .inl op => fun hs u u' es v' hu hu' h => by
    rcases u with u | u <;> rcases u' with u' | u' <;> try (exact Bool.noConfusion hu) <;> try (exact Bool.noConfusion hu')
    · rcases v' with v' | v'
      · obtain ⟨es', h1, h2⟩ := h
        exact ⟨es', records_setFields fs op hs _ _ _ _ h1, h2⟩
      · exact h
    · exact Bool.noConfusion hu'
  | .cons _ _ _ vs, .inr op => fun hs u u' es v' hu hu' h => by
    rcases u with u | u <;> rcases u' with u' | u'
    · exact Bool.noConfusion hu
    · exact Bool.noConfusion hu
    · exact Bool.noConfusion hu'
    · rcases v' with v' | v'
      · exact h
      · exact records_set vs op hs _ _ _ _ hu hu' h

theorem isCurrent_initial : (vs : Variants) → ∀ op, isCurrent vs op (initialVariant vs op) = true
  | .nil, op => nomatch op
  | .cons _ _ _ _, .inl _ => rfl
  | .cons _ _ _ vs, .inr op => isCurrent_initial vs op

theorem recs_enum {cached : Bool} {fs : Fields} {vs : Variants} (ht : (Ty.enum true cached fs vs).WF)
    (ih : RecsVariants (allVariants cached fs vs)) : Recs (.enum true cached fs vs) := by
  intro m op v rt w hv hc ha ho
  rw [opAddr_enum] at ha
  rw [opSync_enum] at ho
  obtain ⟨hsw, ho⟩ := ho
  have hwf : Variants.WF (allVariants cached fs vs) true := ⟨by decide, ht.1, ht.2.1, ht.2.2.2.2⟩
  have fin : ∀ (u : (Ty.enum true cached fs vs).El) (w1 : World), At (.enum true cached fs vs) rt u →
      Carried (.enum true cached fs vs) u →
      OpAddrVariant (allVariants cached fs vs) op u.val → OpSyncVariant (allVariants cached fs vs) op u.val →
      ∃ v' w' es, (do
        let val ← (allVariants cached fs vs).run m u.rt op u.val
        pure { u with val } : Exec (EnumV (fs.El ⊕ vs.El))) w1 = (.ok v', w') ∧
        Logged rt w1 w' es ∧ RecordsVariant (allVariants cached fs vs) op u.val es v'.val := by
    intro u w1 hu hcu hau hou
    rw [at_enum_iff] at hu
    rw [carried_enum] at hcu
    obtain ⟨x', w', es, h1, h3, h4⟩ := ih m op u.val rt w1 hu.2 hcu hau hou
    refine ⟨{ u with val := x' }, w', es, ?_, h3, h4⟩
    rw [hu.1, Exec.bind_of h1]
    rfl
  -- from the variants to the enum
  have out : ∀ (es' : List Entry) (v' : (Ty.enum true cached fs vs).El),
      RecordsVariant (allVariants cached fs vs) op
        (if switches (.cons 0#32 cached fs vs) op v.val then initialVariant (.cons 0#32 cached fs vs) op else v.val) es' v'.val →
      Records (.enum true cached fs vs) op v (if switches (.cons 0#32 cached fs vs) op v.val then
        .update [] (encodeVariant (.cons 0#32 cached fs vs) (initialVariant (.cons 0#32 cached fs vs) op)) :: es' else es') v' := by
    intro es' v' h
    refine ⟨es', rfl, ?_⟩
    generalize (if switches (.cons 0#32 cached fs vs) op v.val then initialVariant (.cons 0#32 cached fs vs) op else v.val) = u at h ⊢
    rcases v' with ⟨_, x' | x'⟩ <;> rcases op with op | op <;> rcases u with u | u <;> exact h
  rw [enum_run_eq]
  have hnd : (allVariants cached fs vs).tags.Nodup := List.nodup_cons.2 ⟨ht.2.2.2.1, ht.2.2.1⟩
  by_cases hcond : ((allVariants cached fs vs).dict true).tagOf v.val ≠ (allVariants cached fs vs).opTag op ∧
      (allVariants cached fs vs).isSet op = true
  · have hpar : Exec.ofExcept v.rt.parent w = (.ok rt, w) := by
      rw [((at_enum_iff cached fs vs rt v).1 hv).1, Rt.parent_nested']
      rfl
    have hS : switches (.cons 0#32 cached fs vs) op v.val = true := by
      have : ¬ isCurrent (.cons 0#32 cached fs vs) op v.val = true := fun h => hcond.1 ((isCurrent_iff _ hnd op v.val).1 h)
      unfold switches
      rw [hcond.2]
      simpa using this
    obtain ⟨val, hval, hstrip⟩ := ctor_initial (allVariants cached fs vs) hnd op (some (rt.nested ((allVariants cached fs vs).opTag op)))
    have hc' := (variantsAny (allVariants cached fs vs) true hwf).ctor_some rfl _ rt val hval
    have hat : At (.enum true cached fs vs) rt ⟨rt.nested ((allVariants cached fs vs).opTag op), val⟩ := by
      rw [at_enum_iff]
      exact ⟨by rw [hc'.2], hc'.1⟩
    have hsend : Sendable (.enum true cached fs vs) ⟨rt.nested ((allVariants cached fs vs).opTag op), val⟩ :=
      ⟨carried_enum.2 (carried_ctor _ _ _ _ _ hval), by rw [encode_enum]; exact hsw hcond.2 hcond.1 _ _ hval⟩
    obtain ⟨w1, h1, hlog⟩ := logUpdate_run ht rt m hsend w
    obtain ⟨v', w', es, h2, h4, h5⟩ := fin _ w1 hat hsend.1 (opAddr_switch _ _ _ hcond.2 hcond.1 ha _)
      (opSync_switch _ _ _ hcond.2 hcond.1 ho _)
    have := out es v'
    rw [if_pos hS, if_pos hS] at this
    refine ⟨v', w', _, (runEnum_switch hcond hpar hval h1).trans h2, hlog.trans h4, ?_⟩
    have he : encode (.enum true cached fs vs) ⟨rt.nested ((allVariants cached fs vs).opTag op), val⟩ =
        encodeVariant (.cons 0#32 cached fs vs) (initialVariant (.cons 0#32 cached fs vs) op) := by
      rw [encode_enum]
      exact (encode_stripVariant (allVariants cached fs vs) val).symm.trans ((congrArg _ hstrip).trans (encode_stripVariant (allVariants cached fs vs) _))
    rw [he]
    exact this (records_set _ _ hcond.2 _ _ _ _ ((isCurrent_iff _ hnd op val).2 hc'.2) (isCurrent_initial (allVariants cached fs vs) op) h5)
  · have hS : ¬ switches (.cons 0#32 cached fs vs) op v.val = true := by
      intro h
      unfold switches at h
      simp only [Bool.and_eq_true, Bool.not_eq_true'] at h
      refine hcond ⟨fun h' => ?_, h.1⟩
      rw [(isCurrent_iff _ hnd op v.val).2 h'] at h
      exact Bool.noConfusion h.2
    obtain ⟨v', w', es, h2, h3, h4⟩ := fin v w hv hc ha ho
    have := out es v'
    rw [if_neg hS, if_neg hS] at this
    exact ⟨v', w', es, (runEnum_stay hcond).trans h2, h3, this h4⟩

mutual
theorem recs : (t : Ty) → t.WF → Recs t
  | .uint _, _ => fun _ op => nomatch op
  | .sint _, _ => fun _ op => nomatch op
  | .bool, _ => fun _ op => nomatch op
  | .string, _ => fun _ op => nomatch op
  | .bytes, _ => fun _ op => nomatch op
  | .vec _, _ => fun _ op => nomatch op
  | .array _ _, _ => fun _ op => nomatch op
  | .tuple _, _ => fun _ op => nomatch op
  | .option _, _ => fun _ op => nomatch op
  | .hashMap _ _, _ => fun _ op => nomatch op
  | .struct false _ _, _ => fun _ op => nomatch op
  | .enum false _ _ _, _ => fun _ op => nomatch op
  | .box t, ht => recs t ht
  | .list t, ht => recs_list ht (recs t ht.2)
  | .map _ t, ht => recs_map ht (recs t ht.2)
  | .struct true _ fs, ht => recs_struct (recs_fields fs ht.2)
  | .enum true _ fs vs, ht =>
    recs_enum ht (recs_variants_cons (recs_fields fs ht.2.1) (recs_variants vs ht.2.2.2.2))

theorem recs_fields : (fs : Fields) → fs.WF true → RecsFields fs
  | .nil, _ => fun _ op => nomatch op
  | .cons _ _ t fs, hf => recs_fields_cons hf (recs t hf.2.2.1) (recs_fields fs hf.2.2.2)

theorem recs_variants : (vs : Variants) → vs.WF true → RecsVariants vs
  | .nil, _ => fun _ op => nomatch op
  | .cons _ _ fs vs, hv => recs_variants_cons (recs_fields fs hv.2.2.1) (recs_variants vs hv.2.2.2)
end

end Steit
