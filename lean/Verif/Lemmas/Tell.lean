import Verif.Lemmas.Means

/-! # API calls log entries which say what they did -/

namespace Steit
open Spec

/-- A call runs without panic, leaves a value the wire can carry, and logs entries saying what it did. -/
def Told (t : Ty) (m : Mode) (op : t.Op) (v : t.El) (rt : Rt) (w : World) : Prop :=
  ∃ v' w' es, t.run m op v w = (.ok v', w') ∧ Carried t v' ∧ Logged rt w w' es ∧ Steps (Means t) v es v'

/-- All admissible calls on a type are told. -/
def Tells (t : Ty) : Prop :=
  ∀ m op v rt w, At t rt v → Carried t v → OpAddr t op v → OpSync t op v → Told t m op v rt w

/-! ### Lists -/

section list
variable {t : Ty}

theorem fieldNo_toNat {i : Nat} (h : i < 2 ^ 32) : (fieldNo i).toNat = i := by
  simp [fieldNo, Nat.mod_eq_of_lt h]

theorem told_pushWith (ht : (Ty.list t).WF) {m : Mode} {f : Rt → Exec t.El} {v : (Ty.list t).El} {rt : Rt} {w : World}
    (hv : At (.list t) rt v) (hc : Carried (.list t) v)
    (hf : ∀ w, 0 < (w.loggers rt.logger).paused → ∃ x w', f (rt.nested (fieldNo v.items.length)) w = (.ok x, w') ∧
      Sendable t x ∧ w'.loggers rt.logger = w.loggers rt.logger) :
    ∃ v' w' es, (Prod.snd <$> listPushWith t.dict m v f) w = (.ok v', w') ∧ Carried (.list t) v' ∧ Logged rt w w' es ∧
      Steps (Means (.list t)) v es v' := by
  obtain ⟨x, w1, hx, hw1, hrun, _⟩ := paused_run rt (fieldNo v.items.length) w
    (fun item => do
      v.rt.logListPush t.dict m item
      pure ((fieldNo v.items.length).toNat, ({ v with items := v.items ++ [item] } : ListV t.El))) hf
  obtain ⟨w2, h2, hlog⟩ := logListPush_run ht.2 rt m hx w1
  refine ⟨{ v with items := v.items ++ [x] }, w2, [.listPush [] (encode t x)], ?_, ?_, hlog.from hw1, ?_⟩
  · refine Exec.map_of (a := ((fieldNo v.items.length).toNat, ({ v with items := v.items ++ [x] } : ListV t.El))) ?_
    unfold listPushWith
    rw [hv.1] at hrun ⊢
    rw [hrun, Exec.bind_of h2]
    rfl
  · intro y hy
    simp only [List.mem_append, List.mem_singleton] at hy
    rcases hy with hy | rfl
    · exact hc y hy
    · exact hx.1
  · exact .one (.inr (.inl ⟨x, hx, rfl, rfl⟩))

theorem told_pop {v : (Ty.list t).El} {rt : Rt} {w : World} (hv : At (.list t) rt v) (hc : Carried (.list t) v) :
    ∃ v' w' es, (Prod.snd <$> listPop v) w = (.ok v', w') ∧ Carried (.list t) v' ∧ Logged rt w w' es ∧
      Steps (Means (.list t)) v es v' := by
  by_cases he : v.items = []
  · refine ⟨v, w, [], ?_, hc, .refl rfl, rfl⟩
    refine Exec.map_of (a := (none, v)) ?_
    unfold listPop
    rw [if_neg (by simp [he])]
    rfl
  · obtain ⟨w1, h1, h2⟩ := log_run rt (.listPop rt.path) w
    refine ⟨{ v with items := v.items.dropLast }, w1, [.listPop []], ?_, ?_, ?_, ?_⟩
    · refine Exec.map_of (a := (v.items.getLast?, ({ v with items := v.items.dropLast } : ListV t.El))) ?_
      unfold listPop
      rw [if_pos he]
      unfold Rt.logListPop
      rw [hv.1, Exec.bind_of h1]
      rfl
    · exact fun y hy => hc y ((List.dropLast_sublist _).subset hy)
    · unfold Logged
      rw [h2]
      simp [under]
    · exact .one (.inr (.inr (.inl ⟨he, rfl, rfl⟩)))

theorem dropLast_set {α : Type} (xs : List α) (i : Nat) (x : α) (h : i + 1 < xs.length) :
    (xs.set i x).dropLast = xs.dropLast.set i x := by
  rcases List.eq_nil_or_concat xs with rfl | ⟨ys, y, rfl⟩
  · rfl
  · simp only [List.concat_eq_append, List.length_append, List.length_singleton] at h
    rw [List.concat_eq_append, List.set_append_left _ _ (by omega), List.dropLast_concat, List.dropLast_concat]

theorem told_swapRemove (ht : (Ty.list t).WF) {m : Mode} {i : Nat} {v : (Ty.list t).El} {rt : Rt} {w : World}
    (hv : At (.list t) rt v) (hc : Carried (.list t) v) (ha : shape t = .enum → v.items.length ≤ i + 1)
    (ho : i + 1 < v.items.length → i < 2 ^ 32 ∧ ∀ x, v.items.getLast? = some x → (encode t x).length < 2 ^ 32) :
    ∃ v' w' es, (Prod.snd <$> listSwapRemove t.dict m v i) w = (.ok v', w') ∧ Carried (.list t) v' ∧ Logged rt w w' es ∧
      Steps (Means (.list t)) v es v' := by
  by_cases hi : i < v.items.length
  · obtain ⟨removed, hr⟩ : ∃ x, v.items[i]? = some x := ⟨_, List.getElem?_eq_getElem hi⟩
    obtain ⟨last, hla⟩ : ∃ x, v.items.getLast? = some x := by
      cases h : v.items.getLast? with
      | none => rw [List.getLast?_eq_none_iff] at h; rw [h] at hi; simp at hi
      | some x => exact ⟨x, rfl⟩
    have hm : last ∈ v.items := List.mem_of_getLast? hla
    by_cases hi' : i + 1 = v.items.length
    · have : listSwapRemove t.dict m v i = listPop v := by
        unfold listSwapRemove
        simp only [hr, hla, if_pos hi']
      rw [this]
      exact told_pop hv hc
    · have hlt : i + 1 < v.items.length := by omega
      obtain ⟨hi32, hsmall⟩ := ho hlt
      have hsend : Sendable t last := ⟨hc _ hm, hsmall _ hla⟩
      obtain ⟨w1, h1, hw1⟩ := toBytesNow_run ht.2 m hsend w
      obtain ⟨w2, h2, hw2⟩ := logMulti_run rt [.listPop rt.path, .update (rt.path ++ [fieldNo i]) (encode t last)] w1
      -- whatever the moved item's runtime becomes
      have fin : ∀ last', strip t last' = strip t last →
          (Prod.snd <$> listSwapRemove t.dict m v i) w = (.ok { v with items := vecSwapRemove v.items i last' }, w2) →
          ∃ v' w' es, (Prod.snd <$> listSwapRemove t.dict m v i) w = (.ok v', w') ∧ Carried (.list t) v' ∧
            Logged rt w w' es ∧ Steps (Means (.list t)) v es v' := by
        intro last' hl' hrun
        refine ⟨_, w2, [.listPop [], .update [fieldNo i] (encode t last)], hrun, ?_, ?_, ?_⟩
        · intro y hy
          have hy' := (List.dropLast_sublist _).subset hy
          rcases List.mem_or_eq_of_mem_set hy' with h | rfl
          · exact hc y h
          · exact (carried_same hl').2 hsend.1
        · unfold Logged
          rw [hw2, hw1]
          simp [under]
        · have hne : v.items ≠ [] := fun h0 => by rw [h0] at hlt; simp at hlt
          have hlt' : i < v.items.dropLast.length := by rw [List.length_dropLast]; omega
          refine ⟨{ v with items := v.items.dropLast }, .inr (.inr (.inl ⟨hne, rfl, rfl⟩)), .one (.inr (.inr (.inr
            ⟨i, _, .update [] (encode t last), last', hi32, List.getElem?_eq_getElem hlt',
              .inl ⟨by rw [encode_same hl'], sendable_same hl' hsend⟩, rfl, ?_⟩)))⟩
          exact dropLast_set _ _ _ hlt
      by_cases hw : t.dict.wire = .sized
      · have hat := runtime_at t ht.1 _ removed (hv.2 i removed hr)
        have hpl : t.dict.runtime removed = some (rt.nested (fieldNo i)) := by
          cases hsh : shape t with
          | prim => exact absurd hsh ((wire_shape t ht.1).1 hw)
          | plain => rw [hsh] at hat; exact hat
          | enum => have := ha hsh; omega
        refine fin (t.dict.setRuntime (rt.nested (fieldNo i)) last) (strip_setRuntime t _ _) ?_
        refine Exec.map_of (a := (some removed,
          ({ v with items := vecSwapRemove v.items i (t.dict.setRuntime (rt.nested (fieldNo i)) last) } : ListV t.El))) ?_
        unfold listSwapRemove
        simp only [hr, hla, if_neg hi']
        rw [Exec.bind_of h1, hv.1, Exec.bind_of h2]
        simp only [hw, if_true, hpl, Rt.sibling_nested]
        rfl
      · refine fin last rfl ?_
        refine Exec.map_of (a := (some removed, ({ v with items := vecSwapRemove v.items i last } : ListV t.El))) ?_
        unfold listSwapRemove
        simp only [hr, hla, if_neg hi']
        rw [Exec.bind_of h1, hv.1, Exec.bind_of h2]
        simp only [hw, if_false]
        rfl
  · refine ⟨v, w, [], ?_, hc, .refl rfl, rfl⟩
    refine Exec.map_of (a := (none, v)) ?_
    unfold listSwapRemove
    have : v.items[i]? = none := List.getElem?_eq_none (by omega)
    simp only [this]
    rfl

theorem tells_list (ht : (Ty.list t).WF) (ih : Tells t) : Tells (.list t) := by
  intro m op v rt w hv hc ha ho
  cases op with
  | item i op =>
    unfold Told
    simp only [Ty.run, runList]
    cases hx : v.items[i]? with
    | none => exact ⟨v, w, [], rfl, hc, .refl rfl, rfl⟩
    | some x =>
      obtain ⟨hi, ho⟩ := ho x hx
      obtain ⟨x', w', es, h1, h2, h3, h4⟩ := ih m op x (rt.nested (fieldNo i)) w (hv.2 i x hx)
        (hc x (List.mem_of_getElem? hx)) (ha x hx) ho
      refine ⟨{ v with items := v.items.set i x' }, w', es.map (under [fieldNo i]),
        Exec.bind_of (f := fun x => pure ({ v with items := v.items.set i x } : ListV t.El)) h1, ?_, h3.nested,
        ?_⟩
      · intro y hy
        rcases List.mem_or_eq_of_mem_set hy with h | rfl
        · exact hc y h
        · exact h2
      · exact steps_item hi hx h4
  | push x =>
    refine told_pushWith ht hv hc (fun w _ => ⟨_, w, rfl, sendable_same (strip_setRuntime t _ _) ho, rfl⟩)
  | pushWith f => exact told_pushWith ht hv hc (closure_run ho rt _)
  | pop => exact told_pop hv hc
  | swapRemove i => exact told_swapRemove ht hv hc ha ho

end list

/-! ### Maps -/

section map
variable {t : Ty} {kt : KeyTy}

theorem carried_map_insert {v : (Ty.map kt t).El} {k : U32} {x : t.El} (hc : Carried (.map kt t) v) (hk : k.toNat ≤ kt.max)
    (hk' : k.toNat < 2 ^ 29) (hx : Carried t x) : Carried (.map kt t) { v with entries := entriesInsert k x v.entries } := by
  refine ⟨fun e he => ?_, entriesInsert_nodup _ _ _ hc.2⟩
  rcases entriesInsert_mem he with h | rfl
  · exact hc.1 e h
  · exact ⟨hk, hk', hx⟩

theorem told_insert (ht : (Ty.map kt t).WF) {m : Mode} {v : (Ty.map kt t).El} {rt : Rt} {w0 w : World} {k : U32} {x : t.El}
    (hv : At (.map kt t) rt v) (hc : Carried (.map kt t) v) (hk : k.toNat ≤ kt.max) (hk' : k.toNat < 2 ^ 29)
    (hx : Sendable t x) (hw : w.loggers rt.logger = w0.loggers rt.logger) :
    ∃ v' w' es, (Prod.snd <$> mapInsert t.dict m v k x) w = (.ok v', w') ∧ Carried (.map kt t) v' ∧ Logged rt w0 w' es ∧
      Steps (Means (.map kt t)) v es v' := by
  obtain ⟨w1, h1, hlog⟩ := logUpdateChild_run ht.2 rt m k hx w
  refine ⟨{ v with entries := entriesInsert k x v.entries }, w1, [.update [k] (encode t x)], ?_,
    carried_map_insert hc hk hk' hx.1, hlog.from hw, ?_⟩
  · refine Exec.map_of (a := (entriesGet k v.entries, ({ v with entries := entriesInsert k x v.entries } : MapV t.El))) ?_
    unfold mapInsert
    rw [hv.1, Exec.bind_of h1]
    rfl
  · exact .one (.inr (.inl ⟨k, x, hk, hk', hx, rfl, rfl⟩))

theorem tells_map (ht : (Ty.map kt t).WF) (ih : Tells t) : Tells (.map kt t) := by
  intro m op v rt w hv hc ha ho
  cases op with
  | value k op =>
    unfold Told
    simp only [Ty.run, runMap]
    cases hx : entriesGet k v.entries with
    | none => exact ⟨v, w, [], rfl, hc, .refl rfl, rfl⟩
    | some x =>
      have hm := entriesGet_mem hx
      obtain ⟨x', w', es, h1, h2, h3, h4⟩ := ih m op x (rt.nested k) w (hv.2.2 _ hm) (hc.1 _ hm).2.2 (ha _ hm rfl)
        (ho _ hm rfl)
      refine ⟨{ v with entries := entriesInsert k x' v.entries }, w', es.map (under [k]),
        Exec.bind_of (f := fun x => pure ({ v with entries := entriesInsert k x v.entries } : MapV t.El)) h1,
        carried_map_insert hc (hc.1 _ hm).1 (hc.1 _ hm).2.1 h2, h3.nested, steps_value hx h4⟩
  | insert k x => exact told_insert ht hv hc ho.1 ho.2.1 ho.2.2 rfl
  | insertWith k f =>
    obtain ⟨x, w1, hx, hw1, hrun, _⟩ := paused_run rt k w (fun x => mapInsert t.dict m v k x) (closure_run ho.2.2 rt k)
    obtain ⟨v', w', es, h1, h2⟩ := told_insert (m := m) (w := w1) (w0 := w) ht hv hc ho.1 ho.2.1 hx hw1
    refine ⟨v', w', es, ?_, h2⟩
    obtain ⟨a, h3, rfl⟩ := Exec.map_ok h1
    refine Exec.map_of (a := a) ?_
    unfold mapInsertWith
    rw [hv.1, hrun, h3]
  | remove k =>
    obtain ⟨w1, h1, h2⟩ := log_run rt (.mapRemove rt.path k) w
    refine ⟨{ v with entries := entriesRemove k v.entries }, w1, [.mapRemove [] k], ?_, ?_, ?_, ?_⟩
    · refine Exec.map_of (a := (entriesGet k v.entries, ({ v with entries := entriesRemove k v.entries } : MapV t.El))) ?_
      unfold mapRemove Rt.logMapRemove
      rw [hv.1, Exec.bind_of h1]
      rfl
    · exact ⟨fun e he => hc.1 e (entriesRemove_mem he), entriesRemove_nodup _ _ hc.2⟩
    · unfold Logged
      rw [h2]
      simp [under]
    · exact .one (.inr (.inr (.inl ⟨k, ho, hc.2, rfl, rfl⟩)))

end map

/-! ### Fields -/

/-- As `Tells`, for the fields of a message. -/
def TellsFields (fs : Fields) : Prop :=
  ∀ m op v rt w, AtFields fs true rt v → CarriedFields fs v → OpAddrFields fs op v → OpSyncFields fs op v →
    ∃ v' w' es, fs.run m rt op v w = (.ok v', w') ∧ CarriedFields fs v' ∧ Logged rt w w' es ∧
      Steps (InsideFields fs) v es v'

section fields
variable {tag : U32} {attrs : FieldAttrs} {t : Ty} {fs : Fields}

theorem tells_fields_cons (hf : (Fields.cons tag attrs t fs).WF true) (hnew : tag ∉ fs.tags) (iht : Tells t)
    (ihf : TellsFields fs) : TellsFields (.cons tag attrs t fs) := by
  intro m op v rt w hv hc ha ho
  rcases op with op | op
  · obtain ⟨hn, ho⟩ := ho
    have hst : t.isState = true := hf.2.1 (by simp [hn])
    have hat : At t (rt.nested tag) v.1 := by
      have := hv.1
      simpa [hn] using this
    -- a setter: the field becomes `x`, which is logged
    have setter : ∀ (x : t.El) (w0 : World), Sendable t x → w0.loggers rt.logger = w.loggers rt.logger →
        (runField (!attrs.noState) tag t.dict t.run m rt op v.1) w =
          (do
            rt.logUpdateChild t.dict m tag x
            pure x : Exec _) w0 →
        ∃ v' w' es, (Fields.cons tag attrs t fs).run m rt (.inl op) v w = (.ok v', w') ∧
          CarriedFields (.cons tag attrs t fs) v' ∧ Logged rt w w' es ∧
          Steps (InsideFields (.cons tag attrs t fs)) v es v' := by
      intro x w0 hx hw0 hrun
      obtain ⟨w1, h1, hlog⟩ := logUpdateChild_run hf.2.2.1 rt m tag hx w0
      refine ⟨(x, v.2), w1, [.update [tag] (encode t x)], ?_, ⟨hx.1, hc.2⟩, hlog.from hw0, ?_⟩
      · simp only [Fields.run]
        have : (runField (!attrs.noState) tag t.dict t.run m rt op v.1) w = (.ok x, w1) := by
          rw [hrun, Exec.bind_of h1]; rfl
        rw [Exec.bind_of this]
        rfl
      · exact .one (.inl ⟨hn, rfl, .update [] (encode t x), .inl ⟨rfl, hx⟩, rfl⟩)
    cases op with
    | inner op =>
      obtain ⟨x', w', es, h1, h2, h3, h4⟩ := iht m op v.1 (rt.nested tag) w hat hc.1 ha ho
      refine ⟨(x', v.2), w', es.map (under [tag]), ?_, ⟨h2, hc.2⟩, h3.nested, steps_field hn h4⟩
      · simp only [Fields.run, runField]
        rw [Exec.bind_of h1]
        rfl
    | set x =>
      refine setter (t.dict.setRuntime (rt.nested tag) x) w (sendable_same (strip_setRuntime t _ _) ho) rfl ?_
      simp only [runField, hn, Bool.not_false, if_true]
    | setWith f =>
      obtain ⟨x, w1, hx, hw1, hrun, _⟩ := paused_run rt tag w
        (fun x => (do
            rt.logUpdateChild t.dict m tag x
            pure x : Exec _)) (closure_run ho rt tag)
      refine setter x w1 hx hw1 ?_
      simp only [runField, hn, Bool.not_false, if_true]
      exact hrun
  · obtain ⟨y', w', es, h1, h2, h3, h4⟩ := ihf m op v.2 rt w hv.2 hc.2 ha ho
    refine ⟨(v.1, y'), w', es, ?_, ⟨hc.1, h2⟩, h3, steps_fields_tail h4⟩
    · simp only [Fields.run]
      rw [Exec.bind_of h1]
      rfl

end fields

theorem tells_struct {cached : Bool} {fs : Fields} (ih : TellsFields fs) : Tells (.struct true cached fs) := by
  intro m op v rt w hv hc ha ho
  obtain ⟨x', w', es, h1, h2, h3, h4⟩ := ih m op v.fields rt w hv.2 hc ha ho
  refine ⟨{ v with fields := x' }, w', es, ?_, h2, h3, steps_struct h4⟩
  · show (do
      let fields ← fs.run m v.rt op v.fields
      pure { v with fields } : Exec (StructV fs.El)) w = _
    rw [hv.1 rfl, Exec.bind_of h1]
    rfl

/-! ### Enums -/

/-- As `Tells`, for the variants of an enum at `rt`. -/
def TellsVariants (vs : Variants) : Prop :=
  ∀ m op v rt w, VarAt vs true rt v → CarriedVariant vs v → OpAddrVariant vs op v → OpSyncVariant vs op v →
    ∃ v' w' es, vs.run m (rt.nested ((vs.dict true).tagOf v)) op v w = (.ok v', w') ∧ CarriedVariant vs v' ∧
      Logged rt w w' es ∧ Steps (InsideVariant vs) v es v'

theorem tells_variants_cons {tag : U32} {cached : Bool} {fs : Fields} {vs : Variants} (ihf : TellsFields fs)
    (ihv : TellsVariants vs) : TellsVariants (.cons tag cached fs vs) := by
  intro m op v rt w hv hc ha ho
  rcases op with op | op <;> rcases v with v | v
  · obtain ⟨v', w', es, h1, h2, h3, h4⟩ := ihf m op v (rt.nested tag) w hv hc ha ho
    refine ⟨.inl v', w', es.map (under [tag]), ?_, h2, h3.nested, ?_⟩
    · simp only [Variants.run]
      exact Exec.map_of h1
    · exact h4.lift (N := InsideVariant (.cons tag cached fs vs)) (fun z => (Sum.inl z : fs.El ⊕ vs.El)) (under [tag])
        (fun _ e _ hy => ⟨e, rfl, hy⟩)
  · exact ⟨.inr v, w, [], rfl, hc, .refl rfl, rfl⟩
  · exact ⟨.inl v, w, [], rfl, hc, .refl rfl, rfl⟩
  · obtain ⟨v', w', es, h1, h2, h3, h4⟩ := ihv m op v rt w hv hc ha ho
    refine ⟨.inr v', w', es, ?_, h2, h3, ?_⟩
    · simp only [Variants.run]
      exact Exec.map_of h1
    · exact h4.lift_id (N := InsideVariant (.cons tag cached fs vs)) (fun z => (Sum.inr z : fs.El ⊕ vs.El))
        (fun _ _ _ hy => hy)

theorem opSync_enum (cached : Bool) (fs : Fields) (vs : Variants) (op : (Ty.enum true cached fs vs).Op)
    (v : (Ty.enum true cached fs vs).El) :
    OpSync (.enum true cached fs vs) op v ↔
      SwitchSync (allVariants cached fs vs) op v.val ∧ OpSyncVariant (allVariants cached fs vs) op v.val := by
  rcases v with ⟨_, x | x⟩ <;> rcases op with op | op <;> exact Iff.rfl

theorem opSync_switch : (vs : Variants) → ∀ op v, vs.isSet op = true → (vs.dict true).tagOf v ≠ vs.opTag op →
    OpSyncVariant vs op v → ∀ x, OpSyncVariant vs op x
  | .nil, op, _, _, _, _, _ => nomatch op
  | .cons _ _ _ _, .inl _, .inl _, _, hne, _, _ => absurd rfl hne
  | .cons _ _ _ _, .inl _, .inr _, hs, _, h, .inl x => h hs x
  | .cons _ _ _ _, .inl _, .inr _, hs, _, h, .inr _ => fun _ => h hs
  | .cons _ _ _ _, .inr _, .inl _, hs, _, h, .inl _ => fun _ => h hs
  | .cons _ _ _ _, .inr _, .inl _, hs, _, h, .inr x => h hs x
  | .cons _ _ _ vs, .inr op, .inr v, hs, hne, h, .inl _ => fun _ => opSync_switch vs op v hs hne h
  | .cons _ _ _ vs, .inr op, .inr v, hs, hne, h, .inr x => opSync_switch vs op v hs hne h x

theorem carried_enum {cached : Bool} {fs : Fields} {vs : Variants} {a : (Ty.enum true cached fs vs).El} :
    Carried (.enum true cached fs vs) a ↔ CarriedVariant (allVariants cached fs vs) a.val := by
  rcases a with ⟨_, x | x⟩ <;> exact Iff.rfl

theorem encode_enum {cached : Bool} {fs : Fields} {vs : Variants} {a : (Ty.enum true cached fs vs).El} :
    encode (.enum true cached fs vs) a = encodeVariant (allVariants cached fs vs) a.val := by
  rcases a with ⟨_, x | x⟩ <;> rfl

theorem runEnum_stay {γ : Type} {d : Dict (EnumV γ)} {vs : VariantsD γ} {m : Mode} {tag : U32} {isSet : Bool}
    {runFields : Rt → γ → Exec γ} {v : EnumV γ} {w : World} (h : ¬ (vs.tagOf v.val ≠ tag ∧ isSet = true)) :
    runEnum d vs m tag isSet runFields v w = (do
      let val ← runFields v.rt v.val
      pure { v with val } : Exec (EnumV γ)) w := by
  unfold runEnum
  rw [if_neg h]
  rfl

theorem runEnum_none {γ : Type} {d : Dict (EnumV γ)} {vs : VariantsD γ} {m : Mode} {tag : U32} {isSet : Bool}
    {runFields : Rt → γ → Exec γ} {v : EnumV γ} {w : World} {rt : Rt} (h : vs.tagOf v.val ≠ tag ∧ isSet = true)
    (hpar : Exec.ofExcept v.rt.parent w = (.ok rt, w)) (hval : vs.ctor tag (some (rt.nested tag)) = none) :
    runEnum d vs m tag isSet runFields v w = (do
      let val ← runFields v.rt v.val
      pure { v with val } : Exec (EnumV γ)) w := by
  unfold runEnum
  rw [if_pos h]
  refine Exec.bind_of ?_
  rw [Exec.bind_of hpar, hval]
  rfl

theorem runEnum_switch {γ : Type} {d : Dict (EnumV γ)} {vs : VariantsD γ} {m : Mode} {tag : U32} {isSet : Bool}
    {runFields : Rt → γ → Exec γ} {v : EnumV γ} {w w1 : World} {rt : Rt} {val : γ} (h : vs.tagOf v.val ≠ tag ∧ isSet = true)
    (hpar : Exec.ofExcept v.rt.parent w = (.ok rt, w)) (hval : vs.ctor tag (some (rt.nested tag)) = some val)
    (hlog : rt.logUpdate d m ⟨rt.nested tag, val⟩ w = (.ok (), w1)) :
    runEnum d vs m tag isSet runFields v w = (do
      let val ← runFields (rt.nested tag) val
      pure ⟨rt.nested tag, val⟩ : Exec (EnumV γ)) w1 := by
  unfold runEnum
  rw [if_pos h]
  refine Exec.bind_of (a := (⟨rt.nested tag, val⟩ : EnumV γ)) ?_
  rw [Exec.bind_of hpar, hval]
  simp only
  rw [Exec.bind_of hlog]
  rfl

theorem tells_enum {cached : Bool} {fs : Fields} {vs : Variants} (ht : (Ty.enum true cached fs vs).WF)
    (ih : TellsVariants (allVariants cached fs vs)) : Tells (.enum true cached fs vs) := by
  intro m op v rt w hv hc ha ho
  rw [opAddr_enum] at ha
  rw [opSync_enum] at ho
  obtain ⟨hsw, ho⟩ := ho
  have hwf : Variants.WF (allVariants cached fs vs) true := ⟨by decide, ht.1, ht.2.1, ht.2.2.2.2⟩
  -- the fields of the (possibly new) variant
  have fin : ∀ (u : (Ty.enum true cached fs vs).El) (w1 : World), At (.enum true cached fs vs) rt u →
      Carried (.enum true cached fs vs) u →
      OpAddrVariant (allVariants cached fs vs) op u.val → OpSyncVariant (allVariants cached fs vs) op u.val →
      ∃ v' w' es, (do
        let val ← (allVariants cached fs vs).run m u.rt op u.val
        pure { u with val } : Exec (EnumV (fs.El ⊕ vs.El))) w1 = (.ok v', w') ∧ Carried (.enum true cached fs vs) v' ∧
        Logged rt w1 w' es ∧ Steps (Means (.enum true cached fs vs)) u es v' := by
    intro u w1 hu hcu hau hou
    rw [at_enum_iff] at hu
    rw [carried_enum] at hcu
    obtain ⟨x', w', es, h1, h2, h3, h4⟩ := ih m op u.val rt w1 hu.2 hcu hau hou
    refine ⟨{ u with val := x' }, w', es, ?_, carried_enum.2 h2, h3, steps_enum h4⟩
    rw [hu.1, Exec.bind_of h1]
    rfl
  unfold Told
  rw [enum_run_eq]
  by_cases hcond : ((allVariants cached fs vs).dict true).tagOf v.val ≠ (allVariants cached fs vs).opTag op ∧
      (allVariants cached fs vs).isSet op = true
  · have hpar : Exec.ofExcept v.rt.parent w = (.ok rt, w) := by
      rw [((at_enum_iff cached fs vs rt v).1 hv).1, Rt.parent_nested']
      rfl
    cases hval : ((allVariants cached fs vs).dict true).ctor ((allVariants cached fs vs).opTag op)
        (some (rt.nested ((allVariants cached fs vs).opTag op))) with
    | some val =>
      have hc' := (variantsAny (allVariants cached fs vs) true hwf).ctor_some rfl _ rt val hval
      have hat : At (.enum true cached fs vs) rt ⟨rt.nested ((allVariants cached fs vs).opTag op), val⟩ := by
        rw [at_enum_iff]
        exact ⟨by rw [hc'.2], hc'.1⟩
      have hsend : Sendable (.enum true cached fs vs) ⟨rt.nested ((allVariants cached fs vs).opTag op), val⟩ :=
        ⟨carried_enum.2 (carried_ctor _ _ _ _ _ hval), by rw [encode_enum]; exact hsw hcond.2 hcond.1 _ _ hval⟩
      obtain ⟨w1, h1, hlog⟩ := logUpdate_run ht rt m hsend w
      obtain ⟨v', w', es, h2, h3, h4, h5⟩ := fin _ w1 hat hsend.1 (opAddr_switch _ _ _ hcond.2 hcond.1 ha _)
        (opSync_switch _ _ _ hcond.2 hcond.1 ho _)
      refine ⟨v', w', _, ?_, h3, hlog.trans h4, ?_⟩
      · exact (runEnum_switch hcond hpar hval h1).trans h2
      · exact (Steps.one (.inl ⟨rfl, hsend⟩)).trans h5
    | none =>
      obtain ⟨v', w', es, h2, h3⟩ := fin v w hv hc ha ho
      refine ⟨v', w', es, ?_, h3⟩
      exact (runEnum_none hcond hpar hval).trans h2
  · obtain ⟨v', w', es, h2, h3⟩ := fin v w hv hc ha ho
    refine ⟨v', w', es, ?_, h3⟩
    exact (runEnum_stay hcond).trans h2

mutual
theorem tells : (t : Ty) → t.WF → Tells t
  | .uint _, _ => fun _ op => nomatch op
  | .sint _, _ => fun _ op => nomatch op
  | .bool, _ => fun _ op => nomatch op
  | .string, _ => fun _ op => nomatch op
  | .bytes, _ => fun _ op => nomatch op
  | .vec _, _ => fun _ op => nomatch op
  | .array _ _, _ => fun _ op => nomatch op
  | .tuple _, _ => fun _ op => nomatch op
  | .option _, _ => fun _ op => nomatch op
  | .hashMap _ _, _ => fun _ op => nomatch op
  | .struct false _ _, _ => fun _ op => nomatch op
  | .enum false _ _ _, _ => fun _ op => nomatch op
  | .box t, ht => tells t ht
  | .list t, ht => tells_list ht (tells t ht.2)
  | .map _ t, ht => tells_map ht (tells t ht.2)
  | .struct true _ fs, ht => tells_struct (tells_fields fs ht.2 ht.1)
  | .enum true _ fs vs, ht =>
    tells_enum ht (tells_variants_cons (tells_fields fs ht.2.1 ht.1) (tells_variants vs ht.2.2.2.2))

theorem tells_fields : (fs : Fields) → fs.WF true → fs.tags.Nodup → TellsFields fs
  | .nil, _, _ => fun _ op => nomatch op
  | .cons _ _ t fs, hf, hn =>
    tells_fields_cons hf (List.nodup_cons.1 hn).1 (tells t hf.2.2.1) (tells_fields fs hf.2.2.2 (List.nodup_cons.1 hn).2)

theorem tells_variants : (vs : Variants) → vs.WF true → TellsVariants vs
  | .nil, _ => fun _ op => nomatch op
  | .cons _ _ fs vs, hv => tells_variants_cons (tells_fields fs hv.2.2.1 hv.2.1) (tells_variants vs hv.2.2.2)
end

end Steit
