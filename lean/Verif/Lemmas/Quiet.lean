import Verif.Lemmas.OpsAt
import Verif.Spec.History

/-! # A paused logger stays as it is -/

namespace Steit
open Spec

variable {id : Nat}

theorem quiet_pure {α : Type} (a : α) : Quiet id (pure a : Exec α) := by
  intro w b w' _ h
  rw [(Exec.pure_ok h).2]

theorem quiet_bind {α β : Type} {x : Exec α} {f : α → Exec β} (hx : Quiet id x) (hf : ∀ a, Quiet id (f a)) :
    Quiet id (x >>= f) := by
  intro w b w' hp h
  obtain ⟨a, w1, h1, h2⟩ := Exec.bind_ok h
  have h3 := hx w a w1 hp h1
  rw [hf a w1 b w' (by rw [h3]; exact hp) h2, h3]

theorem quiet_map {α β : Type} {x : Exec α} (f : α → β) (hx : Quiet id x) : Quiet id (f <$> x) := by
  intro w b w' hp h
  obtain ⟨a, h1, _⟩ := Exec.map_ok h
  exact hx w a w' hp h1

theorem quiet_ofExcept {α : Type} (x : Except Err α) : Quiet id (Exec.ofExcept x) := by
  intro w b w' _ h
  cases h; rfl

theorem quiet_toBytes {α : Type} (d : Dict α) (m : Mode) (v : α) : Quiet id (toBytesNow d m v) := by
  intro w b w' _ h
  have h' : _ = w' := congrArg Prod.snd h
  rw [← h']
  rfl

theorem log_paused {l : LoggerSt} (h : 0 < l.paused) (e : Entry) : l.log e = l := by
  unfold LoggerSt.log
  rw [if_neg (by omega)]

theorem logMulti_paused {l : LoggerSt} (h : 0 < l.paused) (es : List Entry) : Steit.logMulti LoggerSt.log l es = l := by
  induction es with
  | nil => rfl
  | cons e es ih => rw [Steit.logMulti, log_paused h, ih]

theorem quiet_log (rt : Rt) (e : Entry) : Quiet id (rt.log e) := by
  intro w b w' hp h
  cases h
  show (if id = rt.logger then _ else _) = _
  split
  · exact log_paused hp e
  · rfl

theorem quiet_logMulti (rt : Rt) (es : List Entry) : Quiet id (rt.logMulti es) := by
  intro w b w' hp h
  cases h
  show (if id = rt.logger then _ else _) = _
  split
  · exact logMulti_paused hp es
  · rfl

theorem quiet_logUpdateChild {α : Type} (rt : Rt) (d : Dict α) (m : Mode) (k : U32) (v : α) :
    Quiet id (rt.logUpdateChild d m k v) := quiet_bind (quiet_toBytes d m v) (fun _ => quiet_log rt _)

theorem quiet_logUpdate {α : Type} (rt : Rt) (d : Dict α) (m : Mode) (v : α) : Quiet id (rt.logUpdate d m v) :=
  quiet_bind (quiet_toBytes d m v) (fun _ => quiet_log rt _)

theorem quiet_logListPush {α : Type} (rt : Rt) (d : Dict α) (m : Mode) (v : α) : Quiet id (rt.logListPush d m v) :=
  quiet_bind (quiet_toBytes d m v) (fun _ => quiet_log rt _)

/-- The pause window, run to its end. -/
theorem window_ok {α β : Type} {rt : Rt} {f : Exec α} {g : α → Exec β} {w w' : World} {b : β}
    (h : (do
      rt.pauseLogger
      let x ← f
      rt.unpauseLogger
      g x : Exec β) w = (.ok b, w')) :
    ∃ x w1 w2, f { w with loggers := fun i => if i = rt.logger then (w.loggers i).pause else w.loggers i } = (.ok x, w1) ∧
      w2.loggers = (fun i => if i = rt.logger then (w1.loggers i).unpause else w1.loggers i) ∧ g x w2 = (.ok b, w') := by
  obtain ⟨_, w0, h0, h1⟩ := Exec.bind_ok h
  obtain ⟨x, w1, h2, h3⟩ := Exec.bind_ok h1
  obtain ⟨_, w2, h4, h5⟩ := Exec.bind_ok h3
  cases h0
  cases h4
  exact ⟨x, w1, _, h2, rfl, h5⟩

theorem quiet_window {α β : Type} {rt : Rt} {f : Exec α} {g : α → Exec β} (hf : Quiet id f) (hg : ∀ x, Quiet id (g x)) :
    Quiet id (do
      rt.pauseLogger
      let x ← f
      rt.unpauseLogger
      g x : Exec β) := by
  intro w b w' hp h
  obtain ⟨x, w1, w2, h1, h2, h3⟩ := window_ok h
  have h4 := hf _ _ _ (by
    show 0 < (if id = rt.logger then _ else _ : LoggerSt).paused
    split
    · exact Nat.succ_pos _
    · exact hp) h1
  have h5 : w2.loggers id = w.loggers id := by
    rw [h2]
    simp only [h4]
    split
    · show LoggerSt.unpause ⟨(w.loggers id).paused + 1, (w.loggers id).entries⟩ = _
      unfold LoggerSt.unpause
      simp
    · rfl
  rw [hg x w2 b w' (by rw [h5]; exact hp) h3, h5]

theorem quiet_pushWith {α : Type} (d : Dict α) (m : Mode) (l : ListV α) (f : Rt → Exec α) (hf : ∀ rt, Quiet id (f rt)) :
    Quiet id (listPushWith d m l f) :=
  quiet_window (hf _) (fun _ => quiet_bind (quiet_logListPush _ _ _ _) (fun _ => quiet_pure _))

theorem quiet_pop {α : Type} (l : ListV α) : Quiet id (listPop l) := by
  unfold listPop
  split
  · exact quiet_bind (quiet_log _ _) (fun _ => quiet_pure _)
  · exact quiet_pure _

theorem quiet_swapRemove {α : Type} (d : Dict α) (m : Mode) (l : ListV α) (i : Nat) : Quiet id (listSwapRemove d m l i) := by
  unfold listSwapRemove
  split
  · split
    · exact quiet_pop l
    · refine quiet_bind (quiet_toBytes _ _ _) (fun _ => quiet_bind (quiet_logMulti _ _) (fun _ => ?_))
      split
      · exact quiet_bind (quiet_ofExcept _) (fun _ => quiet_pure _)
      · exact quiet_pure _
  · exact quiet_pure _

theorem quiet_insert {α : Type} (d : Dict α) (m : Mode) (v : MapV α) (k : U32) (x : α) : Quiet id (mapInsert d m v k x) :=
  quiet_bind (quiet_logUpdateChild _ _ _ _ _) (fun _ => quiet_pure _)

theorem quiet_runList {α ω : Type} (d : Dict α) (run : Mode → ω → α → Exec α) (m : Mode) (op : ListOp α ω) (l : ListV α)
    (hi : ∀ i op', op = .item i op' → ∀ x, Quiet id (run m op' x)) (hf : ∀ f, op = .pushWith f → ∀ rt, Quiet id (f rt)) :
    Quiet id (runList d run m op l) := by
  cases op with
  | item i op =>
    show Quiet id (match l.items[i]? with
      | some x => do
        let x ← run m op x
        pure { l with items := l.items.set i x }
      | none => pure l)
    cases l.items[i]? with
    | some x => exact quiet_bind (hi i op rfl x) (fun _ => quiet_pure _)
    | none => exact quiet_pure _
  | push x => exact quiet_map _ (quiet_pushWith d m l _ (fun _ => quiet_pure _))
  | pushWith f => exact quiet_map _ (quiet_pushWith d m l f (hf f rfl))
  | pop => exact quiet_map _ (quiet_pop l)
  | swapRemove i => exact quiet_map _ (quiet_swapRemove d m l i)

theorem quiet_runMap {α ω : Type} (d : Dict α) (run : Mode → ω → α → Exec α) (m : Mode) (op : MapOp α ω) (v : MapV α)
    (hi : ∀ k op', op = .value k op' → ∀ x, Quiet id (run m op' x))
    (hf : ∀ k f, op = .insertWith k f → ∀ rt, Quiet id (f rt)) : Quiet id (runMap d run m op v) := by
  cases op with
  | value k op =>
    show Quiet id (match entriesGet k v.entries with
      | some x => do
        let x ← run m op x
        pure { v with entries := entriesInsert k x v.entries }
      | none => pure v)
    cases entriesGet k v.entries with
    | some x => exact quiet_bind (hi k op rfl x) (fun _ => quiet_pure _)
    | none => exact quiet_pure _
  | insert k x => exact quiet_map _ (quiet_insert d m v k x)
  | insertWith k f => exact quiet_map _ (quiet_window (hf k f rfl _) (fun _ => quiet_insert d m v k _))
  | remove k => exact quiet_map _ (quiet_bind (quiet_log _ _) (fun _ => quiet_pure _))

theorem quiet_runField {α ω : Type} (isState : Bool) (tag : U32) (d : Dict α) (run : Mode → ω → α → Exec α) (m : Mode)
    (rt : Rt) (op : FieldOp α ω) (v : α) (hi : ∀ op', op = .inner op' → ∀ x, Quiet id (run m op' x))
    (hf : ∀ f, op = .setWith f → ∀ rt, Quiet id (f rt)) : Quiet id (runField isState tag d run m rt op v) := by
  cases op with
  | inner op => exact hi op rfl v
  | set x =>
    unfold runField
    simp only
    split
    · exact quiet_bind (quiet_logUpdateChild _ _ _ _ _) (fun _ => quiet_pure _)
    · exact quiet_pure _
  | setWith f =>
    unfold runField
    simp only
    split
    · exact quiet_window (hf f rfl _) (fun _ => quiet_bind (quiet_logUpdateChild _ _ _ _ _) (fun _ => quiet_pure _))
    · exact quiet_pure _

theorem quiet_runEnum {γ : Type} (d : Dict (EnumV γ)) (vs : VariantsD γ) (m : Mode) (tag : U32) (isSet : Bool)
    (runFields : Rt → γ → Exec γ) (v : EnumV γ) (hr : ∀ rt x, Quiet id (runFields rt x)) :
    Quiet id (runEnum d vs m tag isSet runFields v) := by
  unfold runEnum
  refine quiet_bind ?_ (fun _ => quiet_bind (hr _ _) (fun _ => quiet_pure _))
  split
  · refine quiet_bind (quiet_ofExcept _) (fun rt => ?_)
    cases vs.ctor tag (some (rt.nested tag)) with
    | some val => exact quiet_bind (quiet_logUpdate _ _ _ _) (fun _ => quiet_pure _)
    | none => exact quiet_pure _
  · exact quiet_pure _

mutual
theorem quiet_run : (t : Ty) → ∀ m op v, OpQuiet id t op → Quiet id (t.run m op v)
  | .uint _, _, op, _, _ => nomatch op
  | .sint _, _, op, _, _ => nomatch op
  | .bool, _, op, _, _ => nomatch op
  | .string, _, op, _, _ => nomatch op
  | .bytes, _, op, _, _ => nomatch op
  | .vec _, _, op, _, _ => nomatch op
  | .array _ _, _, op, _, _ => nomatch op
  | .tuple _, _, op, _, _ => nomatch op
  | .option _, _, op, _, _ => nomatch op
  | .hashMap _ _, _, op, _, _ => nomatch op
  | .struct false _ _, _, op, _, _ => nomatch op
  | .enum false _ _ _, _, op, _, _ => nomatch op
  | .box t, m, op, v, h => quiet_run t m op v h
  | .list t, m, op, v, h =>
    quiet_runList t.dict t.run m op v (fun _ op' e x => quiet_run t m op' x (by subst e; exact h))
      (fun _ e => by subst e; exact h)
  | .map _ t, m, op, v, h =>
    quiet_runMap t.dict t.run m op v (fun _ op' e x => quiet_run t m op' x (by subst e; exact h))
      (fun _ _ e => by subst e; exact h)
  | .struct true _ fs, m, op, v, h => quiet_bind (quiet_runFields fs m v.rt op v.fields h) (fun _ => quiet_pure _)
  | .enum true cached fs vs, m, .inl op, v, h =>
    quiet_runEnum _ _ m _ _ _ v (fun rt x => by
      cases x with
      | inl x => exact quiet_map _ (quiet_runFields fs m rt op x h)
      | inr x => exact quiet_pure _)
  | .enum true cached fs vs, m, .inr op, v, h =>
    quiet_runEnum _ _ m _ _ _ v (fun rt x => by
      cases x with
      | inl x => exact quiet_pure _
      | inr x => exact quiet_map _ (quiet_runVariant vs m rt op x h))

theorem quiet_runFields : (fs : Fields) → ∀ m rt op v, OpQuietFields id fs op → Quiet id (fs.run m rt op v)
  | .nil, _, _, op, _, _ => nomatch op
  | .cons _ attrs t _, m, rt, .inl op, v, h =>
    quiet_bind (quiet_runField _ _ t.dict t.run m rt op v.1 (fun op' e x => quiet_run t m op' x (by subst e; exact h))
      (fun _ e => by subst e; exact h)) (fun _ => quiet_pure _)
  | .cons _ _ _ fs, m, rt, .inr op, v, h => quiet_bind (quiet_runFields fs m rt op v.2 h) (fun _ => quiet_pure _)

theorem quiet_runVariant : (vs : Variants) → ∀ m rt op v, OpQuietVariant id vs op → Quiet id (vs.run m rt op v)
  | .nil, _, _, op, _, _ => nomatch op
  | .cons _ _ fs _, m, rt, .inl op, .inl x, h => quiet_map _ (quiet_runFields fs m rt op x h)
  | .cons _ _ _ vs, m, rt, .inr op, .inr x, h => quiet_map _ (quiet_runVariant vs m rt op x h)
  | .cons _ _ _ _, _, _, .inl _, .inr _, _ => quiet_pure _
  | .cons _ _ _ _, _, _, .inr _, .inl _, _ => quiet_pure _
end

theorem quiet_calls (t : Ty) (m : Mode) (ops : List t.Op) (h : ∀ op ∈ ops, OpQuiet id t op) (v : t.El) :
    Quiet id (calls t m ops v) := by
  induction ops generalizing v with
  | nil => exact quiet_pure _
  | cons op ops ih =>
    exact quiet_bind (quiet_run t m op v (h op (by simp))) (fun v' => ih (fun o ho => h o (by simp [ho])) v')

end Steit
