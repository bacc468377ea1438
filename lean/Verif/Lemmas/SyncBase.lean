import Verif.Lemmas.OpsAt
import Verif.Props.Serialization

/-! # Logging and following: building blocks -/

namespace Steit
open Spec

/-! ### Applying entries -/

/-- Apply one entry by a `handle` function. -/
def applyE {α : Type} (h : α → List U32 → LogKind → Option U32 → Bytes → Res α) (v : α) (e : Entry) : Res α :=
  match e.unpack with
  | (kind, path, key, bytes) => h v path kind key (bytes.getD [])

/-- Applying the entries one after the other succeeds. -/
def Applies {α : Type} (h : α → List U32 → LogKind → Option U32 → Bytes → Res α) : α → List Entry → α → Prop
  | v, [], v' => v' = v
  | v, e :: es, v' => ∃ u rest, applyE h v e = .ok u rest ∧ Applies h u es v'

theorem Applies.trans {α : Type} {h : α → List U32 → LogKind → Option U32 → Bytes → Res α} {es es' : List Entry} :
    ∀ {v u v' : α}, Applies h v es u → Applies h u es' v' → Applies h v (es ++ es') v' := by
  induction es with
  | nil => intro v u v' h1 h2; cases h1; exact h2
  | cons e es ih =>
    intro v u v' h1 h2
    obtain ⟨x, rest, hx, h1⟩ := h1
    exact ⟨x, rest, hx, ih h1 h2⟩

theorem Applies.one {α : Type} {h : α → List U32 → LogKind → Option U32 → Bytes → Res α} {v v' : α} {e : Entry}
    {rest : Bytes} (he : applyE h v e = .ok v' rest) : Applies h v [e] v' := ⟨v', rest, he, rfl⟩

theorem Applies.lift {α β : Type} {h : α → List U32 → LogKind → Option U32 → Bytes → Res α}
    {H : β → List U32 → LogKind → Option U32 → Bytes → Res β} (g : α → β) (f : Entry → Entry) (I : α → Prop)
    (P : Entry → Prop) (hI : ∀ x e y rest, I x → applyE h x e = .ok y rest → I y)
    (hl : ∀ x e y rest, I x → P e → applyE h x e = .ok y rest → ∃ rest', applyE H (g x) (f e) = .ok (g y) rest')
    {es : List Entry} (hP : ∀ e ∈ es, P e) : ∀ {v v' : α}, I v → Applies h v es v' → Applies H (g v) (es.map f) (g v') := by
  induction es with
  | nil => intro v v' _ ha; cases ha; rfl
  | cons e es ih =>
    intro v v' hv ha
    obtain ⟨u, rest, h1, h2⟩ := ha
    obtain ⟨rest', h3⟩ := hl v e u rest hv (hP e (by simp)) h1
    exact ⟨g u, rest', h3, ih (fun x hx => hP x (by simp [hx])) (hI _ _ _ _ hv h1) h2⟩

/-- Entries below one child. -/
theorem applyE_under {α : Type} (h : α → List U32 → LogKind → Option U32 → Bytes → Res α) (v : α) (k : U32) (e : Entry) :
    applyE h v (under [k] e) = applyE (fun v path => h v (k :: path)) v e := by
  cases e <;> rfl

theorem Applies.below {α β : Type} {h : α → List U32 → LogKind → Option U32 → Bytes → Res α}
    {H : β → List U32 → LogKind → Option U32 → Bytes → Res β} (k : U32) (g : α → β) (I : α → Prop)
    (hI : ∀ x e y rest, I x → applyE h x e = .ok y rest → I y)
    (hl : ∀ x path kind key bs y rest, I x → h x path kind key bs = .ok y rest →
      ∃ rest', H (g x) (k :: path) kind key bs = .ok (g y) rest')
    {es : List Entry} {v v' : α} (hv : I v) (ha : Applies h v es v') : Applies H (g v) (es.map (under [k])) (g v') := by
  refine Applies.lift g (under [k]) I (fun _ => True) hI ?_ (fun _ _ => trivial) hv ha
  intro x e y rest hx _ h1
  rw [applyE_under]
  cases e <;> exact hl _ _ _ _ _ _ _ hx h1

theorem applyAll_of_applies {α : Type} {d : Dict α} {m : Mode} {es : List Entry} : ∀ {v v' : α},
    Applies (d.handle m) v es v' → applyAll d m v es = .ok v' := by
  induction es with
  | nil => intro v v' h; cases h; rfl
  | cons e es ih =>
    intro v v' h
    obtain ⟨u, rest, h1, h2⟩ := h
    have h1' : applyEntry d m v e = .ok u rest := h1
    simp only [applyAll, h1']
    exact ih h2

theorem applies_at {t : Ty} (ht : t.WF) (hs : t.isState = true) {m : Mode} {rt : Rt} {es : List Entry} :
    ∀ {v v' : t.El}, At t rt v → Applies (t.dict.handle m) v es v' → At t rt v' := by
  induction es with
  | nil => intro v v' hv h; cases h; exact hv
  | cons e es ih =>
    intro v v' hv h
    obtain ⟨u, rest, h1, h2⟩ := h
    refine ih ?_ h2
    cases e <;>
    · rcases (anyLaw t ht).handle hs m rt v _ _ _ _ hv with ⟨x, r, g1, g2⟩ | ⟨x, e, g1, _⟩
      · rw [show t.dict.handle m v _ _ _ _ = _ from h1] at g1
        cases g1; exact g2
      · rw [show t.dict.handle m v _ _ _ _ = _ from h1] at g1
        cases g1

/-! ### Logging -/

theorem under_under (p q : List U32) (e : Entry) : under p (under q e) = under (p ++ q) e := by
  cases e <;> simp [under, List.append_assoc]

theorem under_nil (e : Entry) : under [] e = e := by cases e <;> rfl

theorem appended_nil (l : LoggerSt) : appended l [] = l := by
  unfold appended
  split
  · rw [List.append_nil]
  · rfl

theorem appended_append (l : LoggerSt) (es es' : List Entry) : appended (appended l es) es' = appended l (es ++ es') := by
  unfold appended
  by_cases h : l.paused = 0
  · simp only [h, if_true, List.append_assoc]
  · simp only [h, if_false]

theorem Spec.Logged.refl {rt : Rt} {w w' : World} (h : w'.loggers rt.logger = w.loggers rt.logger) : Logged rt w w' [] := by
  unfold Logged
  rw [List.map_nil, appended_nil, h]

theorem Spec.Logged.trans {rt : Rt} {w w1 w2 : World} {es es' : List Entry} (h : Logged rt w w1 es)
    (h' : Logged rt w1 w2 es') : Logged rt w w2 (es ++ es') := by
  unfold Logged at *
  rw [h', h, appended_append, List.map_append]

theorem Spec.Logged.nested {rt : Rt} {k : U32} {w w' : World} {es : List Entry} (h : Logged (rt.nested k) w w' es) :
    Logged rt w w' (es.map (under [k])) := by
  unfold Logged at *
  rw [List.map_map]
  have : (under rt.path ∘ under [k]) = under (rt.nested k).path := by
    funext e
    rw [Function.comp, under_under]
    rfl
  rw [this]
  exact h

theorem Spec.Logged.from {rt : Rt} {w0 w w' : World} {es : List Entry} (h : Logged rt w w' es)
    (h0 : w.loggers rt.logger = w0.loggers rt.logger) : Logged rt w0 w' es := by
  unfold Logged at *
  rw [h, h0]

theorem log_eq (l : LoggerSt) (e : Entry) : l.log e = appended l [e] := rfl

theorem logMulti_eq (es : List Entry) : ∀ l : LoggerSt, Steit.logMulti LoggerSt.log l es = appended l es := by
  induction es with
  | nil => intro l; rw [appended_nil]; rfl
  | cons e es ih =>
    intro l
    rw [Steit.logMulti, ih, log_eq, appended_append]
    rfl

theorem log_run (rt : Rt) (e : Entry) (w : World) :
    ∃ w', rt.log e w = (.ok (), w') ∧ w'.loggers rt.logger = appended (w.loggers rt.logger) [e] :=
  ⟨_, rfl, by simp [log_eq, World.onLogger]⟩

theorem logMulti_run (rt : Rt) (es : List Entry) (w : World) :
    ∃ w', rt.logMulti es w = (.ok (), w') ∧ w'.loggers rt.logger = appended (w.loggers rt.logger) es :=
  ⟨_, rfl, by simp [logMulti_eq, World.onLogger]⟩

theorem toBytesNow_run {t : Ty} (ht : t.WF) (m : Mode) {x : t.El} (hx : Sendable t x) (w : World) :
    ∃ w', toBytesNow t.dict m x w = (.ok (encode t x), w') ∧ w'.loggers = w.loggers := by
  show ∃ w', (t.dict.toBytesFrom m (w.caches 0) x, _) = _ ∧ _
  rw [toBytes_eq t ht m _ x (carried_writable t x hx.1) hx.2]
  exact ⟨_, rfl, rfl⟩

theorem logBytes_run {t : Ty} (ht : t.WF) (rt : Rt) (m : Mode) {x : t.El} (hx : Sendable t x) (w : World)
    (e : Bytes → Entry) (rel : Entry) (he : e (encode t x) = under rt.path rel) :
    ∃ w', (do
      let bytes ← toBytesNow t.dict m x
      rt.log (e bytes) : Exec Unit) w = (.ok (), w') ∧ Logged rt w w' [rel] := by
  obtain ⟨w1, h1, h2⟩ := toBytesNow_run ht m hx w
  obtain ⟨w2, h3, h4⟩ := log_run rt (e (encode t x)) w1
  refine ⟨w2, by rw [Exec.bind_of h1]; exact h3, ?_⟩
  unfold Logged
  rw [h4, h2, he]
  rfl

theorem logUpdate_run {t : Ty} (ht : t.WF) (rt : Rt) (m : Mode) {x : t.El} (hx : Sendable t x) (w : World) :
    ∃ w', rt.logUpdate t.dict m x w = (.ok (), w') ∧ Logged rt w w' [.update [] (encode t x)] :=
  logBytes_run ht rt m hx w (fun b => .update rt.path b) _ (by simp [under])

theorem logUpdateChild_run {t : Ty} (ht : t.WF) (rt : Rt) (m : Mode) (k : U32) {x : t.El} (hx : Sendable t x) (w : World) :
    ∃ w', rt.logUpdateChild t.dict m k x w = (.ok (), w') ∧ Logged rt w w' [.update [k] (encode t x)] :=
  logBytes_run ht rt m hx w (fun b => .update (rt.path ++ [k]) b) _ (by simp [under])

theorem logListPush_run {t : Ty} (ht : t.WF) (rt : Rt) (m : Mode) {x : t.El} (hx : Sendable t x) (w : World) :
    ∃ w', rt.logListPush t.dict m x w = (.ok (), w') ∧ Logged rt w w' [.listPush [] (encode t x)] :=
  logBytes_run ht rt m hx w (fun b => .listPush rt.path b) _ (by simp [under])

/-- The pause window of a `*_with` method. -/
theorem paused_run {t : Ty} {β : Type} {f : Rt → Exec t.El} (rt : Rt) (k : U32) (w : World) (g : t.El → Exec β)
    (hf : ∀ w, 0 < (w.loggers rt.logger).paused → ∃ x w', f (rt.nested k) w = (.ok x, w') ∧ Sendable t x ∧
      w'.loggers rt.logger = w.loggers rt.logger) :
    ∃ x w', Sendable t x ∧ w'.loggers rt.logger = w.loggers rt.logger ∧
      (do
        rt.pauseLogger
        let x ← f (rt.nested k)
        rt.unpauseLogger
        g x : Exec β) w = g x w' ∧ ∃ w1 w2, f (rt.nested k) w1 = (.ok x, w2) := by
  have h1 : rt.pauseLogger w = (.ok (), { w with loggers := fun i => if i = rt.logger then (w.loggers i).pause else w.loggers i }) :=
    rfl
  obtain ⟨x, w2, h2, h3, h4⟩ := hf
    { w with loggers := fun i => if i = rt.logger then (w.loggers i).pause else w.loggers i } (by simp [LoggerSt.pause])
  have h5 : rt.unpauseLogger w2 =
      (.ok (), { w2 with loggers := fun i => if i = rt.logger then (w2.loggers i).unpause else w2.loggers i }) := rfl
  refine ⟨x, { w2 with loggers := fun i => if i = rt.logger then (w2.loggers i).unpause else w2.loggers i }, h3, ?_, ?_,
    _, _, h2⟩
  · simp only [if_true, h4, LoggerSt.pause, LoggerSt.unpause]
    simp
  · rw [Exec.bind_of h1, Exec.bind_of h2, Exec.bind_of h5]

theorem closure_run {t : Ty} {f : Rt → Exec t.El} (hf : ClosureSync t f) (rt : Rt) (k : U32) :
    ∀ w, 0 < (w.loggers rt.logger).paused → ∃ x w', f (rt.nested k) w = (.ok x, w') ∧ Sendable t x ∧
      w'.loggers rt.logger = w.loggers rt.logger := by
  intro w hw
  obtain ⟨x, w', h1, h2, h3, h4⟩ := hf (rt.nested k) w hw
  exact ⟨x, w', h1, ⟨h2, h3⟩, h4⟩

/-! ### Following -/

/-- An update replaces any value. -/
theorem follow_update {t : Ty} (ht : t.WF) (hs : t.isState = true) (m : Mode) {rt : Rt} {r x : t.El} (hr : At t rt r)
    (hx : Sendable t x) (key : Option U32) :
    ∃ r' rest, t.dict.handle m r [] .update key (encode t x) = .ok r' rest ∧ strip t r' = strip t x := by
  obtain ⟨v', h1, h2⟩ := (decLaw t ht).round m rt x [] hx.1 hx.2 (fun _ => rfl)
  rw [List.append_nil] at h1
  exact ⟨v', [], handle_update_at t ht hs m rt r key (encode t x) v' [] hr h1, h2⟩

/-- A payload read into a fresh object. -/
theorem follow_fresh {t : Ty} (ht : t.WF) (m : Mode) (rt : Rt) {x : t.El} (hx : Sendable t x) :
    ∃ r' rest, t.dict.merge m (t.dict.withRuntime rt) (encode t x) = .ok r' rest ∧ strip t r' = strip t x := by
  obtain ⟨v', h1, h2⟩ := (decLaw t ht).round m rt x [] hx.1 hx.2 (fun _ => rfl)
  rw [List.append_nil] at h1
  exact ⟨v', [], h1, h2⟩

theorem sendable_same {t : Ty} {a b : t.El} (h : strip t a = strip t b) (hb : Sendable t b) : Sendable t a :=
  ⟨(carried_same h).2 hb.1, by rw [encode_same h]; exact hb.2⟩

/-! ### Entries of maps -/

theorem entriesGet_map {α β : Type} (f : α → β) (k : U32) (es : List (U32 × α)) :
    entriesGet k (es.map (fun e => (e.1, f e.2))) = (entriesGet k es).map f := by
  induction es with
  | nil => rfl
  | cons e es ih =>
    obtain ⟨k', v'⟩ := e
    simp only [List.map_cons, entriesGet]
    split
    · rfl
    · exact ih

theorem entriesInsert_map {α β : Type} (f : α → β) (k : U32) (x : α) (es : List (U32 × α)) :
    (entriesInsert k x es).map (fun e => (e.1, f e.2)) = entriesInsert k (f x) (es.map (fun e => (e.1, f e.2))) := by
  induction es with
  | nil => rfl
  | cons e es ih =>
    obtain ⟨k', v'⟩ := e
    simp only [List.map_cons, entriesInsert]
    split
    · rfl
    · simp only [List.map_cons, ih]

theorem entriesRemove_map {α β : Type} (f : α → β) (k : U32) (es : List (U32 × α)) :
    (entriesRemove k es).map (fun e => (e.1, f e.2)) = entriesRemove k (es.map (fun e => (e.1, f e.2))) := by
  unfold entriesRemove
  rw [List.findIdx?_map]
  have hc : ((fun e : U32 × β => decide (e.1 = k)) ∘ fun e : U32 × α => (e.1, f e.2)) = fun e => decide (e.1 = k) := rfl
  rw [hc]
  cases es.findIdx? (fun e => decide (e.1 = k)) with
  | none => rfl
  | some i =>
    simp only [List.length_map, List.getLast?_map]
    split
    · rw [List.map_dropLast]
    · cases es.getLast? with
      | none => rfl
      | some last => simp only [Option.map_some, List.map_dropLast, List.map_set]

theorem entriesGet_insert {α : Type} (k : U32) (x : α) (es : List (U32 × α)) : entriesGet k (entriesInsert k x es) = some x := by
  induction es with
  | nil => simp [entriesInsert, entriesGet]
  | cons e es ih =>
    obtain ⟨k', v'⟩ := e
    simp only [entriesInsert]
    split
    · next h => simp [entriesGet, h]
    · next h => simp only [entriesGet, if_neg h, ih]

theorem entriesInsert_insert {α : Type} (k : U32) (x y : α) (es : List (U32 × α)) :
    entriesInsert k y (entriesInsert k x es) = entriesInsert k y es := by
  induction es with
  | nil => simp [entriesInsert]
  | cons e es ih =>
    obtain ⟨k', v'⟩ := e
    simp only [entriesInsert]
    split
    · next h => simp only [entriesInsert, if_pos h]
    · next h => simp only [entriesInsert, if_neg h, ih]

theorem entriesGet_some_of_mem {α : Type} {k : U32} {es : List (U32 × α)} (h : k ∈ es.map (·.1)) :
    ∃ x, entriesGet k es = some x := by
  cases hx : entriesGet k es with
  | none => exact absurd h (entriesGet_none.1 hx)
  | some x => exact ⟨x, rfl⟩

end Steit
