import Verif.Spec.Attempt
import Verif.Lemmas.Tell

/-! # Calls that fail: agreement with `Ty.run`, and what a failed call leaves behind -/

namespace Steit
open Spec

/-! ### Agreement with `Ty.run` -/

/-- No logger fails, now or later. -/
def Sound (w : Fallible) : Prop := (∀ i, w.poisoned i = false) ∧ ∀ n, w.verdicts n = .stored

/-- If an attempt returns, then so does the plain run, with the same result; and with loggers that never fail an attempt
panics only if the plain run does. -/
def Agree {σ : Type} (x : Exec σ) (a : Attempt σ) : Prop :=
  ∀ w, (∀ v w', a w = (⟨false, v⟩, w') → x w.world = (.ok v, w'.world)) ∧
    (Sound w → Sound (a w).2 ∧ ((a w).1.panicked = true → ∃ e, x w.world = (.error e, (a w).2.world)))

theorem Exec.bind_error {α β : Type} {x : Exec α} {f : α → Exec β} {w w1 : World} {e : Err} (h : x w = (.error e, w1)) :
    (x >>= f) w = (.error e, w1) := by
  rw [Exec.run_bind, h]

theorem Exec.assoc {α β γ : Type} (x : Exec α) (f : α → Exec β) (g : β → Exec γ) :
    x >>= f >>= g = x >>= fun a => f a >>= g := by
  show Exec.bind (Exec.bind x f) g = Exec.bind x (fun a => Exec.bind (f a) g)
  induction x with
  | ret r => cases r <;> rfl
  | act id h k ih => exact congrArg (Exec.act id h) (funext ih)
  | mem k ih => exact congrArg Exec.mem (funext ih)

theorem Exec.map_eq {α β : Type} (f : α → β) (x : Exec α) : f <$> x = x >>= fun a => pure (f a) := rfl

theorem Exec.pure_then {α β : Type} (a : α) (f : α → Exec β) : (pure a >>= f : Exec β) = f a := rfl

theorem Agree.idle {σ : Type} (v : σ) : Agree (pure v) (idle v) := by
  intro w
  refine ⟨fun u w' h => ?_, fun hs => ⟨hs, fun h => nomatch h⟩⟩
  cases h
  rfl

theorem Agree.inside {σ τ : Type} {x : Exec σ} {a : Attempt σ} (h : Agree x a) (put : σ → τ) :
    Agree (do
      let y ← x
      pure (put y)) (a.inside put) := by
  intro w
  obtain ⟨h1, h2⟩ := h w
  unfold Attempt.inside
  cases ha : a w with
  | mk r w1 =>
    obtain ⟨p, u⟩ := r
    refine ⟨fun v w' he => ?_, fun hs => ?_⟩
    · cases he
      rw [Exec.bind_of (h1 u w1 ha)]
      rfl
    · rw [ha] at h2
      obtain ⟨h3, h4⟩ := h2 hs
      refine ⟨h3, fun hp => ?_⟩
      obtain ⟨e, he⟩ := h4 hp
      exact ⟨e, Exec.bind_error he⟩

theorem Agree.map {σ τ : Type} {x : Exec σ} {a : Attempt σ} (h : Agree x a) (put : σ → τ) :
    Agree (put <$> x) (a.inside put) := h.inside put

theorem onLogger_paused {w : World} {id : Nat} {e : Entry} (h : ¬ (w.loggers id).paused = 0) :
    w.onLogger id (fun l => l.log e) = w := by
  unfold World.onLogger
  have : (fun i => if i = id then (w.loggers i).log e else w.loggers i) = w.loggers := by
    funext i
    by_cases hi : i = id
    · subst hi
      rw [if_pos rfl]
      unfold LoggerSt.log
      rw [if_neg h]
    · rw [if_neg hi]
  rw [this]

theorem log_true {w w' : Fallible} {id : Nat} {e : Entry} (h : w.log id e = (true, w')) :
    w'.world = w.world.onLogger id (fun l => l.log e) := by
  unfold Fallible.log at h
  split at h
  · cases h
  · split at h
    · split at h <;> cases h
      rfl
    · next hp => cases h; exact (onLogger_paused hp).symm

theorem log_sound {w : Fallible} (id : Nat) (e : Entry) (h : Sound w) : ∃ w', w.log id e = (true, w') ∧ Sound w' := by
  unfold Fallible.log
  rw [if_neg (by simp [h.1 id])]
  split
  · rw [h.2 0]
    exact ⟨_, rfl, h.1, fun n => h.2 _⟩
  · exact ⟨_, rfl, h⟩

theorem onLogger_onLogger (w : World) (id : Nat) (f g : LoggerSt → LoggerSt) :
    (w.onLogger id f).onLogger id g = w.onLogger id (fun l => g (f l)) := by
  unfold World.onLogger
  congr 1
  funext i
  by_cases hi : i = id <;> simp [hi]

theorem onLogger_id (w : World) (id : Nat) : w.onLogger id (fun l => l) = w := by
  unfold World.onLogger
  congr 1
  funext i
  simp

theorem logMulti_true {id : Nat} {es : List Entry} : ∀ {w w' : Fallible}, w.logMulti id es = (true, w') →
    w'.world = w.world.onLogger id (fun l => Steit.logMulti LoggerSt.log l es) := by
  induction es with
  | nil => intro w w' h; cases h; exact (onLogger_id _ _).symm
  | cons e es ih =>
    intro w w' h
    unfold Fallible.logMulti at h
    split at h
    · next w1 h1 =>
      rw [ih h, log_true h1, onLogger_onLogger]
      rfl
    · cases h

theorem logMulti_sound {id : Nat} {es : List Entry} : ∀ {w : Fallible}, Sound w →
    ∃ w', w.logMulti id es = (true, w') ∧ Sound w' := by
  induction es with
  | nil => intro w h; exact ⟨w, rfl, h⟩
  | cons e es ih =>
    intro w h
    obtain ⟨w1, h1, h2⟩ := log_sound id e h
    obtain ⟨w2, h3, h4⟩ := ih h2
    refine ⟨w2, ?_, h4⟩
    unfold Fallible.logMulti
    rw [h1]
    exact h3

/-- What is left, seen as the result of a run. -/
def Left.result {σ : Type} (l : Left σ) : Except Err σ := if l.panicked then .error .panic else .ok l.self

theorem Agree.logThen {α σ : Type} {rt : Rt} {prepare : Exec α} {entries : α → List Entry} {commit : α → Left σ} {self : σ}
    {x : Exec σ} (hx : x = do
      let a ← prepare
      rt.logMulti (entries a)
      Exec.ret (commit a).result) :
    Agree x (logThen rt.logger prepare entries commit self) := by
  intro w
  rw [hx]
  unfold Steit.logThen
  by_cases hp : w.poisoned rt.logger = true
  · rw [if_pos hp]
    exact ⟨fun _ _ h => (by cases h), fun hs => by rw [hs.1] at hp; cases hp⟩
  · rw [if_neg hp]
    cases ha : prepare w.world with
    | mk r w1 =>
      cases r with
      | error e => exact ⟨fun _ _ h => (by cases h), fun hs => ⟨hs, fun _ => ⟨e, Exec.bind_error ha⟩⟩⟩
      | ok a =>
        simp only
        rw [Exec.bind_of ha]
        cases hl : ({ w with world := w1 } : Fallible).logMulti rt.logger (entries a) with
        | mk b w2 =>
          cases b with
          | true =>
            have h3 : rt.logMulti (entries a) w1 = (.ok (), w2.world) := by
              rw [logMulti_true hl]
              rfl
            rw [Exec.bind_of h3]
            simp only
            refine ⟨fun v w' h => ?_, fun hs => ?_⟩
            · obtain ⟨hv, rfl⟩ := Prod.mk.inj h
              show ((commit a).result, w2.world) = _
              rw [hv]
              rfl
            · obtain ⟨w3, h4, h5⟩ := logMulti_sound (id := rt.logger) (es := entries a) (w := { w with world := w1 }) hs
              rw [hl] at h4
              cases h4
              refine ⟨h5, fun hp => ⟨.panic, ?_⟩⟩
              show ((commit a).result, w2.world) = _
              unfold Left.result
              rw [if_pos hp]
          | false =>
            simp only
            refine ⟨fun _ _ h => (by cases h), fun hs => ?_⟩
            obtain ⟨w3, h4, _⟩ := logMulti_sound (id := rt.logger) (es := entries a) (w := { w with world := w1 }) hs
            rw [hl] at h4
            cases h4

theorem Agree.andThen {σ : Type} {x : Exec σ} {a : Attempt σ} {y : σ → Exec σ} {b : σ → Attempt σ} (h : Agree x a)
    (h' : ∀ s, Agree (y s) (b s)) : Agree (x >>= y) (a.andThen b) := by
  intro w
  obtain ⟨h1, h2⟩ := h w
  unfold Attempt.andThen
  cases ha : a w with
  | mk r w1 =>
    obtain ⟨p, u⟩ := r
    rw [ha] at h2
    cases p with
    | true =>
      refine ⟨fun _ _ he => (by cases he), fun hs => ⟨(h2 hs).1, fun _ => ?_⟩⟩
      obtain ⟨e, he⟩ := (h2 hs).2 rfl
      exact ⟨e, Exec.bind_error he⟩
    | false =>
      rw [Exec.bind_of (h1 u w1 ha)]
      obtain ⟨h3, h4⟩ := h' u w1
      exact ⟨h3, fun hs => h4 (h2 hs).1⟩

section agree
variable {α ω : Type} {d : Dict α} {m : Mode}

theorem agree_pushWith (l : ListV α) (f : Rt → Exec α) : Agree (Prod.snd <$> listPushWith d m l f) (attemptPushWith d m l f) := by
  refine Agree.logThen ?_
  unfold listPushWith Rt.logListPush
  simp only [Exec.map_eq, Exec.assoc, Exec.pure_then]
  rfl

theorem agree_pop (l : ListV α) : Agree (Prod.snd <$> listPop l) (attemptPop l) := by
  unfold attemptPop listPop
  split
  · exact Agree.logThen rfl
  · exact .idle l

theorem sibling_err {rt : Rt} {k : U32} {e : Err} (h : rt.sibling k = .error e) : e = .panic := by
  unfold Rt.sibling at h
  split at h <;> cases h
  rfl

theorem agree_swapRemove (l : ListV α) (i : Nat) : Agree (Prod.snd <$> listSwapRemove d m l i) (attemptSwapRemove d m l i) := by
  unfold attemptSwapRemove listSwapRemove
  cases l.items[i]? with
  | none => exact .idle l
  | some removed =>
    cases l.items.getLast? with
    | none => exact .idle l
    | some last =>
      by_cases hi : i + 1 = l.items.length
      · simp only [if_pos hi]
        exact agree_pop l
      · simp only [if_neg hi]
        refine Agree.logThen ?_
        simp only [Exec.map_eq, Exec.assoc]
        congr 1
        funext bytes
        congr 1
        funext _
        by_cases hw : d.wire = .sized
        · simp only [if_pos hw]
          cases d.runtime removed with
          | none => rfl
          | some rt =>
            simp only
            cases hs : rt.sibling (fieldNo i) with
            | ok rt' => rfl
            | error e => rw [sibling_err hs]; rfl
        · simp only [if_neg hw]
          rfl

theorem agree_list {run : Mode → ω → α → Exec α} {attempt : Mode → ω → α → Attempt α}
    (h : ∀ m op v, Agree (run m op v) (attempt m op v)) (op : ListOp α ω) (l : ListV α) :
    Agree (runList d run m op l) (attemptList d attempt m op l) := by
  cases op with
  | item i op =>
    simp only [runList, attemptList]
    cases l.items[i]? with
    | some x => exact (h m op x).inside _
    | none => exact .idle l
  | push x => exact agree_pushWith l _
  | pushWith f => exact agree_pushWith l f
  | pop => exact agree_pop l
  | swapRemove i => exact agree_swapRemove l i

theorem agree_map {run : Mode → ω → α → Exec α} {attempt : Mode → ω → α → Attempt α}
    (h : ∀ m op v, Agree (run m op v) (attempt m op v)) (op : MapOp α ω) (v : MapV α) :
    Agree (runMap d run m op v) (attemptMap d attempt m op v) := by
  cases op with
  | value k op =>
    simp only [runMap, attemptMap]
    cases entriesGet k v.entries with
    | some x => exact (h m op x).inside _
    | none => exact .idle v
  | insert k x =>
    refine Agree.logThen ?_
    unfold runMap mapInsert Rt.logUpdateChild
    simp only [Exec.map_eq, Exec.assoc, Exec.pure_then]
    rfl
  | insertWith k f =>
    refine Agree.logThen ?_
    unfold runMap mapInsertWith mapInsert Rt.logUpdateChild
    simp only [Exec.map_eq, Exec.assoc, Exec.pure_then]
    rfl
  | remove k =>
    unfold attemptMap
    exact Agree.logThen rfl

theorem agree_field {run : Mode → ω → α → Exec α} {attempt : Mode → ω → α → Attempt α}
    (h : ∀ m op v, Agree (run m op v) (attempt m op v)) (isState : Bool) (tag : U32) (rt : Rt) (op : FieldOp α ω) (v : α) :
    Agree (runField isState tag d run m rt op v) (attemptField isState tag d attempt m rt op v) := by
  cases op with
  | inner op => exact h m op v
  | set x =>
    unfold runField attemptField
    simp only
    split
    · refine Agree.logThen ?_
      unfold Rt.logUpdateChild
      simp only [Exec.assoc]
      rfl
    · exact .idle x
  | setWith f =>
    unfold runField attemptField
    simp only
    split
    · refine Agree.logThen ?_
      unfold Rt.logUpdateChild
      simp only [Exec.assoc, Exec.pure_then]
      rfl
    · exact .idle v

theorem agree_enum {γ : Type} {d : Dict (EnumV γ)} {vs : VariantsD γ} {tag : U32} {isSet : Bool} {run : Rt → γ → Exec γ}
    {attempt : Rt → γ → Attempt γ} (h : ∀ rt x, Agree (run rt x) (attempt rt x)) (v : EnumV γ) :
    Agree (runEnum d vs m tag isSet run v) (attemptEnum d vs m tag isSet attempt v) := by
  unfold runEnum attemptEnum
  refine Agree.andThen ?_ (fun u => (h _ _).inside _)
  split
  · cases v.rt.parent with
    | error e =>
      intro w
      exact ⟨fun _ _ h => (by cases h), fun hs => ⟨hs, fun _ => ⟨e, rfl⟩⟩⟩
    | ok runtime =>
      simp only [Exec.ofExcept]
      show Agree (match vs.ctor tag (some (runtime.nested tag)) with
        | some val => _
        | none => _) (match vs.ctor tag (some (runtime.nested tag)) with
        | some val => _
        | none => _)
      cases vs.ctor tag (some (runtime.nested tag)) with
      | none => exact .idle v
      | some val =>
        refine Agree.logThen ?_
        unfold Rt.logUpdate
        simp only [Exec.assoc]
        rfl
  · exact .idle v

end agree

mutual
theorem agree : (t : Ty) → ∀ m op v, Agree (t.run m op v) (t.attempt m op v)
  | .uint _, _, op, _ => nomatch op
  | .sint _, _, op, _ => nomatch op
  | .bool, _, op, _ => nomatch op
  | .string, _, op, _ => nomatch op
  | .bytes, _, op, _ => nomatch op
  | .vec _, _, op, _ => nomatch op
  | .array _ _, _, op, _ => nomatch op
  | .tuple _, _, op, _ => nomatch op
  | .option _, _, op, _ => nomatch op
  | .hashMap _ _, _, op, _ => nomatch op
  | .struct false _ _, _, op, _ => nomatch op
  | .enum false _ _ _, _, op, _ => nomatch op
  | .box t, m, op, v => agree t m op v
  | .list t, _, op, v => agree_list (agree t) op v
  | .map _ t, _, op, v => agree_map (agree t) op v
  | .struct true _ fs, m, op, v => (agree_fields fs m v.rt op v.fields).inside _
  | .enum true _ fs vs, m, op, v => by
    refine agree_enum (fun rt x => ?_) v
    rcases op with op | op <;> rcases x with x | x
    · exact (agree_fields fs m rt op x).map _
    · exact .idle _
    · exact .idle _
    · exact (agree_variants vs m rt op x).map _

theorem agree_fields : (fs : Fields) → ∀ m rt op v, Agree (fs.run m rt op v) (fs.attempt m rt op v)
  | .nil, _, _, op, _ => nomatch op
  | .cons tag attrs t _, _, rt, .inl op, v => (agree_field (agree t) (!attrs.noState) tag rt op v.1).inside _
  | .cons _ _ _ fs, m, rt, .inr op, v => (agree_fields fs m rt op v.2).inside _

theorem agree_variants : (vs : Variants) → ∀ m rt op v, Agree (vs.run m rt op v) (vs.attempt m rt op v)
  | .nil, _, _, op, _ => nomatch op
  | .cons _ _ fs _, m, rt, .inl op, .inl x => (agree_fields fs m rt op x).map _
  | .cons _ _ _ vs, m, rt, .inr op, .inr x => (agree_variants vs m rt op x).map _
  | .cons _ _ _ _, _, _, .inl _, .inr _ => .idle _
  | .cons _ _ _ _, _, _, .inr _, .inl _ => .idle _
end

end Steit
