import Verif.Lemmas.Only
import Verif.Spec.Interleave

/-! # Threads sharing a logger -/

namespace Steit
open Spec

variable {win : Bool} {id : Nat}

/-! ### Tame code -/

/-- What tame code returns does not depend on loggers. -/
theorem Spec.Tame.result {α : Type} {x : Exec α} {d d' : Nat} (h : Tame win id d x d') :
    ∀ w1 w2 : World, w1.caches = w2.caches → (x w1).1 = (x w2).1 := by
  induction h with
  | ok a => intros; rfl
  | panic e => intros; rfl
  | block es _ ih => intro w1 w2 hc; exact ih (w1.onLogger _ _) (w2.onLogger _ _) hc
  | pause _ _ ih => intro w1 w2 hc; exact ih (w1.onLogger _ _) (w2.onLogger _ _) hc
  | unpause _ _ ih => intro w1 w2 hc; exact ih (w1.onLogger _ _) (w2.onLogger _ _) hc
  | @mem d d' k _ ih =>
    intro w1 w2 hc
    show ((k (w1.caches 0)).run { w1 with caches := fun n => w1.caches (n + 1) }).1 = ((k (w2.caches 0)).run _).1
    rw [hc]
    exact ih _ _ _ rfl

theorem Spec.Tame.bind_at {α β : Type} {x : Exec α} {f : α → Exec β} {d d1 d2 : Nat} (hx : Tame win id d x d1)
    (hf : ∀ w a w', x w = (.ok a, w') → Tame win id d1 (f a) d2) : Tame win id d (x >>= f) d2 := by
  show Tame win id d (Exec.bind x f) d2
  have inner : ∀ {k : Exec α} {d d1 : Nat} (g : LoggerSt → LoggerSt), Tame win id d k d1 →
      (∀ w a w', (Exec.act id g (fun _ => k)) w = (.ok a, w') → Tame win id d1 (f a) d2) →
      ∀ w a w', k w = (.ok a, w') → Tame win id d1 (f a) d2 := by
    intro k d d1 g hk hf w a w' h
    have h1 := hk.result (w.onLogger id g) w rfl
    rw [h] at h1
    exact hf w a (k.run (w.onLogger id g)).2 (Prod.ext h1 rfl)
  induction hx with
  | ok a => exact hf ⟨fun _ => ⟨0, []⟩, fun _ _ => 0⟩ a _ rfl
  | panic e => exact .panic e
  | block es hk ih => exact .block es (ih (inner _ hk hf))
  | pause hw hk ih => exact .pause hw (ih (inner _ hk hf))
  | unpause hw hk ih => exact .unpause hw (ih (inner _ hk hf))
  | mem _ ih =>
    refine .mem (fun μ => ih μ (fun w a w' h => ?_))
    exact hf ⟨w.loggers, fun n => match n with | 0 => μ | n + 1 => w.caches n⟩ a w' h

theorem Spec.Tame.bind {α β : Type} {x : Exec α} {f : α → Exec β} {d d1 d2 : Nat} (hx : Tame win id d x d1)
    (hf : ∀ a, Tame win id d1 (f a) d2) : Tame win id d (x >>= f) d2 := hx.bind_at (fun _ a _ _ => hf a)

/-- It may begin and end with more pauses. -/
theorem Spec.Tame.lift {α : Type} {x : Exec α} {d d' : Nat} (h : Tame win id d x d') (c : Nat) :
    Tame win id (d + c) x (d' + c) := by
  induction h with
  | ok a => exact .ok a
  | panic e => exact .panic e
  | block es _ ih => exact .block es ih
  | @pause d d' k hw _ ih => exact .pause hw (by rw [Nat.add_right_comm] at ih; exact ih)
  | @unpause d d' k hw _ ih => rw [Nat.add_right_comm]; exact .unpause hw ih
  | mem _ ih => exact .mem ih

theorem tame_pure {α : Type} (a : α) : Tame win id 0 (pure a : Exec α) 0 := .ok a

theorem tame_map {α β : Type} {x : Exec α} (f : α → β) (hx : Tame win id 0 x 0) : Tame win id 0 (f <$> x) 0 :=
  hx.bind (f := fun a => pure (f a)) (fun _ => tame_pure _)

theorem tame_ofExcept {α : Type} (x : Except Err α) : Tame win id 0 (Exec.ofExcept x) 0 := by
  cases x
  · exact .panic _
  · exact .ok _

theorem tame_toBytes {α : Type} (d : Dict α) (m : Mode) (v : α) : Tame win id 0 (toBytesNow d m v) 0 :=
  .mem (fun _ => tame_ofExcept _)

theorem tame_log (rt : Rt) (e : Entry) : Tame win rt.logger 0 (rt.log e) 0 := .block [e] (.ok ())

theorem tame_logMulti (rt : Rt) (es : List Entry) : Tame win rt.logger 0 (rt.logMulti es) 0 := .block es (.ok ())

theorem tame_logUpdateChild {α : Type} (rt : Rt) (d : Dict α) (m : Mode) (k : U32) (v : α) :
    Tame win rt.logger 0 (rt.logUpdateChild d m k v) 0 := (tame_toBytes d m v).bind (fun _ => tame_log rt _)

theorem tame_logUpdate {α : Type} (rt : Rt) (d : Dict α) (m : Mode) (v : α) : Tame win rt.logger 0 (rt.logUpdate d m v) 0 :=
  (tame_toBytes d m v).bind (fun _ => tame_log rt _)

theorem tame_window {α β : Type} {rt : Rt} {f : Exec α} {g : α → Exec β} (hw : win = true) (hf : Tame win rt.logger 0 f 0)
    (hg : ∀ x, Tame win rt.logger 0 (g x) 0) :
    Tame win rt.logger 0 (do
      rt.pauseLogger
      let x ← f
      rt.unpauseLogger
      g x : Exec β) 0 := by
  refine Tame.bind (d1 := 1) (.pause hw (.ok ())) (fun _ => ?_)
  refine Tame.bind (d1 := 1) (hf.lift 1) (fun x => ?_)
  exact Tame.bind (d1 := 0) (.unpause hw (.ok ())) (fun _ => hg x)

theorem tame_pushWith {α : Type} (d : Dict α) (m : Mode) (l : ListV α) (f : Rt → Exec α) (hw : win = true)
    (hf : ∀ rt, Tame win rt.logger 0 (f rt) 0) : Tame win l.rt.logger 0 (listPushWith d m l f) 0 :=
  tame_window hw (hf (l.rt.nested (fieldNo l.items.length)))
    (fun _ => ((tame_toBytes _ _ _).bind (fun _ => tame_log _ _)).bind (fun _ => tame_pure _))

theorem tame_pop {α : Type} (l : ListV α) : Tame win l.rt.logger 0 (listPop l) 0 := by
  unfold listPop
  split
  · exact (tame_log _ _).bind (fun _ => tame_pure _)
  · exact tame_pure _

theorem tame_swapRemove {α : Type} (d : Dict α) (m : Mode) (l : ListV α) (i : Nat) :
    Tame win l.rt.logger 0 (listSwapRemove d m l i) 0 := by
  unfold listSwapRemove
  split
  · split
    · exact tame_pop l
    · refine (tame_toBytes _ _ _).bind (fun _ => (tame_logMulti _ _).bind (fun _ => ?_))
      split
      · exact (tame_ofExcept _).bind (fun _ => tame_pure _)
      · exact tame_pure _
  · exact tame_pure _

theorem tame_insert {α : Type} (d : Dict α) (m : Mode) (v : MapV α) (k : U32) (x : α) :
    Tame win v.rt.logger 0 (mapInsert d m v k x) 0 :=
  (tame_logUpdateChild _ _ _ _ _).bind (fun _ => tame_pure _)

mutual
theorem tame_run : (t : Ty) → t.WF → ∀ m op rt v, At t rt v → OpTame win t op → Tame win rt.logger 0 (t.run m op v) 0
  | .uint _, _, _, op, _, _, _, _ => nomatch op
  | .sint _, _, _, op, _, _, _, _ => nomatch op
  | .bool, _, _, op, _, _, _, _ => nomatch op
  | .string, _, _, op, _, _, _, _ => nomatch op
  | .bytes, _, _, op, _, _, _, _ => nomatch op
  | .vec _, _, _, op, _, _, _, _ => nomatch op
  | .array _ _, _, _, op, _, _, _, _ => nomatch op
  | .tuple _, _, _, op, _, _, _, _ => nomatch op
  | .option _, _, _, op, _, _, _, _ => nomatch op
  | .hashMap _ _, _, _, op, _, _, _, _ => nomatch op
  | .struct false _ _, _, _, op, _, _, _, _ => nomatch op
  | .enum false _ _ _, _, _, op, _, _, _, _ => nomatch op
  | .box t, ht, m, op, rt, v, hv, h => tame_run t ht m op rt v hv h
  | .list t, ht, m, op, rt, v, hv, h => by
    have hl : v.rt.logger = rt.logger := by rw [hv.1]
    cases op with
    | item i op =>
      simp only [Ty.run, runList]
      cases hx : v.items[i]? with
      | some x => exact (tame_run t ht.2 m op (rt.nested (fieldNo i)) x (hv.2 i x hx) h).bind (fun _ => tame_pure _)
      | none => exact tame_pure _
    | push x => rw [← hl]; exact tame_map _ (tame_pushWith t.dict m v _ h (fun _ => tame_pure _))
    | pushWith f => rw [← hl]; exact tame_map _ (tame_pushWith t.dict m v f h.1 h.2)
    | pop => rw [← hl]; exact tame_map _ (tame_pop v)
    | swapRemove i => rw [← hl]; exact tame_map _ (tame_swapRemove t.dict m v i)
  | .map kt t, ht, m, op, rt, v, hv, h => by
    have hl : v.rt.logger = rt.logger := by rw [hv.1]
    cases op with
    | value k op =>
      simp only [Ty.run, runMap]
      cases hx : entriesGet k v.entries with
      | some x =>
        exact (tame_run t ht.2 m op (rt.nested k) x (hv.2.2 _ (entriesGet_mem hx)) h).bind (fun _ => tame_pure _)
      | none => exact tame_pure _
    | insert k x => rw [← hl]; exact tame_map _ (tame_insert t.dict m v k x)
    | insertWith k f =>
      rw [← hl]; exact tame_map _ (tame_window h.1 (h.2 (v.rt.nested k)) (fun _ => tame_insert t.dict m v k _))
    | remove k => rw [← hl]; exact tame_map _ ((tame_log _ _).bind (fun _ => tame_pure _))
  | .struct true _ fs, ht, m, op, rt, v, hv, h => by
    refine Tame.bind ?_ (fun _ => tame_pure _)
    rw [hv.1 rfl]
    exact tame_runFields fs ht.2 m rt op v.fields hv.2 h
  | .enum true cached fs vs, ht, m, op, rt, v, hv, h => by
    rw [enum_run_eq]
    have hwf : Variants.WF (allVariants cached fs vs) true := ⟨by decide, ht.1, ht.2.1, ht.2.2.2.2⟩
    have hcons : ∀ v, VarAt (allVariants cached fs vs) true rt v → Tame win rt.logger 0 ((allVariants cached fs vs).run m
        (rt.nested (((allVariants cached fs vs).dict true).tagOf v)) op v) 0 := by
      intro x hx
      rcases op with op | op <;> rcases x with x | x
      · exact tame_map _ (tame_runFields fs ht.2.1 m _ op x hx h)
      · exact tame_pure _
      · exact tame_pure _
      · exact tame_map _ (tame_runVariant vs ht.2.2.2.2 m rt op x hx h)
    unfold runEnum
    have hv' := (at_enum_iff cached fs vs rt v).1 hv
    refine Tame.bind_at (d1 := 0) (?_ : Tame win rt.logger 0 _ 0) (fun w u w' hu => ?_)
    · split
      · refine (tame_ofExcept _).bind_at (fun w p w' hp => ?_)
        have hp' : v.rt.parent = .ok p := congrArg Prod.fst hp
        have hpl : p.logger = rt.logger := by rw [parent_logger hp', hv'.1]; rfl
        cases ((allVariants cached fs vs).dict true).ctor ((allVariants cached fs vs).opTag op) (some (p.nested ((allVariants cached fs vs).opTag op))) with
        | some val => rw [← hpl]; exact (tame_logUpdate _ _ _ _).bind (fun _ => tame_pure _)
        | none => exact tame_pure _
      · exact tame_pure _
    · have hat : At (.enum true cached fs vs) rt u := by
        split at hu
        · obtain ⟨parent, w2, hp, hu⟩ := Exec.bind_ok hu
          have hpar : parent = rt := by
            rw [hv'.1, Rt.parent_nested'] at hp
            cases hp; rfl
          subst hpar
          cases hval : ((allVariants cached fs vs).dict true).ctor ((allVariants cached fs vs).opTag op)
            (some (parent.nested ((allVariants cached fs vs).opTag op))) with
          | some val =>
            rw [hval] at hu
            obtain ⟨_, w3, _, hu⟩ := Exec.bind_ok hu
            obtain ⟨rfl, _⟩ := Exec.pure_ok hu
            have hc := (variantsAny (allVariants cached fs vs) true hwf).ctor_some rfl _ parent val hval
            rw [at_enum_iff]
            exact ⟨by rw [hc.2], hc.1⟩
          | none =>
            rw [hval] at hu
            obtain ⟨rfl, _⟩ := Exec.pure_ok hu
            exact hv
        · obtain ⟨rfl, _⟩ := Exec.pure_ok hu
          exact hv
      rw [at_enum_iff] at hat
      refine Tame.bind (d1 := 0) ?_ (fun _ => tame_pure _)
      rw [hat.1]
      exact hcons u.val hat.2

theorem tame_runFields : (fs : Fields) → fs.WF true → ∀ m rt op v, AtFields fs true rt v → OpTameFields win fs op →
    Tame win rt.logger 0 (fs.run m rt op v) 0
  | .nil, _, _, _, op, _, _, _ => nomatch op
  | .cons tag attrs t fs, hf, m, rt, .inl op, v, hv, h => by
    refine Tame.bind (d1 := 0) ?_ (fun _ => tame_pure _)
    cases op with
    | inner op =>
      have hv1 := hv.1
      rw [if_pos (by rw [h.1]; rfl)] at hv1
      exact tame_run t hf.2.2.1 m op (rt.nested tag) v.1 hv1 h.2
    | set x =>
      simp only [runField]
      split
      · exact (tame_logUpdateChild _ _ _ _ _).bind (fun _ => tame_pure _)
      · exact tame_pure _
    | setWith f =>
      simp only [runField]
      split
      · exact tame_window h.1 (h.2 (rt.nested tag)) (fun _ => (tame_logUpdateChild _ _ _ _ _).bind (fun _ => tame_pure _))
      · exact tame_pure _
  | .cons _ _ _ fs, hf, m, rt, .inr op, v, hv, h =>
    (tame_runFields fs hf.2.2.2 m rt op v.2 hv.2 h).bind (fun _ => tame_pure _)

theorem tame_runVariant : (vs : Variants) → vs.WF true → ∀ m rt op v, VarAt vs true rt v → OpTameVariant win vs op →
    Tame win rt.logger 0 (vs.run m (rt.nested ((vs.dict true).tagOf v)) op v) 0
  | .nil, _, _, _, op, _, _, _ => nomatch op
  | .cons tag _ fs _, hv, m, rt, .inl op, .inl x, ha, h => tame_map _ (tame_runFields fs hv.2.2.1 m (rt.nested tag) op x ha h)
  | .cons _ _ _ vs, hv, m, rt, .inr op, .inr x, ha, h => tame_map _ (tame_runVariant vs hv.2.2.2 m rt op x ha h)
  | .cons _ _ _ _, _, _, _, .inl _, .inr _, _, _ => tame_pure _
  | .cons _ _ _ _, _, _, _, .inr _, .inl _, _, _ => tame_pure _
end

theorem tame_calls (t : Ty) (ht : t.WF) (m : Mode) : ∀ (ops : List t.Op) (v : t.El) (rt : Rt), At t rt v →
    CallsTame win t m ops v → Tame win rt.logger 0 (calls t m ops v) 0
  | [], v, _, _, _ => tame_pure v
  | op :: ops, v, rt, hv, h =>
    (tame_run t ht m op rt v hv h.2.1).bind_at (fun w v' w' hr =>
      tame_calls t ht m ops v' rt (at_run t ht m op v rt w v' w' hv h.1 hr) (h.2.2 w v' w' hr))

/-! ### Traces -/

/-- The actions tame code makes on the logger `id`, and how it ends, depending on what it finds in caches. -/
inductive Trace {α : Type} (win : Bool) (id : Nat) : Nat → Exec α → List Act → Except Err α → Nat → Prop
  | ok {d : Nat} (a : α) : Trace win id d (.ret (.ok a)) [] (.ok a) d
  | panic {d d' : Nat} (e : Err) : Trace win id d (.ret (.error e)) [] (.error e) d'
  | block {d d' : Nat} {k : Exec α} {as : List Act} {r : Except Err α} (es : List Entry) : Trace win id d k as r d' →
    Trace win id d (.act id (fun l => logMulti LoggerSt.log l es) (fun _ => k)) (.block es :: as) r d'
  | pause {d d' : Nat} {k : Exec α} {as : List Act} {r : Except Err α} : win = true → Trace win id (d + 1) k as r d' →
    Trace win id d (.act id LoggerSt.pause (fun _ => k)) (.pause :: as) r d'
  | unpause {d d' : Nat} {k : Exec α} {as : List Act} {r : Except Err α} : win = true → Trace win id d k as r d' →
    Trace win id (d + 1) (.act id LoggerSt.unpause (fun _ => k)) (.unpause :: as) r d'
  | mem {d d' : Nat} {k : Prog.Mem → Exec α} {as : List Act} {r : Except Err α} (μ : Prog.Mem) :
    Trace win id d (k μ) as r d' → Trace win id d (.mem k) as r d'

/-- A list of actions keeps pauses and unpauses balanced. -/
inductive Open (win : Bool) : Nat → List Act → Nat → Prop
  | nil (d : Nat) : Open win d [] d
  | block {d d' : Nat} {as : List Act} (es : List Entry) : Open win d as d' → Open win d (.block es :: as) d'
  | pause {d d' : Nat} {as : List Act} : win = true → Open win (d + 1) as d' → Open win d (.pause :: as) d'
  | unpause {d d' : Nat} {as : List Act} : win = true → Open win d as d' → Open win (d + 1) (.unpause :: as) d'

/-- The effect of several actions. -/
def actsOn : List Act → LoggerSt → LoggerSt
  | [], l => l
  | a :: as, l => actsOn as (a.on l)

theorem Trace.open {α : Type} {x : Exec α} {as : List Act} {r : Except Err α} {d d' : Nat} (h : Trace win id d x as r d') :
    (∃ a, r = .ok a) → Open win d as d' := by
  induction h with
  | ok a => intro _; exact .nil _
  | panic e => intro ⟨_, h⟩; cases h
  | block es _ ih => intro h; exact .block es (ih h)
  | pause hw _ ih => intro h; exact .pause hw (ih h)
  | unpause hw _ ih => intro h; exact .unpause hw (ih h)
  | mem μ _ ih => exact ih

/-- Without windows there is nothing but blocks. -/
theorem Trace.blocks {α : Type} {x : Exec α} {as : List Act} {r : Except Err α} {d d' : Nat} (h : Trace false id d x as r d') :
    ∃ bs : List (List Entry), as = bs.map .block := by
  induction h with
  | ok a => exact ⟨[], rfl⟩
  | panic e => exact ⟨[], rfl⟩
  | block es _ ih => obtain ⟨bs, rfl⟩ := ih; exact ⟨es :: bs, rfl⟩
  | pause hw => cases hw
  | unpause hw => cases hw
  | mem μ _ ih => exact ih

/-- A trace is what the code does alone, with suitable size caches. -/
theorem Trace.run {α : Type} {x : Exec α} {as : List Act} {r : Except Err α} {d d' : Nat} (h : Trace win id d x as r d') :
    ∀ ls : Nat → LoggerSt, ∃ w w' : World, w.loggers = ls ∧ x w = (r, w') ∧ w'.loggers id = actsOn as (ls id) := by
  have act : ∀ {k : Exec α} {as : List Act} {r : Except Err α} (f : LoggerSt → LoggerSt) (a : Act) (ls : Nat → LoggerSt),
      a.on = f → (∀ ls : Nat → LoggerSt, ∃ w w' : World, w.loggers = ls ∧ k w = (r, w') ∧ w'.loggers id = actsOn as (ls id)) →
      ∃ w w' : World, w.loggers = ls ∧ (Exec.act id f (fun _ => k)) w = (r, w') ∧ w'.loggers id = actsOn (a :: as) (ls id) := by
    intro k as r f a ls hf ih
    obtain ⟨w, w', h1, h2, h3⟩ := ih (fun i => if i = id then f (ls i) else ls i)
    refine ⟨⟨ls, w.caches⟩, w', rfl, ?_, ?_⟩
    · show k.run ⟨_, w.caches⟩ = _
      rw [← h2, ← h1]
    · rw [h3, if_pos rfl, ← hf]
      rfl
  induction h with
  | ok a => exact fun ls => ⟨⟨ls, fun _ _ => 0⟩, _, rfl, rfl, rfl⟩
  | panic e => exact fun ls => ⟨⟨ls, fun _ _ => 0⟩, _, rfl, rfl, rfl⟩
  | block es _ ih => exact fun ls => act _ (.block es) ls rfl ih
  | pause _ _ ih => exact fun ls => act _ .pause ls rfl ih
  | unpause _ _ ih => exact fun ls => act _ .unpause ls rfl ih
  | mem μ _ ih =>
    intro ls
    obtain ⟨w, w', h1, h2, h3⟩ := ih ls
    refine ⟨⟨ls, fun n => match n with | 0 => μ | n + 1 => w.caches n⟩, w', rfl, ?_, h3⟩
    rw [← h2, ← h1]
    rfl

/-- What actions log outside their own windows. -/
def visible : Nat → List Act → List (List Entry)
  | _, [] => []
  | d, .block es :: as => if d = 0 then es :: visible d as else visible d as
  | d, .pause :: as => visible (d + 1) as
  | d, .unpause :: as => visible (d - 1) as

theorem visible_blocks (bs : List (List Entry)) : visible 0 (bs.map .block) = bs := by
  induction bs with
  | nil => rfl
  | cons b bs ih => exact congrArg (b :: ·) ih

theorem logMulti_open (es : List Entry) : ∀ l : LoggerSt, l.paused = 0 →
    Steit.logMulti LoggerSt.log l es = ⟨0, l.entries ++ es⟩ := by
  induction es with
  | nil => intro l h; rw [List.append_nil, ← h]; rfl
  | cons e es ih =>
    intro l h
    have h1 : l.log e = ⟨0, l.entries ++ [e]⟩ := by unfold LoggerSt.log; rw [if_pos h, h]
    rw [Steit.logMulti, h1, ih _ rfl, List.append_assoc]
    rfl

theorem open_actsOn {as : List Act} {d d' : Nat} (h : Open win d as d') : ∀ l : LoggerSt, l.paused = d →
    actsOn as l = ⟨d', l.entries ++ (visible d as).flatten⟩ := by
  induction h with
  | nil d => intro l h; rw [visible, List.flatten_nil, List.append_nil, ← h]; rfl
  | @block d d' as es _ ih =>
    intro l h
    show actsOn as (Steit.logMulti LoggerSt.log l es) = _
    by_cases hd : d = 0
    · subst hd
      rw [logMulti_open es l h, ih _ rfl]
      simp [visible]
    · rw [logMulti_paused (by omega), ih l h]
      simp [visible, hd]
  | pause _ _ ih =>
    intro l h
    exact ih l.pause (congrArg (· + 1) h)
  | @unpause d d' as _ _ ih =>
    intro l h
    have h1 : l.unpause = ⟨d, l.entries⟩ := by
      unfold LoggerSt.unpause
      rw [if_pos (by omega), h]
      rfl
    show actsOn as l.unpause = _
    rw [h1, ih _ rfl]
    rfl

/-! ### Schedules -/

theorem step_tame {α : Type} {ls ls' : Nat → LoggerSt} {x x' : Exec α} {d : Nat} (h : x.Step ls ls' x') (ht : Tame win id d x 0) :
    ∃ d' as, Tame win id d' x' 0 ∧ (∀ bs r, Trace win id d' x' bs r 0 → Trace win id d x (as ++ bs) r 0) ∧ as.length ≤ 1 ∧
      ls' id = actsOn as (ls id) ∧ ∀ j, j ≠ id → ls' j = ls j := by
  cases h with
  | act =>
    cases ht with
    | block es ht =>
      exact ⟨d, [.block es], ht, fun bs r h => .block es h, Nat.le_refl _, if_pos rfl, fun j hj => if_neg hj⟩
    | pause hw ht =>
      exact ⟨d + 1, [.pause], ht, fun bs r h => .pause hw h, Nat.le_refl _, if_pos rfl, fun j hj => if_neg hj⟩
    | unpause hw ht =>
      exact ⟨_, [.unpause], ht, fun bs r h => .unpause hw h, Nat.le_refl _, if_pos rfl, fun j hj => if_neg hj⟩
  | mem μ =>
    cases ht with
    | mem ht => exact ⟨d, [], ht μ, fun bs r h => .mem μ h, Nat.zero_le _, rfl, fun _ _ => rfl⟩

theorem schedule {s u : Threads} (h : Threads.Steps s u) (hu : u.Done) : ∀ ds : Nat → Nat,
    (∀ i α (x : Exec α), s.threads[i]? = some ⟨x⟩ → Tame win id (ds i) x 0) →
    ∃ ass L, ass.length = s.threads.length ∧ u.threads.length = s.threads.length ∧
      (∀ i α (x : Exec α), s.threads[i]? = some ⟨x⟩ → ∃ as r, ass[i]? = some as ∧ u.threads[i]? = some ⟨(.ret r : Exec α)⟩ ∧
        Trace win id (ds i) x as r 0) ∧ Merge ass L ∧ u.loggers id = actsOn L (s.loggers id) ∧
      ∀ j, j ≠ id → u.loggers j = s.loggers j := by
  induction h with
  | refl s =>
    intro ds ht
    refine ⟨s.threads.map (fun _ => []), [], List.length_map .., rfl, ?_, .done ?_, rfl, fun _ _ => rfl⟩
    · intro i α x hx
      obtain ⟨r, hr⟩ := hu _ (List.mem_of_getElem? hx)
      have hr' : x = .ret r := hr
      have h0 := ht i α x hx
      refine ⟨[], r, by rw [List.getElem?_map, hx]; rfl, hr' ▸ hx, ?_⟩
      rw [hr'] at h0 ⊢
      generalize ds i = d at h0 ⊢
      cases h0 with
      | ok a => exact .ok a
      | panic e => exact .panic e
    · intro l hl
      obtain ⟨_, _, rfl⟩ := List.mem_map.1 hl
      rfl
  | head h0 _ ih =>
    intro ds ht
    cases h0 with
    | @mk ls ls' ts i α x x' hx hstep =>
      have hi : i < ts.length := (List.getElem?_eq_some_iff.1 hx).1
      obtain ⟨d', as, h1, h2, h3, h4, h5⟩ := step_tame hstep (ht i α x hx)
      obtain ⟨ass, L, g1, g0, g2, g3, g4, g5⟩ := ih hu (fun j => if j = i then d' else ds j) (by
        intro j β y hy
        by_cases hj : j = i
        · subst hj
          simp only [List.getElem?_set_self hi] at hy
          cases hy
          simpa using h1
        · simp only [List.getElem?_set_ne (Ne.symm hj)] at hy
          simpa [hj] using ht j β y hy)
      simp only [List.length_set] at g1 g0
      obtain ⟨bs, r, k1, k2, k3⟩ := g2 i α x' (List.getElem?_set_self hi)
      simp only [if_true] at k3
      have key : ∀ as : List Act, as.length ≤ 1 → Merge (ass.set i (as ++ bs)) (as ++ L) := by
        intro as has
        match as, has with
        | [], _ =>
          have : ass.set i bs = ass := by
            apply List.ext_getElem? ; intro j
            by_cases hj : j = i
            · subst hj; rw [List.getElem?_set_self (by omega), k1]
            · rw [List.getElem?_set_ne (Ne.symm hj)]
          rw [List.nil_append, this]
          exact g3
        | [a], _ =>
          refine .take (i := i) (a := a) (l := bs) (by rw [List.getElem?_set_self (by omega)]; rfl) ?_
          have : (ass.set i ([a] ++ bs)).set i bs = ass := by
            apply List.ext_getElem? ; intro j
            by_cases hj : j = i
            · subst hj; rw [List.getElem?_set_self (by rw [List.length_set]; omega), k1]
            · rw [List.getElem?_set_ne (Ne.symm hj), List.getElem?_set_ne (Ne.symm hj)]
          rw [this]
          exact g3
      refine ⟨ass.set i (as ++ bs), as ++ L, by rw [List.length_set]; exact g1, g0, ?_, key as h3, ?_, fun j hj => (g5 j hj).trans (h5 j hj)⟩
      · intro j β y hy
        by_cases hj : j = i
        · subst hj
          have hy' : ts[j]? = some ⟨y⟩ := hy
          rw [hx] at hy'
          cases hy'
          exact ⟨as ++ bs, r, List.getElem?_set_self (by omega), k2, h2 bs r k3⟩
        · obtain ⟨bs', r', l1, l2, l3⟩ := g2 j β y (by rw [List.getElem?_set_ne (Ne.symm hj)]; exact hy)
          simp only [if_neg hj] at l3
          exact ⟨bs', r', by rw [List.getElem?_set_ne (Ne.symm hj)]; exact l1, l2, l3⟩
      · rw [g4]
        show actsOn L (ls' id) = actsOn (as ++ L) (ls id)
        rw [h4]
        match as, h3 with
        | [], _ => rfl
        | [a], _ => rfl

/-! ### Interleavings -/

theorem merge_map {β γ : Type} (f : β → γ) {ls : List (List γ)} {L : List γ} (h : Merge ls L) :
    ∀ bs : List (List β), ls = bs.map (List.map f) → ∃ B, L = B.map f ∧ Merge bs B := by
  induction h with
  | done h =>
    intro bs hbs
    subst hbs
    exact ⟨[], rfl, .done (fun l hl => List.map_eq_nil_iff.1 (h _ (List.mem_map.2 ⟨l, hl, rfl⟩)))⟩
  | @take ls i a l out hi _ ih =>
    intro bs hbs
    subst hbs
    rw [List.getElem?_map] at hi
    cases hb : bs[i]? with
    | none => rw [hb] at hi; cases hi
    | some b =>
      rw [hb] at hi
      match b, Option.some.inj hi with
      | a' :: l', hcons =>
        obtain ⟨h1, h2⟩ := List.cons.inj hcons
        obtain ⟨B, h3, h4⟩ := ih (bs.set i l') (by rw [List.map_set, h2])
        exact ⟨a' :: B, by rw [List.map_cons, h1, h3], .take hb h4⟩

theorem sum_zero {ds : List Nat} (h : ∀ d ∈ ds, d = 0) : ds.sum = 0 := by
  induction ds with
  | nil => rfl
  | cons x xs ih =>
    rw [List.sum_cons, h x List.mem_cons_self, ih (fun d hd => h d (List.mem_cons_of_mem _ hd))]

theorem sum_ge {ds : List Nat} {i d : Nat} (h : ds[i]? = some d) : d ≤ ds.sum := by
  induction ds generalizing i with
  | nil => simp at h
  | cons x xs ih =>
    cases i with
    | zero => simp at h; subst h; simp
    | succ i => simp at h; have := ih h; simp; omega

theorem set_same {β : Type} {xs : List β} {i : Nat} {x : β} (h : xs[i]? = some x) : xs.set i x = xs := by
  have hi := (List.getElem?_eq_some_iff.1 h).1
  apply List.ext_getElem?
  intro j
  by_cases hj : j = i
  · subst hj; rw [List.getElem?_set_self hi, h]
  · rw [List.getElem?_set_ne (Ne.symm hj)]

theorem sum_set {ds : List Nat} {i d d' : Nat} (h : ds[i]? = some d) : (ds.set i d').sum + d = ds.sum + d' := by
  induction ds generalizing i with
  | nil => simp at h
  | cons x xs ih =>
    cases i with
    | zero => simp at h; subst h; simp; omega
    | succ i => simp at h; have := ih h; simp; omega

theorem merge_windows {ass : List (List Act)} {L : List Act} (h : Merge ass L) :
    ∀ (ds : List Nat) (l : LoggerSt) (p : Nat), ds.length = ass.length →
      (∀ (i : Nat) d as, ds[i]? = some d → ass[i]? = some as → Open win d as 0) → l.paused = p + ds.sum →
      ∃ (kept : List (List (List Entry))) (B : List (List Entry)), kept.length = ass.length ∧
        (∀ (i : Nat) d as k, ds[i]? = some d → ass[i]? = some as → kept[i]? = some k → k.Sublist (visible d as)) ∧ Merge kept B ∧
        actsOn L l = ⟨p, l.entries ++ B.flatten⟩ := by
  induction h with
  | @done ls h =>
    intro ds l p hl ho hp
    have hds : ∀ d ∈ ds, d = 0 := by
      intro d hd
      obtain ⟨i, hi⟩ := List.getElem?_of_mem hd
      obtain ⟨as, has⟩ : ∃ as, ls[i]? = some as := by
        have := (List.getElem?_eq_some_iff.1 hi).1
        exact ⟨ls[i]'(by omega), List.getElem?_eq_getElem _⟩
      have h1 := ho i d as hi has
      rw [h as (List.mem_of_getElem? has)] at h1
      cases h1
      rfl
    have hsum : ds.sum = 0 := sum_zero hds
    refine ⟨ls.map (fun _ => []), [], List.length_map .., ?_, .done ?_, ?_⟩
    · intro i d as k _ _ hk
      rw [List.getElem?_map] at hk
      cases hls : ls[i]? with
      | none => rw [hls] at hk; cases hk
      | some _ => rw [hls] at hk; cases hk; exact List.nil_sublist _
    · intro k hk
      obtain ⟨_, _, rfl⟩ := List.mem_map.1 hk
      rfl
    · rw [List.flatten_nil, List.append_nil]
      show l = _
      rw [hsum] at hp
      cases l
      simp at hp
      rw [hp]
  | @take ls i a as out hi hm ih =>
    intro ds l p hl ho hp
    have hlen : i < ls.length := (List.getElem?_eq_some_iff.1 hi).1
    obtain ⟨d, hd⟩ : ∃ d, ds[i]? = some d := ⟨ds[i]'(by omega), List.getElem?_eq_getElem _⟩
    have hdl : i < ds.length := by omega
    -- the next step with new depth `d'` and new logger `l'`
    have next : ∀ d' l', (Open win d' as 0) → l'.paused = p + (ds.set i d').sum →
        ∃ (kept : List (List (List Entry))) (B : List (List Entry)) (k : List (List Entry)), kept.length = ls.length ∧
          kept[i]? = some k ∧ k.Sublist (visible d' as) ∧
          (∀ (j : Nat) e bs k, j ≠ i → ds[j]? = some e → ls[j]? = some bs → kept[j]? = some k → k.Sublist (visible e bs)) ∧ Merge kept B ∧
          actsOn out l' = ⟨p, l'.entries ++ B.flatten⟩ := by
      intro d' l' ho' hp'
      obtain ⟨kept, B, h1, h2, h3, h4⟩ := ih (ds.set i d') l' p (by simp [hl]) (by
        intro j e bs hj hbs
        by_cases hji : j = i
        · subst hji
          rw [List.getElem?_set_self hdl] at hj
          rw [List.getElem?_set_self hlen] at hbs
          cases hj; cases hbs
          exact ho'
        · rw [List.getElem?_set_ne (Ne.symm hji)] at hj hbs
          exact ho j e bs hj hbs) hp'
      rw [List.length_set] at h1
      obtain ⟨k, hk⟩ : ∃ k, kept[i]? = some k := ⟨kept[i]'(by omega), List.getElem?_eq_getElem _⟩
      refine ⟨kept, B, k, h1, hk, ?_, ?_, h3, h4⟩
      · exact h2 i d' as k (List.getElem?_set_self hdl) (List.getElem?_set_self hlen) hk
      · intro j e bs k hji hj hbs hk
        exact h2 j e bs k (by rw [List.getElem?_set_ne (Ne.symm hji)]; exact hj)
          (by rw [List.getElem?_set_ne (Ne.symm hji)]; exact hbs) hk
    -- nothing is logged in the step
    have skip : ∀ d' l', (Open win d' as 0) → l'.paused = p + (ds.set i d').sum → l'.entries = l.entries → a.on l = l' →
        (visible d' as).Sublist (visible d (a :: as)) →
        ∃ (kept : List (List (List Entry))) (B : List (List Entry)), kept.length = ls.length ∧
        (∀ (i : Nat) d as k, ds[i]? = some d → ls[i]? = some as → kept[i]? = some k → k.Sublist (visible d as)) ∧ Merge kept B ∧
        actsOn (a :: out) l = ⟨p, l.entries ++ B.flatten⟩ := by
      intro d' l' ho' hp' he ha hv
      obtain ⟨kept, B, k, h1, h2, h3, h4, h5, h6⟩ := next d' l' ho' hp'
      refine ⟨kept, B, h1, ?_, h5, by rw [← he, ← h6, ← ha]; rfl⟩
      intro j e bs k' hj hbs hk'
      by_cases hji : j = i
      · subst hji
        rw [hd] at hj; rw [hi] at hbs; rw [h2] at hk'
        cases hj; cases hbs; cases hk'
        exact h3.trans hv
      · exact h4 j e bs k' hji hj hbs hk'
    have hset := sum_set (d' := d + 1) hd
    have hge := sum_ge hd
    cases ho i d _ hd hi with
    | block es ho' =>
      by_cases hz : l.paused = 0
      · have hd0 : d = 0 := by omega
        subst hd0
        have hl' : Act.on (.block es) l = ⟨0, l.entries ++ es⟩ := logMulti_open es l hz
        obtain ⟨kept, B, k, h1, h2, h3, h4, h5, h6⟩ := next 0 ⟨0, l.entries ++ es⟩ ho' (by rw [set_same hd]; show 0 = _; omega)
        refine ⟨kept.set i (es :: k), es :: B, by rw [List.length_set]; exact h1, ?_, ?_, ?_⟩
        · intro j e bs k' hj hbs hk'
          by_cases hji : j = i
          · subst hji
            rw [List.getElem?_set_self (by omega)] at hk'
            rw [hd] at hj; rw [hi] at hbs
            cases hj; cases hbs; cases hk'
            exact h3.cons_cons es
          · rw [List.getElem?_set_ne (Ne.symm hji)] at hk'
            exact h4 j e bs k' hji hj hbs hk'
        · refine .take (i := i) (l := k) (List.getElem?_set_self (by omega)) ?_
          rw [List.set_set, set_same h2]
          exact h5
        · show actsOn out (Act.on (.block es) l) = _
          rw [hl', h6]
          simp
      · have hl' : Act.on (.block es) l = l := logMulti_paused (by omega) es
        refine skip d l ho' (by rw [set_same hd]; exact hp) rfl hl' ?_
        by_cases hd0 : d = 0
        · subst hd0
          exact (List.Sublist.refl _).cons es
        · rw [visible, if_neg hd0]
          exact List.Sublist.refl _
    | pause hw ho' => exact skip (d + 1) l.pause ho' (by show l.paused + 1 = _; omega) rfl rfl (List.Sublist.refl _)
    | @unpause d0 _ _ hw ho' =>
      have hset' := sum_set (d' := d0) hd
      have hl' : l.unpause = ⟨l.paused - 1, l.entries⟩ := by
        unfold LoggerSt.unpause
        rw [if_pos (by omega)]
      exact skip d0 ⟨l.paused - 1, l.entries⟩ ho' (by show l.paused - 1 = _; omega) rfl hl' (List.Sublist.refl _)

end Steit
