import Verif.Lemmas.Sync
import Verif.Lemmas.Quiet
import Verif.Props.Replay

/-!
# Sources and replicas: properties C24, C25 (API calls) and C28

The side conditions of calls (`OpAddr`, `OpSync`) are in `Verif/Spec/Ops.lean`, histories of calls in
`Verif/Spec/History.lean`. `Verif/Props/Defects.lean` shows, one by one, what goes wrong without the side conditions.
-/

namespace Steit
open Spec Prog

/-! ## C24 -/

theorem calls_sync (t : Ty) (ht : t.WF) (hs : t.isState = true) (m : Mode) : ∀ (ops : List t.Op) (v : t.El) (rt : Rt) (w : World),
    At t rt v → Carried t v → CallsSync t m ops v w →
    ∃ v' w' es, calls t m ops v w = (.ok v', w') ∧ At t rt v' ∧ Carried t v' ∧ Logged rt w w' es ∧
      ∀ m' r rt', At t rt' r → strip t r = strip t v → ∃ r', Applies (t.dict.handle m') r es r' ∧ strip t r' = strip t v'
  | [], v, rt, w, hv, hc, _ => ⟨v, w, [], rfl, hv, hc, .refl rfl, fun _ r _ _ hs => ⟨r, rfl, hs⟩⟩
  | op :: ops, v, rt, w, hv, hc, ⟨ha, ho, hn⟩ => by
    obtain ⟨v1, w1, es1, h1, hc1, hl1, hf1⟩ := syncs t ht m op v rt w hv hc ha ho
    have hv1 := at_run t ht m op v rt w v1 w1 hv ha h1
    obtain ⟨v2, w2, es2, h2, hv2, hc2, hl2, hf2⟩ := calls_sync t ht hs m ops v1 rt w1 hv1 hc1 (hn v1 w1 h1)
    refine ⟨v2, w2, es1 ++ es2, (Exec.bind_of h1).trans h2, hv2, hc2, hl1.trans hl2, ?_⟩
    intro m' r rt' hr hsame
    obtain ⟨r1, ha1, hs1⟩ := hf1 m' r rt' hr hsame
    obtain ⟨r2, ha2, hs2⟩ := hf2 m' r1 rt' (applies_at ht hs hr ha1) hs1
    exact ⟨r2, ha1.trans ha2, hs2⟩

theorem map_under_nil (es : List Entry) : es.map (under []) = es := by
  induction es with
  | nil => rfl
  | cons e es ih => rw [List.map_cons, under_nil, ih]

/-- C24: a source and an equal replica, both roots. The source makes any number of API calls of any kind, at any depth, each
within the side conditions. No call panics, and replaying the bytes of the source's log on the replica, in any build mode,
succeeds and makes the replica equal to the source again (`Same`: up to runtimes; hence also `==`). -/
theorem C24_replica_follows (t : Ty) (ht : t.WF) (hs : t.isState = true) (hp : shape t ≠ .prim)
    (hb : ¬ (shape t = .enum ∧ isBox t = true)) (m m' : Mode) (μ : Nat → Mem) (id id' : Nat) (ops : List t.Op) (v r : t.El)
    (w : World) (hv : At t ⟨id, []⟩ v) (hc : Carried t v) (hr : At t ⟨id', []⟩ r) (hsame : Same t r v)
    (hw : w.loggers id = ⟨0, []⟩) (hops : CallsSync t m ops v w) :
    ∃ v' w', calls t m ops v w = (.ok v', w') ∧ At t ⟨id, []⟩ v' ∧ Carried t v' ∧ (w'.loggers id).paused = 0 ∧
      ((∀ e ∈ (w'.loggers id).entries, Fits e) →
        ∃ bytes r', (BufferLogger.mk (w'.loggers id).entries).bytes m μ = .ok bytes ∧ replay t.dict m' r bytes = .ok r' [] ∧
          Same t r' v' ∧ t.eq r' v' = true ∧ At t ⟨id', []⟩ r') := by
  obtain ⟨v', w', es, h1, hv', hc', hl, hf⟩ := calls_sync t ht hs m ops v ⟨id, []⟩ w hv hc hops
  have hlog : w'.loggers id = ⟨0, es⟩ := by
    have := hl
    unfold Logged at this
    rw [map_under_nil, hw] at this
    simpa [appended] using this
  refine ⟨v', w', h1, hv', hc', by rw [hlog], fun hfit => ?_⟩
  rw [hlog] at hfit ⊢
  obtain ⟨r', ha, hsr⟩ := hf m' r ⟨id', []⟩ hr hsame
  have hroot := (C31_accepted_at_root t hs hp hb m' ⟨id', []⟩ r hr rfl []).1
  have hrep := replay_eq t.dict m' r es hfit hroot
  rw [applyAll_of_applies ha] at hrep
  exact ⟨_, r', bytes_eq m μ ⟨es⟩ hfit, hrep, hsr, eq_of_same hsr hc', applies_at ht hs hr ha⟩

/-- C24 in rounds: the log is sent and drained from time to time. However the history of calls is cut into rounds, everything
succeeds and in the end source and replica are equal. -/
theorem C24_replica_follows_in_rounds (t : Ty) (ht : t.WF) (hs : t.isState = true) (hp : shape t ≠ .prim)
    (hb : ¬ (shape t = .enum ∧ isBox t = true)) (m m' : Mode) (μ : Nat → Mem) (id id' : Nat) (history : List (List t.Op)) :
    ∀ (v r : t.El) (w : World), At t ⟨id, []⟩ v → Carried t v → At t ⟨id', []⟩ r → Same t r v →
      w.loggers id = ⟨0, []⟩ → RoundsSync t m id history v w →
      ∃ v' r' w', rounds t m m' μ id history v r w = some (v', r', w') ∧ Same t r' v' ∧ t.eq r' v' = true ∧
        w'.loggers id = ⟨0, []⟩ := by
  induction history with
  | nil => intro v r w hv hc hr hsame hw _; exact ⟨v, r, w, rfl, hsame, eq_of_same hsame hc, hw⟩
  | cons ops history ih =>
    intro v r w hv hc hr hsame hw ⟨hops, hn⟩
    obtain ⟨v', w', h1, hv', hc', hp', hf⟩ :=
      C24_replica_follows t ht hs hp hb m m' μ id id' ops v r w hv hc hr hsame hw hops
    obtain ⟨hfit, hrest⟩ := hn v' w' h1
    obtain ⟨bytes, r', h2, h3, h4, _, h6⟩ := hf hfit
    obtain ⟨v2, r2, w2, h7⟩ := ih v' r' (drained id w') hv' hc' h6 h4
      (by simp only [drained, if_true]; rw [hp']) hrest
    refine ⟨v2, r2, w2, ?_, h7.2⟩
    simp only [rounds, h1, h2, h3]
    exact h7.1

/-! ## C25, API calls -/

/-- C25, API calls: after any number of them, at any depth and in any world, every object still knows its address. -/
theorem C25_calls (t : Ty) (ht : t.WF) (m : Mode) : ∀ (ops : List t.Op) (rt : Rt) (v v' : t.El) (w w' : World), At t rt v →
    CallsAddr t m ops v w → calls t m ops v w = (.ok v', w') → At t rt v'
  | [], rt, v, v', w, w', hv, _, h => by cases h; exact hv
  | op :: ops, rt, v, v', w, w', hv, ⟨ha, hn⟩, h => by
    obtain ⟨v1, w1, h1, h2⟩ := Exec.bind_ok h
    exact C25_calls t ht m ops rt v1 v' w1 w' (at_run t ht m op v rt w v1 w1 hv ha h1) (hn v1 w1 h1) h2

/-- What C25 is for: the next call on any object inside is logged to the root's logger, below the path of the object's
address. `Logged rt` says so for the object at `rt`. -/
theorem C25_logs_where_it_sits (t : Ty) (ht : t.WF) (m : Mode) (op : t.Op) (rt : Rt) (v : t.El) (w : World) (hv : At t rt v)
    (hc : Carried t v) (ha : OpAddr t op v) (ho : OpSync t op v) :
    ∃ (v' : t.El) (w' : World) (es : List Entry), t.run m op v w = (.ok v', w') ∧
      w'.loggers rt.logger = appended (w.loggers rt.logger) (es.map (under rt.path)) := by
  obtain ⟨v', w', es, h1, _, h2, _⟩ := syncs t ht m op v rt w hv hc ha ho
  exact ⟨v', w', es, h1, h2⟩

/-! ## C28 -/

/-- The world with one logger paused once more. -/
def pausedOnce (id : Nat) (w : World) : World :=
  { w with loggers := fun i => if i = id then (w.loggers i).pause else w.loggers i }

theorem window_quiet {α β : Type} {rt : Rt} {f : Exec α} {g : α → Exec β} {w w' : World} {b : β} (hq : Quiet rt.logger f)
    (h : (do
      rt.pauseLogger
      let x ← f
      rt.unpauseLogger
      g x : Exec β) w = (.ok b, w')) :
    ∃ x w1 w2, f (pausedOnce rt.logger w) = (.ok x, w1) ∧ w2.loggers rt.logger = w.loggers rt.logger ∧ g x w2 = (.ok b, w') := by
  obtain ⟨x, w1, w2, h1, h2, h3⟩ := window_ok h
  refine ⟨x, w1, w2, h1, ?_, h3⟩
  have h4 := hq (pausedOnce rt.logger w) x w1 (by
    show 0 < (if rt.logger = rt.logger then _ else _ : LoggerSt).paused
    rw [if_pos rfl]
    exact Nat.succ_pos _) h1
  rw [h2]
  simp only [if_true, h4, pausedOnce]
  show LoggerSt.unpause ⟨_ + 1, _⟩ = _
  unfold LoggerSt.unpause
  simp

theorem toBytesNow_ok {α : Type} {d : Dict α} {m : Mode} {v : α} {w w' : World} {bytes : Bytes}
    (h : toBytesNow d m v w = (.ok bytes, w')) :
    d.toBytesFrom m (w.caches 0) v = .ok bytes ∧ w'.loggers = w.loggers := by
  have h1 : d.toBytesFrom m (w.caches 0) v = .ok bytes := congrArg Prod.fst h
  have h2 : _ = w' := congrArg Prod.snd h
  exact ⟨h1, by rw [← h2]; rfl⟩

theorem log_ok {rt : Rt} {e : Entry} {w w' : World} {u : Unit} (h : rt.log e w = (.ok u, w')) :
    w'.loggers rt.logger = appended (w.loggers rt.logger) [e] := by
  cases h
  simp [log_eq, World.onLogger]

theorem logChild_ok {α β : Type} {rt : Rt} {d : Dict α} {m : Mode} {k : U32} {x : α} {g : Exec β} {b : β} {w w' : World}
    (hg : ∀ w, ∃ b', g w = (.ok b', w))
    (h : (do
      rt.logUpdateChild d m k x
      g : Exec β) w = (.ok b, w')) :
    ∃ bytes μ, d.toBytesFrom m μ x = .ok bytes ∧
      w'.loggers rt.logger = appended (w.loggers rt.logger) [.update (rt.path ++ [k]) bytes] := by
  obtain ⟨_, w1, h1, h2⟩ := Exec.bind_ok h
  obtain ⟨bytes, w2, h3, h4⟩ := Exec.bind_ok h1
  obtain ⟨h5, h6⟩ := toBytesNow_ok h3
  obtain ⟨b', hb⟩ := hg w1
  rw [hb] at h2
  cases h2
  exact ⟨bytes, _, h5, by rw [log_ok h4, h6]⟩

/-- C28, `List::push_with`: if it returns, the closure ran once, with the logger paused once more; the value `x` it returned
is the new last item; and compared with before the call, exactly one entry (none if the logger was paused already), holding
the bytes of `x`, has been added to the list's logger. In particular the pause count is back. The closure is arbitrary code
that leaves a paused logger as it is (`Quiet`); closures making API calls are (`C28_api_calls_are_quiet`). -/
theorem C28_push_with {α : Type} (d : Dict α) (m : Mode) (l l' : ListV α) (f : Rt → Exec α) (w w' : World) (i : Nat)
    (hq : Quiet l.rt.logger (f (l.rt.nested (fieldNo l.items.length))))
    (h : listPushWith d m l f w = (.ok (i, l'), w')) :
    ∃ x w1 bytes μ, f (l.rt.nested (fieldNo l.items.length)) (pausedOnce l.rt.logger w) = (.ok x, w1) ∧
      l' = { l with items := l.items ++ [x] } ∧ d.toBytesFrom m μ x = .ok bytes ∧
      w'.loggers l.rt.logger = appended (w.loggers l.rt.logger) [.listPush l.rt.path bytes] := by
  obtain ⟨x, w1, w2, h1, h2, h3⟩ := window_quiet hq h
  obtain ⟨_, w3, h4, h5⟩ := Exec.bind_ok h3
  obtain ⟨bytes, w4, h6, h7⟩ := Exec.bind_ok h4
  obtain ⟨h8, h9⟩ := toBytesNow_ok h6
  cases h5
  exact ⟨x, w1, bytes, _, h1, rfl, h8, by rw [log_ok h7, h9, h2]⟩

/-- C28, `Map::insert_with`. -/
theorem C28_insert_with {α : Type} (d : Dict α) (m : Mode) (v v' : MapV α) (k : U32) (f : Rt → Exec α) (w w' : World)
    (old : Option α) (hq : Quiet v.rt.logger (f (v.rt.nested k))) (h : mapInsertWith d m v k f w = (.ok (old, v'), w')) :
    ∃ x w1 bytes μ, f (v.rt.nested k) (pausedOnce v.rt.logger w) = (.ok x, w1) ∧
      v' = { v with entries := entriesInsert k x v.entries } ∧ d.toBytesFrom m μ x = .ok bytes ∧
      w'.loggers v.rt.logger = appended (w.loggers v.rt.logger) [.update (v.rt.path ++ [k]) bytes] := by
  obtain ⟨x, w1, w2, h1, h2, h3⟩ := window_quiet hq h
  obtain ⟨bytes, μ, h4, h5⟩ := logChild_ok (fun _ => ⟨_, rfl⟩) h3
  obtain ⟨_, _, _, h6⟩ := Exec.bind_ok h3
  cases h6
  exact ⟨x, w1, bytes, μ, h1, rfl, h4, by rw [h5, h2]⟩

/-- C28, the generated `set_f_with` of a state field with the given tag. -/
theorem C28_set_with {α ω : Type} (d : Dict α) (run : Mode → ω → α → Exec α) (m : Mode) (rt : Rt) (tag : U32) (old x' : α)
    (f : Rt → Exec α) (w w' : World) (hq : Quiet rt.logger (f (rt.nested tag)))
    (h : runField true tag d run m rt (.setWith f) old w = (.ok x', w')) :
    ∃ w1 bytes μ, f (rt.nested tag) (pausedOnce rt.logger w) = (.ok x', w1) ∧ d.toBytesFrom m μ x' = .ok bytes ∧
      w'.loggers rt.logger = appended (w.loggers rt.logger) [.update (rt.path ++ [tag]) bytes] := by
  unfold runField at h
  simp only [if_true] at h
  obtain ⟨x, w1, w2, h1, h2, h3⟩ := window_quiet hq h
  obtain ⟨bytes, μ, h4, h5⟩ := logChild_ok (fun _ => ⟨_, rfl⟩) h3
  obtain ⟨_, _, _, h6⟩ := Exec.bind_ok h3
  cases h6
  exact ⟨w1, bytes, μ, h1, h4, by rw [h5, h2]⟩

/-- C28: API calls are quiet, whatever state and type they are made on, if the closures they are given are; so by induction on
the nesting of closures, closures built from API calls are quiet. -/
theorem C28_api_calls_are_quiet (t : Ty) (m : Mode) (id : Nat) (ops : List t.Op) (h : ∀ op ∈ ops, OpQuiet id t op) :
    (∀ v, Quiet id (calls t m ops v)) ∧ ∀ rt, Quiet id (building t m ops rt) :=
  ⟨fun v => quiet_calls t m ops h v, fun _ => quiet_calls t m ops h _⟩

/-- A closure that builds a value by API calls is one replicas can follow (a side condition of C24), if the calls are. -/
theorem C28_building_is_admissible (t : Ty) (ht : t.WF) (hs : t.isState = true) (m : Mode) (ops : List t.Op)
    (hops : ∀ rt w, CallsSync t m ops (t.dict.withRuntime rt) w)
    (hlen : ∀ rt w x w', building t m ops rt w = (.ok x, w') → (encode t x).length < 2 ^ 32) :
    ClosureAddr t (building t m ops) ∧ ClosureSync t (building t m ops) := by
  have key : ∀ rt w, ∃ v' w', building t m ops rt w = (.ok v', w') ∧ At t rt v' ∧ Carried t v' ∧
      ∃ es, Logged rt w w' es := by
    intro rt w
    obtain ⟨v', w', es, h1, h2, h3, h4, _⟩ := calls_sync t ht hs m ops (t.dict.withRuntime rt) rt w ((anyLaw t ht).at_new rt)
      ((carried_init t).1 rt) (hops rt w)
    exact ⟨v', w', h1, h2, h3, es, h4⟩
  constructor
  · intro rt w x w' h
    obtain ⟨v', w1, h1, h2, _⟩ := key rt w
    rw [h1] at h
    cases h
    exact h2
  · intro rt w hw
    obtain ⟨v', w1, h1, _, h3, es, h4⟩ := key rt w
    refine ⟨v', w1, h1, h3, hlen _ _ _ _ h1, ?_⟩
    unfold Logged appended at h4
    rwa [if_neg (by omega)] at h4

theorem Exec.bind_err {α β : Type} {x : Exec α} {f : α → Exec β} {w w1 : World} {e : Err} (h : x w = (.error e, w1)) :
    (x >>= f) w = (.error e, w1) := by
  rw [Exec.run_bind, h]

/-- Without quietness C28 fails: when the closure panics, the logger stays paused for ever (until someone unpauses it), so
that everything logged later is lost. -/
theorem C28_panic_leaves_logger_paused {α : Type} (d : Dict α) (m : Mode) (l : ListV α) (f : Rt → Exec α) (w w1 : World)
    (e : Err) (h : f (l.rt.nested (fieldNo l.items.length)) (pausedOnce l.rt.logger w) = (.error e, w1))
    (hl : w1.loggers = (pausedOnce l.rt.logger w).loggers) :
    ∃ w', listPushWith d m l f w = (.error e, w') ∧ (w'.loggers l.rt.logger).paused = (w.loggers l.rt.logger).paused + 1 ∧
      ∀ en : Entry, ((w'.loggers l.rt.logger).log en).entries = (w.loggers l.rt.logger).entries := by
  have hp : w1.loggers l.rt.logger = (w.loggers l.rt.logger).pause := by
    rw [hl]; simp [pausedOnce]
  refine ⟨w1, ?_, by rw [hp]; rfl, fun en => ?_⟩
  · unfold listPushWith
    rw [Exec.bind_of (x := l.rt.pauseLogger) (a := ()) (w1 := pausedOnce l.rt.logger w) rfl]
    exact Exec.bind_err h
  · rw [hp]
    simp [LoggerSt.log, LoggerSt.pause]

/-! ## A history meeting the hypotheses -/

theorem callsSync_cons {t : Ty} {m : Mode} {op : t.Op} {ops : List t.Op} {v v1 : t.El} (ha : OpAddr t op v)
    (ho : OpSync t op v) (hr : ∀ w, (t.run m op v w).1 = .ok v1) (hn : ∀ w, CallsSync t m ops v1 w) (w : World) :
    CallsSync t m (op :: ops) v w := by
  refine ⟨ha, ho, fun v' w' h => ?_⟩
  have := hr w
  rw [h] at this
  cases this
  exact hn w'

/-- An enum: `A(u32)` (tag 0), `B { 5: List<u8> }` (tag 1). -/
def hEnum : Ty :=
  .enum true false (.cons 0#32 {} (.uint .w32) .nil) (.cons 1#32 true (.cons 5#32 {} (.list (.uint .w8)) .nil) .nil)

/-- A struct: a list of integers (field 0), a map of such lists (field 1) and an enum (field 2). -/
def hTy : Ty :=
  .struct true true (.cons 0#32 {} (.list (.uint .w8)) (.cons 1#32 {} (.map .u8 (.list (.uint .w8))) (.cons 2#32 {} hEnum .nil)))

/-- A closure pushing an item to the new list. -/
def hNew : Rt → Exec (Ty.list (.uint .w8)).El := building (.list (.uint .w8)) .debug [.push (5#8 : BitVec 8)]

theorem hNew_ok : ClosureAddr (.list (.uint .w8)) hNew ∧ ClosureSync (.list (.uint .w8)) hNew := by
  refine C28_building_is_admissible (.list (.uint .w8)) ⟨rfl, trivial⟩ rfl .debug _ (fun rt w => ?_) (fun rt w x w' h => ?_)
  · refine ⟨⟨Rt.dflt, trivial⟩, ⟨trivial, ?_⟩, fun _ _ _ => trivial⟩
    show (leb 5).length < _
    rw [leb_eq_lebF]; decide
  · have : (building (.list (.uint .w8)) .debug [.push (5#8 : BitVec 8)] rt w).1 = .ok ⟨rt, [5#8]⟩ := rfl
    rw [h] at this
    cases this
    show (leb 5 ++ []).length < _
    rw [leb_eq_lebF]; decide

def hVal (a : List (BitVec 8)) (b : List (U32 × ListV (BitVec 8))) (c : hEnum.El) : hTy.El :=
  ⟨⟨4, []⟩, ⟨⟨4, [0#32]⟩, a⟩, ⟨⟨4, [1#32]⟩, b⟩, c, ()⟩

def hA (n : U32) : hEnum.El := ⟨⟨4, [2#32, 0#32]⟩, .inl (n, ())⟩
def hB (a : List (BitVec 8)) : hEnum.El := ⟨⟨4, [2#32, 1#32]⟩, .inr (.inl (⟨⟨4, [2#32, 1#32, 5#32]⟩, a⟩, ()))⟩

def hOps : List hTy.Op :=
  [ .inl (.inner (.push (7#8 : BitVec 8))),
    .inr (.inl (.inner (.insertWith 3#32 hNew))),
    .inr (.inl (.inner (.value 3#32 (.push (9#8 : BitVec 8))))),
    .inr (.inr (.inl (.inner (.inr (.inl (.inl (.set ⟨Rt.dflt, [1#8]⟩))))))),
    .inr (.inr (.inl (.inner (.inr (.inl (.inl (.inner (.swapRemove 0)))))))),
    .inr (.inl (.inner (.remove 3#32))) ]

theorem hOps_ok (w : World) : CallsSync hTy .debug hOps (hVal [] [] (hA 0)) w := by
  have s8 : ∀ n : BitVec 8, Sendable (.uint .w8) n := by
    intro n
    refine ⟨trivial, ?_⟩
    show (leb n.toNat).length < _
    have := leb_length_le 4 n.toNat (by have := n.isLt; omega)
    omega
  refine callsSync_cons (v1 := hVal [7#8] [] (hA 0)) ?_ ?_ (fun _ => rfl) ?_ w
  · exact ⟨Rt.dflt, trivial⟩
  · exact ⟨rfl, s8 _⟩
  refine callsSync_cons (v1 := hVal [7#8] [(3#32, ⟨⟨4, [1#32, 3#32]⟩, [5#8]⟩)] (hA 0)) hNew_ok.1
    ⟨rfl, by decide, by decide, hNew_ok.2⟩ (fun _ => rfl) ?_
  refine callsSync_cons (v1 := hVal [7#8] [(3#32, ⟨⟨4, [1#32, 3#32]⟩, [5#8, 9#8]⟩)] (hA 0))
    (fun _ _ _ => ⟨Rt.dflt, trivial⟩) ⟨rfl, fun _ _ _ => s8 _⟩ (fun _ => rfl) ?_
  refine callsSync_cons (v1 := hVal [7#8] [(3#32, ⟨⟨4, [1#32, 3#32]⟩, [5#8, 9#8]⟩)] (hB [1#8])) ?_ ?_ (fun _ => rfl) ?_
  · rintro _ (_ | x)
    · exact ⟨Rt.dflt, rfl, fun _ _ _ => trivial⟩
    · exact nomatch x
  · refine ⟨rfl, ?_, ?_⟩
    · intro _ _ rt x h
      cases h
      show (leb 1 ++ []).length < _
      rw [leb_eq_lebF]; decide
    · rintro _ (_ | x)
      · refine ⟨rfl, fun _ _ => trivial, ?_⟩
        show (leb 1 ++ []).length < _
        rw [leb_eq_lebF]; decide
      · exact nomatch x
  refine callsSync_cons (v1 := hVal [7#8] [(3#32, ⟨⟨4, [1#32, 3#32]⟩, [5#8, 9#8]⟩)] (hB [])) ?_ ?_ (fun _ => rfl) ?_
  · intro h; cases h
  · refine ⟨rfl, ?_, ?_⟩
    · intro h; cases h
    · exact ⟨rfl, fun h => absurd h (by decide)⟩
  refine callsSync_cons (v1 := hVal [7#8] [] (hB [])) ?_ ?_ (fun _ => rfl) (fun _ => trivial)
  · trivial
  · refine ⟨rfl, ?_⟩
    show 3#32 ∈ [3#32]
    decide

theorem hTy_wf : hTy.WF := by
  refine ⟨by decide, by decide, fun _ => rfl, ⟨rfl, trivial⟩, by decide, fun _ => rfl, ⟨rfl, rfl, trivial⟩, by decide, fun _ => rfl, ?_, trivial⟩
  exact ⟨by decide, ⟨by decide, fun _ => rfl, trivial, trivial⟩, by decide, by decide, by decide, by decide,
    ⟨by decide, fun _ => rfl, ⟨rfl, trivial⟩, trivial⟩, trivial⟩

theorem hVal_at (id : Nat) : At hTy ⟨id, []⟩ (hTy.dict.withRuntime ⟨id, []⟩) := (anyLaw hTy hTy_wf).at_new _

/-- A world in which nothing was logged and all size caches are fresh. -/
def hWorld : World := ⟨fun _ => ⟨0, []⟩, fun _ _ => 0⟩

/-- Not vacuous: C24 applied to a history with a push, an `insert_with` whose closure makes an API call, a call on the
inserted value, a setter switching the variant of an enum, a `swap_remove` inside it and a map removal. -/
example (m' : Mode) (μ : Nat → Mem) :
    ∃ v' w', calls hTy .debug hOps (hVal [] [] (hA 0)) hWorld = (.ok v', w') ∧
      (w'.loggers 4).entries.map address =
        [[0#32], [1#32, 3#32], [1#32, 3#32], [2#32], [2#32, 1#32, 5#32], [2#32, 1#32, 5#32], [1#32]] ∧
      ∃ bytes r', (BufferLogger.mk (w'.loggers 4).entries).bytes .debug μ = .ok bytes ∧
        replay hTy.dict m' (hTy.dict.withRuntime ⟨9, []⟩) bytes = .ok r' [] ∧ Same hTy r' v' := by
  obtain ⟨v', w', h1, _, _, _, h2⟩ := C24_replica_follows hTy hTy_wf rfl (by decide) (by decide) .debug m' μ 4 9 hOps
    (hVal [] [] (hA 0)) (hTy.dict.withRuntime ⟨9, []⟩) hWorld (hVal_at 4) ((carried_init hTy).1 ⟨4, []⟩) (hVal_at 9) rfl rfl
    (hOps_ok hWorld)
  have he : (w'.loggers 4).entries = ((calls hTy .debug hOps (hVal [] [] (hA 0)) hWorld).2.loggers 4).entries := by rw [h1]
  have hfit : ∀ e ∈ (w'.loggers 4).entries, Fits e := by
    rw [he]
    unfold Fits
    decide +kernel
  obtain ⟨bytes, r', h3, h4, h5, _⟩ := h2 hfit
  exact ⟨v', w', h1, by rw [he]; decide +kernel, bytes, r', h3, h4, h5⟩


theorem hNew_quiet (id : Nat) (rt : Rt) : Quiet id (hNew rt) :=
  (C28_api_calls_are_quiet (.list (.uint .w8)) .debug id _ fun op h => by cases List.mem_singleton.1 h; trivial).2 rt

/-- `push_with` on a list with one item: the new item is built by an API call, which is not logged; the item is, once. -/
example (w : World) : ∃ w' bytes, listPushWith (Ty.list (.uint .w8)).dict .debug ⟨⟨4, [0#32]⟩, [⟨⟨4, [0#32, 0#32]⟩, [1#8]⟩]⟩ hNew w =
      (.ok (1, ⟨⟨4, [0#32]⟩, [⟨⟨4, [0#32, 0#32]⟩, [1#8]⟩, ⟨⟨4, [0#32, 1#32]⟩, [5#8]⟩]⟩), w') ∧
    w'.loggers 4 = appended (w.loggers 4) [.listPush [0#32] bytes] := by
  have h := C28_push_with (Ty.list (.uint .w8)).dict .debug ⟨⟨4, [0#32]⟩, [⟨⟨4, [0#32, 0#32]⟩, [1#8]⟩]⟩ _ hNew w _ _ (hNew_quiet _ _) rfl
  obtain ⟨_, _, bytes, _, _, _, _, h⟩ := h
  exact ⟨_, bytes, rfl, h⟩

/-- `insert_with`, the same. -/
example (w : World) : ∃ w' bytes, mapInsertWith (Ty.list (.uint .w8)).dict .debug ⟨⟨4, [1#32]⟩, []⟩ 3#32 hNew w =
      (.ok (none, ⟨⟨4, [1#32]⟩, [(3#32, ⟨⟨4, [1#32, 3#32]⟩, [5#8]⟩)]⟩), w') ∧
    w'.loggers 4 = appended (w.loggers 4) [.update [1#32, 3#32] bytes] := by
  have h := C28_insert_with (Ty.list (.uint .w8)).dict .debug ⟨⟨4, [1#32]⟩, []⟩ _ 3#32 hNew w _ _ (hNew_quiet _ _) rfl
  obtain ⟨_, _, bytes, _, _, _, _, h⟩ := h
  exact ⟨_, bytes, rfl, h⟩

/-- `set_f_with` of a field with tag 2, the same. -/
example (w : World) : ∃ w' bytes, runField true 2#32 (Ty.list (.uint .w8)).dict (Ty.list (.uint .w8)).run .debug ⟨4, []⟩ (.setWith hNew)
      ⟨⟨4, [2#32]⟩, []⟩ w = (.ok ⟨⟨4, [2#32]⟩, [5#8]⟩, w') ∧
    w'.loggers 4 = appended (w.loggers 4) [.update [2#32] bytes] := by
  have h := C28_set_with (Ty.list (.uint .w8)).dict (Ty.list (.uint .w8)).run .debug ⟨4, []⟩ 2#32 ⟨⟨4, [2#32]⟩, []⟩ _ hNew w _ (hNew_quiet _ _) rfl
  obtain ⟨_, bytes, _, _, _, h⟩ := h
  exact ⟨_, bytes, rfl, h⟩

/-- A closure that panics: what is logged afterwards is lost. -/
example (w : World) (e : Err) : ∃ w', listPushWith (Ty.list (.uint .w8)).dict .debug ⟨⟨4, [0#32]⟩, []⟩ (fun _ => .ret (.error e)) w = (.error e, w') ∧
    (w'.loggers 4).paused = (w.loggers 4).paused + 1 ∧ ∀ en : Entry, ((w'.loggers 4).log en).entries = (w.loggers 4).entries :=
  C28_panic_leaves_logger_paused (Ty.list (.uint .w8)).dict .debug ⟨⟨4, [0#32]⟩, []⟩ (fun _ => .ret (.error e)) w _ e rfl rfl

end Steit
