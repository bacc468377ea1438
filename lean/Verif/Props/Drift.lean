import Verif.Props.States
import Verif.Spec.Drift
import Verif.Lemmas.MeansPart

/-!
# Changes that are not logged: property C77

`list[i] = x`, `*map.get_mut(&k).unwrap() = x`, `iter_mut`, and assignments to fields inside the module of a message change a state without
logging. From then on the replica differs from the state in one object. `Same t r (put x)`, where `put` replaces that object: the replica has
`x` in its place and is equal otherwise.
-/

namespace Steit
open Spec Prog

/-- C77: a change without log anywhere in a state. The replica has the old object, and is equal otherwise. -/
theorem C77_unlogged_change {t : Ty} {v r : t.El} {p : List U32} {s : Ty} {u : s.El} {put : s.El → t.El} (h : Part t v p s u put)
    (hsame : Same t r v) (x : s.El) : Part t (put x) p s x put ∧ Same t r (put u) :=
  ⟨part_put h x, by rw [part_self h]; exact hsame⟩

theorem drift_elsewhere {t : Ty} (ht : t.WF) (hst : t.isState = true) {m : Mode} {p : List U32} {s : Ty} {rt : Rt} {v v' : t.El}
    {w w' : World} {u a : s.El} {put : s.El → t.El} (h : Part t v p s u put) (hv : At t rt (put a)) (hc : Carried t (put a))
    (hrun : Elsewhere t m p v w v' w') :
    ∃ put' es, Part t v' p s u put' ∧ At t rt (put' a) ∧ Carried t (put' a) ∧ Logged rt w w' es ∧
      ∀ m' r rt' x, At t rt' r → Same t r (put x) → ∃ r', Applies (t.dict.handle m') r es r' ∧ Same t r' (put' x) := by
  induction hrun with
  | start => exact ⟨put, [], h, hv, hc, .refl rfl, fun _ r _ _ _ hs => ⟨r, rfl, hs⟩⟩
  | @call v1 w1 w2 q c y y' putc op _ hq hp1 hp2 ha ho hr ih =>
    obtain ⟨put1, es1, h1, hv1, hc1, hl1, hf1⟩ := ih
    obtain ⟨put2, e1, e2, h3, h4⟩ := part_pair h1 hq ht hp1 hp2
    have hqa := h3 a
    obtain ⟨z, w3, es2, hrun2, _, hl2, hf2⟩ := syncs c (wf_part hqa ht hst).1 m op y _ w1 (at_part hqa hv1) (carried_part hqa hc1) ha ho
    rw [hr] at hrun2
    cases hrun2
    obtain ⟨u2, w3, es3, k1, k2, k3, _, _, _, _⟩ := C51_call_on_an_object_inside ht hst hqa m op rt w1 hv1 hc1 ha ho
    rw [hr] at k1
    cases k1
    have hl2' : Logged rt w1 w2 (es2.map (under q)) := by
      unfold Logged at hl2 ⊢
      rw [hl2]
      congr 1
      rw [List.map_map]
      refine List.map_congr_left fun e _ => ?_
      cases e <;> simp [under]
    refine ⟨fun x => put2 x y', es1 ++ es2.map (under q), h4 y', k2, k3, hl1.trans hl2', fun m' r rt' x hr' hs' => ?_⟩
    obtain ⟨r1, g1, g2⟩ := hf1 m' r rt' x hr' hs'
    have hr1 := applies_at ht hst hr' g1
    obtain ⟨yr, putr, q1, q2, q3⟩ := part_same (h3 x) g2
    obtain ⟨yr', q4, q5⟩ := hf2 m' yr _ (at_part q1 hr1) q2
    exact ⟨putr yr', g1.trans (applies_part ht m' q1 q4), q3 _ _ q5⟩

/-- C77, the difference stays where it is: source and replica are equal but for the object at `p`, which is `u` in the source and `x` in
the replica. However many calls are made elsewhere, the replica replays them all, and source and replica are equal again but for that
object, which is still `u` in the one and `x` in the other. Nothing is assumed of `u` (it may have any runtime, as assigned objects do) or
of `x`; the rest of the state is as a state should be: so it is with some object `a` in that place. -/
theorem C77_drift_stays {t : Ty} (ht : t.WF) (hs : t.isState = true) (hp : shape t ≠ .prim)
    (hb : ¬ (shape t = .enum ∧ isBox t = true)) (m m' : Mode) (μ : Nat → Mem) (id id' : Nat) {p : List U32} {s : Ty} {v v' r : t.El}
    {w w' : World} {u a : s.El} {put : s.El → t.El} (h : Part t v p s u put) (x : s.El) (hv : At t ⟨id, []⟩ (put a))
    (hc : Carried t (put a)) (hr : At t ⟨id', []⟩ r) (hsame : Same t r (put x)) (hw : w.loggers id = ⟨0, []⟩)
    (hrun : Elsewhere t m p v w v' w') :
    ∃ put', Part t v' p s u put' ∧ At t ⟨id, []⟩ (put' a) ∧ Carried t (put' a) ∧ ((∀ e ∈ (w'.loggers id).entries, Fits e) →
      ∃ bytes r', (BufferLogger.mk (w'.loggers id).entries).bytes m μ = .ok bytes ∧ replay t.dict m' r bytes = .ok r' [] ∧
        Same t r' (put' x) ∧ At t ⟨id', []⟩ r') := by
  obtain ⟨put', es, h1, hv', hc', hl, hf⟩ := drift_elsewhere ht hs h hv hc hrun
  have hlog : w'.loggers id = ⟨0, es⟩ := by
    have := hl
    unfold Logged at this
    rw [map_under_nil, hw] at this
    simpa [appended] using this
  refine ⟨put', h1, hv', hc', fun hfit => ?_⟩
  rw [hlog] at hfit ⊢
  obtain ⟨r', ha, hsr⟩ := hf m' r ⟨id', []⟩ x hr hsame
  have hrep := replay_eq t.dict m' r es hfit (C31_accepted_at_root t hs hp hb m' ⟨id', []⟩ r hr rfl []).1
  rw [applyAll_of_applies ha] at hrep
  exact ⟨_, r', bytes_eq m μ ⟨es⟩ hfit, hrep, hsr, applies_at ht hs hr ha⟩

/-- C77, from the change on: a state and an equal replica; any object `x`, with any runtime, is assigned without log in place of the
object `u` anywhere in the state; then any number of calls are made elsewhere. The replica replays them all and equals the source but for
that object, where it still has what was there before the assignment. -/
theorem C77_assigned {t : Ty} (ht : t.WF) (hs : t.isState = true) (hp : shape t ≠ .prim)
    (hb : ¬ (shape t = .enum ∧ isBox t = true)) (m m' : Mode) (μ : Nat → Mem) (id id' : Nat) {p : List U32} {s : Ty} {v v' r : t.El}
    {w w' : World} {u : s.El} {put : s.El → t.El} (h : Part t v p s u put) (x : s.El) (hv : At t ⟨id, []⟩ v) (hc : Carried t v)
    (hr : At t ⟨id', []⟩ r) (hsame : Same t r v) (hw : w.loggers id = ⟨0, []⟩) (hrun : Elsewhere t m p (put x) w v' w') :
    ∃ put', Part t v' p s x put' ∧ ((∀ e ∈ (w'.loggers id).entries, Fits e) →
      ∃ bytes r', (BufferLogger.mk (w'.loggers id).entries).bytes m μ = .ok bytes ∧ replay t.dict m' r bytes = .ok r' [] ∧
        Same t r' (put' u)) := by
  have e := part_self h
  obtain ⟨put', h1, _, _, h2⟩ := C77_drift_stays ht hs hp hb m m' μ id id' (part_put h x) u (e.symm ▸ hv) (e.symm ▸ hc) hr
    (e.symm ▸ hsame) hw hrun
  refine ⟨put', h1, fun hfit => ?_⟩
  obtain ⟨bytes, r', h3, h4, h5, _⟩ := h2 hfit
  exact ⟨bytes, r', h3, h4, h5⟩

theorem drift_told {t : Ty} (ht : t.WF) (hst : t.isState = true) {m : Mode} {p : List U32} {s : Ty} {rt : Rt} {v v' : t.El}
    {w w' : World} {u a : s.El} {put : s.El → t.El} (h : Part t v p s u put) (hv : At t rt (put a)) (hc : Carried t (put a))
    (hrun : Elsewhere t m p v w v' w') :
    ∃ put' es, Part t v' p s u put' ∧ At t rt (put' a) ∧ Carried t (put' a) ∧ Logged rt w w' es ∧
      ∀ x, Steps (Means t) (put x) es (put' x) := by
  induction hrun with
  | start => exact ⟨put, [], h, hv, hc, .refl rfl, fun _ => rfl⟩
  | @call v1 w1 w2 q c y y' putc op _ hq hp1 hp2 ha ho hr ih =>
    obtain ⟨put1, es1, h1, hv1, hc1, hl1, hf1⟩ := ih
    obtain ⟨put2, e1, e2, h3, h4⟩ := part_pair h1 hq ht hp1 hp2
    have hqa := h3 a
    obtain ⟨z, w3, es2, hrun2, _, hl2, hf2⟩ := tells c (wf_part hqa ht hst).1 m op y _ w1 (at_part hqa hv1) (carried_part hqa hc1) ha ho
    rw [hr] at hrun2
    cases hrun2
    obtain ⟨u2, w3, es3, k1, k2, k3, _, _, _, _⟩ := C51_call_on_an_object_inside ht hst hqa m op rt w1 hv1 hc1 ha ho
    rw [hr] at k1
    cases k1
    have hl2' : Logged rt w1 w2 (es2.map (under q)) := by
      unfold Logged at hl2 ⊢
      rw [hl2]
      congr 1
      rw [List.map_map]
      refine List.map_congr_left fun e _ => ?_
      cases e <;> simp [under]
    exact ⟨fun x => put2 x y', es1 ++ es2.map (under q), h4 y', k2, k3, hl1.trans hl2', fun x => (hf1 x).trans (steps_part (h3 x) hf2)⟩

/-- C77, C# clients: a client that shows the state but for the object at `p`, for which it shows `x`, replays the entries of all calls
elsewhere, and then shows the new state but for that object, for which it still shows `x`. -/
theorem C77_client_drift_stays {t : Ty} (ht : t.WF) (hs : t.isState = true) (hm : Mirrored t) (ρ : Bytes → Str) (m : Mode)
    (μ : Nat → Mem) (id : Nat) {p : List U32} {s : Ty} {v v' : t.El} {w w' : World} {u a : s.El} {put : s.El → t.El}
    (h : Part t v p s u put) (x : s.El) (hv : At t ⟨id, []⟩ (put a)) (hc : Carried t (put a)) {c : t.Cs} (hshow : Shows t (put x) c)
    (hw : w.loggers id = ⟨0, []⟩) (hrun : Elsewhere t m p v w v' w') :
    ∃ put', Part t v' p s u put' ∧ At t ⟨id, []⟩ (put' a) ∧ Carried t (put' a) ∧ ((∀ e ∈ (w'.loggers id).entries, CsFits e) →
      ∃ bytes c', (BufferLogger.mk (w'.loggers id).entries).bytes m μ = .ok bytes ∧ t.csReplay ρ c bytes = .ok c' ∧
        Shows t (put' x) c') := by
  obtain ⟨put', es, h1, hv', hc', hl, hf⟩ := drift_told ht hs h hv hc hrun
  have hlog : w'.loggers id = ⟨0, es⟩ := by
    have := hl
    unfold Logged at this
    rw [map_under_nil, hw] at this
    simpa [appended] using this
  refine ⟨put', h1, hv', hc', fun hfit => ?_⟩
  rw [hlog] at hfit ⊢
  obtain ⟨c', h3, h4⟩ := csReplay_steps ρ t ht hm (hf x) hshow hfit
  exact ⟨_, c', bytes_eq m μ ⟨es⟩ (fun e he => by have := hfit e he; unfold CsFits at this; unfold Fits; omega), h3.done, h4⟩

/-- C77, how it heals: source and replica differ in the object at `p`, which is `u` in the source and `x` in the replica. A call on it that
would log the same and lead to the same from `x` as it does from `u` makes source and replica equal again. -/
theorem C77_call_heals {t : Ty} (ht : t.WF) (hs : t.isState = true) (hp : shape t ≠ .prim)
    (hb : ¬ (shape t = .enum ∧ isBox t = true)) (m m' : Mode) (μ : Nat → Mem) (id id' : Nat) {p : List U32} {s : Ty} {v r : t.El}
    {w w' w1 w1' : World} {u u' x x' : s.El} {put : s.El → t.El} (h : Part t v p s u put) (hr : At t ⟨id', []⟩ r)
    (hsame : Same t r (put x)) (hw : w.loggers id = ⟨0, []⟩) (op : s.Op) (es : List Entry)
    (hrun : s.run m op u w = (.ok u', w')) (hlog : Logged ⟨id, p⟩ w w' es)
    (rt : Rt) (hx : At s rt x) (hcx : Carried s x) (ha : OpAddr s op x) (ho : OpSync s op x)
    (hrun' : s.run m op x w1 = (.ok x', w1')) (hlog' : Logged rt w1 w1' es) (hw1 : (w1.loggers rt.logger).paused = 0)
    (heq : Same s x' u') (hfit : ∀ e ∈ (w'.loggers id).entries, Fits e) :
    ∃ bytes r', (BufferLogger.mk (w'.loggers id).entries).bytes m μ = .ok bytes ∧ replay t.dict m' r bytes = .ok r' [] ∧
      Same t r' (put u') := by
  obtain ⟨x2, w2, es2, k1, _, k2, k3⟩ := syncs s (wf_part h ht hs).1 m op x rt w1 hx hcx ha ho
  rw [hrun'] at k1
  cases k1
  have hes : es2 = es := by
    unfold Logged at hlog' k2
    rw [hlog'] at k2
    have := congrArg LoggerSt.entries k2
    simp only [appended, hw1, if_true] at this
    exact (map_under_inj (List.append_cancel_left this)).symm
  subst hes
  have hentries : (w'.loggers id).entries = es2.map (under p) := by
    have : w'.loggers id = appended (w.loggers id) (es2.map (under p)) := hlog
    rw [this, hw]
    simp [appended]
  rw [hentries] at hfit ⊢
  obtain ⟨xr, putr, q1, q2, q3⟩ := part_same (part_put h x) hsame
  obtain ⟨xr', q4, q5⟩ := k3 m' xr _ (at_part q1 hr) q2
  have hrep := replay_eq t.dict m' r _ hfit (C31_accepted_at_root t hs hp hb m' ⟨id', []⟩ r hr rfl []).1
  rw [applyAll_of_applies (applies_part ht m' q1 q4)] at hrep
  exact ⟨_, _, bytes_eq m μ ⟨_⟩ hfit, hrep, q3 _ _ (q5.trans heq)⟩

/-- C77, setters heal: source and replica are equal but for one field of a message anywhere in the state, whatever is in it. Setting the
field makes them equal again. -/
theorem C77_setter_heals {t : Ty} (ht : t.WF) (hs : t.isState = true) (hp : shape t ≠ .prim)
    (hb : ¬ (shape t = .enum ∧ isBox t = true)) (m m' : Mode) (μ : Nat → Mem) (id id' : Nat) {p : List U32} {cached : Bool} {fs : Fields}
    {v r : t.El} {w : World} {u x : (Ty.struct true cached fs).El} {put : (Ty.struct true cached fs).El → t.El}
    (h : Part t v p (.struct true cached fs) u put) (hv : At t ⟨id, []⟩ v) (hc : Carried t v) (hr : At t ⟨id', []⟩ r)
    (hsame : Same t r (put x)) (hcx : Carried (.struct true cached fs) x) (op : fs.Op) (hset : SetsField fs op)
    (hother : stripFields fs (setField fs op x.fields) = stripFields fs (setField fs op u.fields)) (hw : w.loggers id = ⟨0, []⟩) :
    ∃ u' w', (Ty.struct true cached fs).run m op u w = (.ok u', w') ∧ ((∀ e ∈ (w'.loggers id).entries, Fits e) →
      ∃ bytes r', (BufferLogger.mk (w'.loggers id).entries).bytes m μ = .ok bytes ∧ replay t.dict m' r bytes = .ok r' [] ∧
        Same t r' (put u')) := by
  have hwf := (wf_part h ht hs).1
  obtain ⟨u', w', h1, h2, h3, h4, _⟩ := C39_struct_setter cached fs hwf m op u ⟨id, p⟩ w (at_part h hv) (carried_part h hc) hset
  refine ⟨u', w', h1, fun hfit => ?_⟩
  obtain ⟨xr, putr, q1, q2, q3⟩ := part_same (part_put h x) hsame
  have hxr := at_part q1 hr
  have hcxr := (carried_same q2).2 hcx
  have hsr : Same t r (put xr) := by
    have := q3 xr xr rfl
    rw [part_self q1] at this
    exact this
  obtain ⟨y, wy, k1, k2, _, k4, _⟩ := C39_struct_setter cached fs hwf m op xr _ blank hxr hcxr hset
  refine C77_call_heals ht hs hp hb m m' μ id id' h hr hsr hw op [setterEntry fs op] h1 h4 _ hxr hcxr
    (setsField_addr fs op xr.fields hset).1 (setsField_addr fs op xr.fields hset).2 k1 k4 rfl ?_ hfit
  refine k2.trans (Eq.trans ?_ h2.symm)
  refine congrArg (StructV.mk Rt.dflt) ?_
  exact (strip_setField fs op _ _ (congrArg StructV.fields q2)).trans hother

/-- C77, assigned objects are silent: an object with the runtime of another logger (a new object, or one of another state) that was put in
a state without log. Calls on it are not logged where the state is, so they are unlogged changes again, and the replica keeps what it
has. -/
theorem C77_assigned_object_is_silent {t : Ty} (ht : t.WF) {v r : t.El} {p : List U32} {s : Ty} (hws : s.WF) {u u' : s.El}
    {put : s.El → t.El} (h : Part t v p s u put) (x : s.El) (hsame : Same t r (put x)) (id : Nat) (rt : Rt) (hrt : rt.logger ≠ id)
    (hu : At s rt u) (m : Mode) (op : s.Op) (ho : OpOnly s op) {w w' : World} (hrun : s.run m op u w = (.ok u', w')) :
    w'.loggers id = w.loggers id ∧ Part t (put u') p s u' put ∧ Same t r (put x) := by
  have := only_run s hws m op rt u hu ho w id (fun e => hrt e.symm)
  rw [hrun] at this
  exact ⟨this, part_put h u', hsame⟩

/-! ## Calls inside -/

/-- `[[1], [2]]` after `list[0] = List::new()` (with its address set). -/
def driftVal : (Ty.list (.list (.uint .w8))).El := ⟨⟨5, []⟩, [⟨⟨5, [0#32]⟩, []⟩, ⟨⟨5, [1#32]⟩, [2#8]⟩]⟩

/-- A push to the list assigned. -/
def driftCall : Except Err (Ty.list (.uint .w8)).El × World :=
  (Ty.list (.uint .w8)).run .release (.push (7#8 : BitVec 8)) ⟨⟨5, [0#32]⟩, []⟩ blank

theorem drift_entries : (driftCall.2.loggers 5).entries = [.listPush [0#32] [7#8]] := by decide +kernel

/-- C77 is false for calls on the object itself: `[[1], [2]]` has its first list replaced by an empty one without log, then 7 is pushed to
it. The source has `[[7], [2]]`, the replica `[[1, 7], [2]]`, and there is no error. -/
theorem C77_call_inside_misleads_false (μ : Nat → Mem) :
    ∃ (w : World) (bytes : Bytes),
      (Ty.list (.uint .w8)).run .release (.push (7#8 : BitVec 8)) ⟨⟨5, [0#32]⟩, []⟩ blank = (.ok ⟨⟨5, [0#32]⟩, [7#8]⟩, w) ∧
      (BufferLogger.mk (w.loggers 5).entries).bytes .release μ = .ok bytes ∧
      replay (Ty.list (.list (.uint .w8))).dict .release (swapVal 8) bytes =
        .ok ⟨⟨8, []⟩, [⟨⟨8, [0#32]⟩, [1#8, 7#8]⟩, ⟨⟨8, [1#32]⟩, [2#8]⟩]⟩ [] := by
  have hfit : ∀ e ∈ (driftCall.2.loggers 5).entries, Fits e := by rw [drift_entries]; unfold Fits; decide +kernel
  refine ⟨driftCall.2, _, rfl, bytes_eq .release μ ⟨_⟩ hfit, ?_⟩
  refine (replay_eq (Ty.list (.list (.uint .w8))).dict .release (swapVal 8) _ hfit rfl).trans ?_
  rw [drift_entries]
  rfl

/-- A push to the list inside a list that was assigned in place of an empty one. -/
def deepCall : Except Err (Ty.list (.uint .w8)).El × World :=
  (Ty.list (.uint .w8)).run .release (.push (7#8 : BitVec 8)) ⟨⟨5, [0#32, 0#32]⟩, [1#8]⟩ blank

theorem deep_entries : (deepCall.2.loggers 5).entries = [.listPush [0#32, 0#32] [7#8]] := by decide +kernel

/-- C77 is false for calls inside the object: `[[]]` becomes `[[[1]]]` without log, then 7 is pushed to the innermost list. The replica has
no such list; it stops with `InvalidData`. -/
theorem C77_call_inside_stops_replay_false (μ : Nat → Mem) :
    ∃ (w : World) (bytes : Bytes),
      (Ty.list (.uint .w8)).run .release (.push (7#8 : BitVec 8)) ⟨⟨5, [0#32, 0#32]⟩, [1#8]⟩ blank =
        (.ok ⟨⟨5, [0#32, 0#32]⟩, [1#8, 7#8]⟩, w) ∧
      (BufferLogger.mk (w.loggers 5).entries).bytes .release μ = .ok bytes ∧
      replay (Ty.list (.list (.list (.uint .w8)))).dict .release ⟨⟨8, []⟩, [⟨⟨8, [0#32]⟩, []⟩]⟩ bytes =
        .err ⟨⟨8, []⟩, [⟨⟨8, [0#32]⟩, []⟩]⟩ .invalidData := by
  have hfit : ∀ e ∈ (deepCall.2.loggers 5).entries, Fits e := by rw [deep_entries]; unfold Fits; decide +kernel
  refine ⟨deepCall.2, _, rfl, bytes_eq .release μ ⟨_⟩ hfit, ?_⟩
  refine (replay_eq (Ty.list (.list (.list (.uint .w8)))).dict .release _ _ hfit rfl).trans ?_
  rw [deep_entries]
  rfl

/-! ## Cases that meet the hypotheses -/

theorem swapVal_at (id : Nat) : At (.list (.list (.uint .w8))) ⟨id, []⟩ (swapVal id) := by
  refine ⟨rfl, fun i x hx => ?_⟩
  match i, hx with
  | 0, hx => cases hx; exact ⟨rfl, fun _ _ _ => trivial⟩
  | 1, hx => cases hx; exact ⟨rfl, fun _ _ _ => trivial⟩
  | i + 2, hx => simp [swapVal] at hx

theorem swapVal_part (id : Nat) (i : Nat) (x : (Ty.list (.uint .w8)).El) (hi : i < 2 ^ 32) (hx : (swapVal id).items[i]? = some x) :
    Part (.list (.list (.uint .w8))) (swapVal id) [BitVec.ofNat 32 i] (.list (.uint .w8)) x
      (fun y => { swapVal id with items := (swapVal id).items.set i y }) :=
  .inside (q := []) (.item hi hx) .self

/-- `[[1], [2]]`; the first list is replaced by `[9]`, with the default runtime, without log; 7 is pushed to the second. The replica ends
with `[[1], [2, 7]]`, the source has `[[9], [2, 7]]`. -/
example (μ : Nat → Mem) : ∃ v' w', Elsewhere (.list (.list (.uint .w8))) .debug [0#32]
      ⟨⟨5, []⟩, [⟨Rt.dflt, [9#8]⟩, ⟨⟨5, [1#32]⟩, [2#8]⟩]⟩ blank v' w' ∧ v'.items.map (·.items) = [[9#8], [2#8, 7#8]] ∧
    ∃ bytes r', (BufferLogger.mk (w'.loggers 5).entries).bytes .debug μ = .ok bytes ∧
      replay (Ty.list (.list (.uint .w8))).dict .release (swapVal 8) bytes = .ok r' [] ∧
      Same (.list (.list (.uint .w8))) r' ⟨⟨5, []⟩, [⟨⟨5, [0#32]⟩, [1#8]⟩, ⟨⟨5, [1#32]⟩, [2#8, 7#8]⟩]⟩ := by
  have hpart := swapVal_part 5 0 ⟨⟨5, [0#32]⟩, [1#8]⟩ (by decide) rfl
  have hrun : Elsewhere (.list (.list (.uint .w8))) .debug [0#32] ⟨⟨5, []⟩, [⟨Rt.dflt, [9#8]⟩, ⟨⟨5, [1#32]⟩, [2#8]⟩]⟩ blank
      ⟨⟨5, []⟩, [⟨Rt.dflt, [9#8]⟩, ⟨⟨5, [1#32]⟩, [2#8, 7#8]⟩]⟩
      ((Ty.list (.uint .w8)).run .debug (.push (7#8 : BitVec 8)) ⟨⟨5, [1#32]⟩, [2#8]⟩ blank).2 :=
    .call (s := .list (.uint .w8)) (u := ⟨⟨5, [1#32]⟩, [2#8]⟩) (u' := ⟨⟨5, [1#32]⟩, [2#8, 7#8]⟩) (op := .push (7#8 : BitVec 8)) .start
      (.inside (q := []) (.item (i := 1) (by decide) rfl) .self) (by decide) (by decide) ⟨Rt.dflt, trivial⟩ (sendable_w8 _) rfl
  refine ⟨_, _, hrun, rfl, ?_⟩
  obtain ⟨put', h1, h2⟩ := C77_assigned (t := .list (.list (.uint .w8))) ⟨rfl, rfl, trivial⟩ rfl (by decide) (by decide) .debug .release μ
    5 8 hpart (x := ⟨Rt.dflt, [9#8]⟩) (swapVal_at 5) (fun x hx => fun _ _ => trivial) (swapVal_at 8) rfl rfl hrun
  have hent : (((Ty.list (.uint .w8)).run .debug (.push (7#8 : BitVec 8)) ⟨⟨5, [1#32]⟩, [2#8]⟩ blank).2.loggers 5).entries =
      [.listPush [1#32] [7#8]] := by decide +kernel
  obtain ⟨bytes, r', h3, h4, _⟩ := h2 (by rw [hent]; unfold Fits; decide +kernel)
  refine ⟨bytes, r', h3, h4, ?_⟩
  rw [hent] at h3
  have hfit : ∀ e ∈ [Entry.listPush [1#32] [7#8]], Fits e := by unfold Fits; decide +kernel
  rw [bytes_eq .debug μ ⟨_⟩ hfit] at h3
  cases h3
  have h5 := (replay_eq (Ty.list (.list (.uint .w8))).dict .release (swapVal 8) _ hfit rfl).symm.trans h4
  cases h5
  rfl

/-- The client of the same program: it is shown `[[1], [2]]` and ends with `[[1], [2, 7]]`. -/
example (ρ : Bytes → Str) (μ : Nat → Mem) : ∃ w', Elsewhere (.list (.list (.uint .w8))) .debug [0#32]
      ⟨⟨5, []⟩, [⟨Rt.dflt, [9#8]⟩, ⟨⟨5, [1#32]⟩, [2#8]⟩]⟩ blank ⟨⟨5, []⟩, [⟨Rt.dflt, [9#8]⟩, ⟨⟨5, [1#32]⟩, [2#8, 7#8]⟩]⟩ w' ∧
    ∃ bytes c', (BufferLogger.mk (w'.loggers 5).entries).bytes .debug μ = .ok bytes ∧
      (Ty.list (.list (.uint .w8))).csReplay ρ [[1#8], [2#8]] bytes = .ok c' := by
  have hpart := part_put (swapVal_part 5 0 ⟨⟨5, [0#32]⟩, [1#8]⟩ (by decide) rfl) ⟨Rt.dflt, [9#8]⟩
  have hrun : Elsewhere (.list (.list (.uint .w8))) .debug [0#32] ⟨⟨5, []⟩, [⟨Rt.dflt, [9#8]⟩, ⟨⟨5, [1#32]⟩, [2#8]⟩]⟩ blank
      ⟨⟨5, []⟩, [⟨Rt.dflt, [9#8]⟩, ⟨⟨5, [1#32]⟩, [2#8, 7#8]⟩]⟩
      ((Ty.list (.uint .w8)).run .debug (.push (7#8 : BitVec 8)) ⟨⟨5, [1#32]⟩, [2#8]⟩ blank).2 :=
    .call (s := .list (.uint .w8)) (u := ⟨⟨5, [1#32]⟩, [2#8]⟩) (u' := ⟨⟨5, [1#32]⟩, [2#8, 7#8]⟩) (op := .push (7#8 : BitVec 8)) .start
      (.inside (q := []) (.item (i := 1) (by decide) rfl) .self) (by decide) (by decide) ⟨Rt.dflt, trivial⟩ (sendable_w8 _) rfl
  refine ⟨_, hrun, ?_⟩
  obtain ⟨put', _, _, _, h2⟩ := C77_client_drift_stays (t := .list (.list (.uint .w8))) (s := .list (.uint .w8)) ⟨rfl, rfl, trivial⟩ rfl trivial
    ρ .debug μ 5 (a := ⟨⟨5, [0#32]⟩, [1#8]⟩) (c := [[1#8], [2#8]]) hpart ⟨⟨5, [0#32]⟩, [1#8]⟩ (swapVal_at 5) (fun x hx => fun _ _ => trivial)
    (.cons (.cons rfl .nil) (.cons (.cons rfl .nil) .nil)) rfl hrun
  have hent : (((Ty.list (.uint .w8)).run .debug (.push (7#8 : BitVec 8)) ⟨⟨5, [1#32]⟩, [2#8]⟩ blank).2.loggers 5).entries =
      [.listPush [1#32] [7#8]] := by decide +kernel
  obtain ⟨bytes, c', h3, h4, _⟩ := h2 (by rw [hent]; unfold CsFits; decide +kernel)
  exact ⟨bytes, c', h3, h4⟩

/-- A message with two fields, in a list. -/
def healTy : Ty := .struct true false (.cons 0#32 {} (.uint .w8) (.cons 1#32 {} (.uint .w8) .nil))

theorem healVal_at (id : Nat) (x : BitVec 8) : At (.list healTy) ⟨id, []⟩ ⟨⟨id, []⟩, [⟨⟨id, [0#32]⟩, (x, 4#8, ())⟩]⟩ := by
  refine ⟨rfl, fun i y hx => ?_⟩
  match i, hx with
  | 0, hx => cases hx; exact ⟨fun _ => rfl, trivial, trivial, trivial⟩
  | i + 1, hx => exact nomatch hx

/-- Field 0 was assigned without log: 9 in the source, 3 in the replica. `set` of field 0 to 7 makes them equal. -/
example (μ : Nat → Mem) : ∃ (u' : healTy.El) (w' : World),
    healTy.run .debug (.inl (.set (7#8 : BitVec 8))) ⟨⟨5, [0#32]⟩, (9#8, 4#8, ())⟩ blank = (.ok u', w') ∧
    ∃ bytes r', (BufferLogger.mk (w'.loggers 5).entries).bytes .debug μ = .ok bytes ∧
      replay (Ty.list healTy).dict .release ⟨⟨8, []⟩, [⟨⟨8, [0#32]⟩, (3#8, 4#8, ())⟩]⟩ bytes = .ok r' [] ∧
      Same (.list healTy) r' ⟨⟨5, []⟩, [u']⟩ := by
  obtain ⟨u', w', h1, h2⟩ := C77_setter_heals (t := .list healTy) (cached := false)
    (fs := .cons 0#32 {} (.uint .w8) (.cons 1#32 {} (.uint .w8) .nil))
    ⟨rfl, by decide, by decide, fun _ => rfl, trivial, by decide, fun _ => rfl, trivial, trivial⟩ rfl (by decide) (by decide)
    .debug .release μ 5 8 (x := ⟨⟨8, [0#32]⟩, (3#8, 4#8, ())⟩) (w := blank) (r := ⟨⟨8, []⟩, [⟨⟨8, [0#32]⟩, (3#8, 4#8, ())⟩]⟩)
    (v := ⟨⟨5, []⟩, [⟨⟨5, [0#32]⟩, (9#8, 4#8, ())⟩]⟩) (.inside (q := []) (.item (i := 0) (by decide) rfl) .self)
    (healVal_at 5 9#8) (fun x hx => by cases List.mem_singleton.1 hx; exact ⟨trivial, trivial, trivial⟩) (healVal_at 8 3#8)
    rfl ⟨trivial, trivial, trivial⟩ (.inl (.set (7#8 : BitVec 8))) ⟨rfl, sendable_w8 _, Rt.dflt, trivial⟩ rfl rfl
  refine ⟨u', w', h1, h2 ?_⟩
  have hent : ((healTy.run .debug (.inl (.set (7#8 : BitVec 8))) ⟨⟨5, [0#32]⟩, (9#8, 4#8, ())⟩ blank).2.loggers 5).entries =
      [.update [0#32, 0#32] [7#8]] := by decide +kernel
  have hw : w' = (healTy.run .debug (.inl (.set (7#8 : BitVec 8))) ⟨⟨5, [0#32]⟩, (9#8, 4#8, ())⟩ blank).2 :=
    (congrArg Prod.snd h1).symm
  rw [hw, hent]
  unfold Fits
  decide +kernel

end Steit
