import Verif.Lemmas.AttemptKeep
import Verif.Lemmas.Follow
import Verif.Props.CSharpReplay

/-!
# Loggers that fail: property C60

`t.attempt` (`Verif/Model/Attempt.lean`) is a call made while the logger may refuse entries or panic; it tells what is left of the
object when the call panics. `Swaps`, `Switches`, `tries` and `TriesSync` are in `Verif/Spec/Attempt.lean`.
-/

namespace Steit
open Spec Prog

/-! ## Calls that return -/

/-- C60, calls that return: the caller can rely on a call that returned having done (and logged) all it should, whatever the
loggers did before and will do later: it is the call of `Ty.run`, which all other properties are about. -/
theorem C60_returned_call_is_complete (t : Ty) (m : Mode) (op : t.Op) (v v' : t.El) (w w' : Fallible)
    (h : t.attempt m op v w = (⟨false, v'⟩, w')) : t.run m op v w.world = (.ok v', w'.world) :=
  (agree t m op v w).1 v' w' h

/-- The model of failing calls is the one of calls when nothing fails. -/
theorem C60_without_failures (t : Ty) (m : Mode) (op : t.Op) (v : t.El) (w : Fallible) (hp : ∀ i, w.poisoned i = false)
    (hs : ∀ n, w.verdicts n = .stored) :
    (∀ v' w', t.run m op v w.world = (.ok v', w') → ∃ w1, t.attempt m op v w = (⟨false, v'⟩, w1) ∧ w1.world = w') ∧
    (∀ e w', t.run m op v w.world = (.error e, w') → ∃ v' w1, t.attempt m op v w = (⟨true, v'⟩, w1) ∧ w1.world = w') := by
  obtain ⟨h1, h2⟩ := agree t m op v w
  cases ha : t.attempt m op v w with
  | mk r w1 =>
    obtain ⟨p, u⟩ := r
    cases p with
    | false =>
      have h3 := h1 u w1 ha
      refine ⟨fun v' w' h => ?_, fun e w' h => ?_⟩
      · rw [h3] at h
        cases h
        exact ⟨w1, rfl, rfl⟩
      · rw [h3] at h
        cases h
    | true =>
      rw [ha] at h2
      obtain ⟨e, h3⟩ := (h2 ⟨hp, hs⟩).2 rfl
      refine ⟨fun v' w' h => ?_, fun e w' h => ?_⟩
      · rw [h3] at h
        cases h
      · rw [h3] at h
        cases h
        exact ⟨u, w1, rfl, rfl⟩

/-! ## Calls that panic -/

/-- C60, atomicity: a call that panics because the logger failed leaves the object exactly as it was. Missing: setters of a
field of a variant that is not the current one, which switch the variant first (`C60_setter_not_atomic_false`). -/
theorem C60_failed_call_changes_nothing_partial (t : Ty) (ht : t.WF) (m : Mode) (op : t.Op) (rt : Rt) (v v' : t.El)
    (w w' : Fallible) (hv : At t rt v) (hc : Carried t v) (ha : OpAddr t op v) (ho : OpSync t op v) (hn : ¬ Switches t op v)
    (h : t.attempt m op v w = (⟨true, v'⟩, w')) : v' = v :=
  keeps t ht m op v rt w v' w' hv hc ha ho hn h

/-- C60, what any call leaves, whether it returns or panics: a state whose objects know their addresses, and a log that says how
the state came about. -/
theorem left_told (t : Ty) (ht : t.WF) (m : Mode) (op : t.Op) (rt : Rt) (v : t.El) (w : Fallible) (hv : At t rt v)
    (hc : Carried t v) (ha : OpAddr t op v) (ho : OpSync t op v) (hn : ¬ (Swaps t op v ∧ RefusesSecond w)) :
    ∃ es, At t rt (t.attempt m op v w).1.self ∧ Carried t (t.attempt m op v w).1.self ∧
      Logged rt w.world (t.attempt m op v w).2.world es ∧ Steps (Means t) v es (t.attempt m op v w).1.self := by
  cases h : t.attempt m op v w with
  | mk r w' =>
    obtain ⟨p, u⟩ := r
    cases p with
    | true => exact fails t ht m op v rt w u w' hv hc ha ho hn h
    | false =>
      have hr := C60_returned_call_is_complete t m op v u w w' h
      obtain ⟨v', w1, es, h1, h2, h3, h4⟩ := tells t ht m op v rt w.world hv hc ha ho
      rw [hr] at h1
      cases h1
      exact ⟨es, at_run t ht m op v rt w.world u _ hv ha hr, h2, h3, h4⟩

theorem tries_told (t : Ty) (ht : t.WF) (m : Mode) (rt : Rt) : ∀ (ops : List t.Op) (v : t.El) (w : Fallible),
    At t rt v → Carried t v → TriesSync t m ops v w →
    ∃ es, At t rt (tries t m ops v w).1 ∧ Carried t (tries t m ops v w).1 ∧
      Logged rt w.world (tries t m ops v w).2.world es ∧ Steps (Means t) v es (tries t m ops v w).1
  | [], v, w, hv, hc, _ => ⟨[], hv, hc, .refl rfl, rfl⟩
  | op :: ops, v, w, hv, hc, ⟨ha, ho, hn, hr⟩ => by
    obtain ⟨es, h1, h2, h3, h4⟩ := left_told t ht m op rt v w hv hc ha ho hn
    obtain ⟨es', h5, h6, h7, h8⟩ := tries_told t ht m rt ops _ _ h1 h2 hr
    exact ⟨es ++ es', h5, h6, h3.trans h7, h4.trans h8⟩

/-- C60, replicas: a program makes any number of calls, and survives those that panic because the logger refuses entries or
panics, in any pattern. Replaying what was recorded makes a replica of the initial state equal to what the program is left
with. Missing: a `swap_remove` of which only the first entry is recorded (`C60_torn_swap_remove_false`); the side conditions of
C24; closures that panic (`C60_panicking_closure_false`). -/
theorem C60_replica_follows_survivor_partial (t : Ty) (ht : t.WF) (hs : t.isState = true) (hp : shape t ≠ .prim)
    (hb : ¬ (shape t = .enum ∧ isBox t = true)) (m m' : Mode) (μ : Nat → Mem) (id id' : Nat) (ops : List t.Op) (v r : t.El)
    (w : Fallible) (hv : At t ⟨id, []⟩ v) (hc : Carried t v) (hr : At t ⟨id', []⟩ r) (hsame : Same t r v)
    (hw : w.world.loggers id = ⟨0, []⟩) (hops : TriesSync t m ops v w) :
    let (v', w') := tries t m ops v w
    At t ⟨id, []⟩ v' ∧ Carried t v' ∧ (w'.world.loggers id).paused = 0 ∧
      ((∀ e ∈ (w'.world.loggers id).entries, Fits e) →
        ∃ bytes r', (BufferLogger.mk (w'.world.loggers id).entries).bytes m μ = .ok bytes ∧
          replay t.dict m' r bytes = .ok r' [] ∧ Same t r' v' ∧ t.eq r' v' = true ∧ At t ⟨id', []⟩ r') := by
  obtain ⟨es, h1, h2, hl, hsteps⟩ := tries_told t ht m ⟨id, []⟩ ops v w hv hc hops
  have hlog : (tries t m ops v w).2.world.loggers id = ⟨0, es⟩ := by
    have := hl
    unfold Logged at this
    rw [map_under_nil, hw] at this
    simpa [appended] using this
  refine ⟨h1, h2, by rw [hlog], fun hfit => ?_⟩
  rw [hlog] at hfit ⊢
  obtain ⟨r', h3, h4⟩ := follows_steps ht hs m' hsteps hr hsame
  have hroot := (C31_accepted_at_root t hs hp hb m' ⟨id', []⟩ r hr rfl []).1
  have hrep := replay_eq t.dict m' r es hfit hroot
  rw [applyAll_of_applies h3] at hrep
  exact ⟨_, r', bytes_eq m μ ⟨es⟩ hfit, hrep, h4, eq_of_same h4 h2, applies_at ht hs hr h3⟩

/-- C60, C# clients: the same for a client that shows the initial state. -/
theorem C60_client_follows_survivor_partial (t : Ty) (ht : t.WF) (hm : Mirrored t) (ρ : Bytes → Str) (m : Mode) (μ : Nat → Mem)
    (id : Nat) (ops : List t.Op) (v : t.El) (c : t.Cs) (w : Fallible) (hv : At t ⟨id, []⟩ v) (hc : Carried t v) (hs : Shows t v c)
    (hw : w.world.loggers id = ⟨0, []⟩) (hops : TriesSync t m ops v w) :
    let (v', w') := tries t m ops v w
    (∀ e ∈ (w'.world.loggers id).entries, CsFits e) →
      ∃ bytes c', (BufferLogger.mk (w'.world.loggers id).entries).bytes m μ = .ok bytes ∧ t.csReplay ρ c bytes = .ok c' ∧
        Shows t v' c' := by
  obtain ⟨es, h1, h2, hl, hsteps⟩ := tries_told t ht m ⟨id, []⟩ ops v w hv hc hops
  have hlog : (tries t m ops v w).2.world.loggers id = ⟨0, es⟩ := by
    have := hl
    unfold Logged at this
    rw [map_under_nil, hw] at this
    simpa [appended] using this
  intro hfit
  rw [hlog] at hfit ⊢
  obtain ⟨c', h3, h4⟩ := csReplay_steps ρ t ht hm hsteps hs hfit
  exact ⟨_, c', bytes_eq m μ ⟨es⟩ (fun e he => by have := hfit e he; unfold CsFits at this; unfold Fits; omega), h3.done, h4⟩

/-- C60, a logger that panicked: its mutex is poisoned, and from then on no call on any object logging to it changes anything
nor adds to the log; a call that has something to do panics. -/
theorem C60_poisoned_logger_freezes (t : Ty) (m : Mode) (op : t.Op) (rt : Rt) (v : t.El) (w : Fallible) (hv : At t rt v)
    (ho : OpSync t op v) (hp : w.poisoned rt.logger = true) :
    (t.attempt m op v w).1.self = v ∧ (t.attempt m op v w).2 = w ∧
      ((t.attempt m op v w).1.panicked = true ∨ t.run m op v w.world = (.ok v, w.world)) := by
  obtain ⟨h1, h2⟩ := frozen t m op v rt w hv ho hp
  refine ⟨h1, h2, ?_⟩
  cases h : t.attempt m op v w with
  | mk r w' =>
    obtain ⟨p, u⟩ := r
    rw [h] at h1 h2
    cases h1
    cases h2
    cases p with
    | true => exact .inl rfl
    | false => exact .inr (C60_returned_call_is_complete t m op _ _ _ _ h)

/-! ## Where it fails -/

/-- C60 is false for `swap_remove`: whenever the logger records the first of its two entries and refuses the second, the call
panics and leaves the list as it was, but the log holds a pop; a replica that replays it has one item less. For all item types,
lists and indices (not the last). -/
theorem C60_torn_swap_remove_false (t : Ty) (ht : (Ty.list t).WF) (m m' : Mode) (μ : Nat → Mem) (id id' : Nat)
    (v r : (Ty.list t).El) (i : Nat) (w : Fallible) (hv : At (.list t) ⟨id, []⟩ v) (hc : Carried (.list t) v)
    (hr : At (.list t) ⟨id', []⟩ r) (hsame : Same (.list t) r v) (hi : i + 1 < v.items.length)
    (hlen : ∀ x, v.items.getLast? = some x → (encode t x).length < 2 ^ 32) (hw : w.world.loggers id = ⟨0, []⟩)
    (hp : w.poisoned id = false) (hrefuse : RefusesSecond w) :
    ∃ w' bytes r', (Ty.list t).attempt m (.swapRemove i) v w = (⟨true, v⟩, w') ∧
      (BufferLogger.mk (w'.world.loggers id).entries).bytes m μ = .ok bytes ∧
      replay (Ty.list t).dict m' r bytes = .ok r' [] ∧ r'.items.length + 1 = v.items.length := by
  have hne : v.items ≠ [] := fun h0 => by rw [h0] at hi; simp at hi
  obtain ⟨last, hla⟩ : ∃ x, v.items.getLast? = some x := by
    cases h : v.items.getLast? with
    | none => rw [List.getLast?_eq_none_iff] at h; exact absurd h hne
    | some x => exact ⟨x, rfl⟩
  obtain ⟨removed, hre⟩ : ∃ x, v.items[i]? = some x := ⟨_, List.getElem?_eq_getElem (by omega)⟩
  have hsend : Sendable t last := ⟨hc _ (List.mem_of_getLast? hla), hlen _ hla⟩
  obtain ⟨w1, h1, hw1⟩ := toBytesNow_run ht.2 m hsend w.world
  have hl1 : w1.loggers id = ⟨0, []⟩ := by rw [hw1, hw]
  -- the two entries
  have hlog1 : ({ w with world := w1 } : Fallible).log id (.listPop v.rt.path) =
      (true, { w with world := w1.onLogger id (fun l => l.log (.listPop v.rt.path)), verdicts := fun n => w.verdicts (n + 1) }) := by
    unfold Fallible.log
    simp only
    rw [if_neg (by simp [hp]), if_pos (by rw [hl1]), hrefuse.1]
  obtain ⟨w3, hlog2, hw3⟩ : ∃ w3, ({ w with
      world := w1.onLogger id (fun l => l.log (.listPop v.rt.path)), verdicts := fun n => w.verdicts (n + 1) } : Fallible).log id
        (.update (v.rt.path ++ [fieldNo i]) (encode t last)) = (false, w3) ∧
      w3.world = w1.onLogger id (fun l => l.log (.listPop v.rt.path)) := by
    unfold Fallible.log
    simp only
    rw [if_neg (by simp [hp]), if_pos (by simp [World.onLogger, hl1, LoggerSt.log])]
    have := hrefuse.2
    cases hv1 : w.verdicts (0 + 1) with
    | stored => exact absurd hv1 this
    | error => exact ⟨_, rfl, rfl⟩
    | panics => exact ⟨_, rfl, rfl⟩
  have hentries : (w3.world.loggers id).entries = [.listPop []] := by
    rw [hw3]
    simp [World.onLogger, hl1, LoggerSt.log, hv.1]
  have hatt : (Ty.list t).attempt m (.swapRemove i) v w = (⟨true, v⟩, w3) := by
    simp only [Ty.attempt, attemptList, attemptSwapRemove, hre, hla]
    rw [if_neg (by omega)]
    have hid : v.rt.logger = id := by rw [hv.1]
    unfold logThen
    rw [hid, if_neg (by simp [hp]), h1]
    simp only [Fallible.logMulti, hlog1, hlog2]
  have hst : (Ty.list t).isState = true := rfl
  have hsteps : Steps (Means (.list t)) v [.listPop []] { v with items := v.items.dropLast } :=
    .one (.inr (.inr (.inl ⟨hne, rfl, rfl⟩)))
  obtain ⟨r', h3, h4⟩ := follows_steps ht hst m' hsteps hr hsame
  have hfit : ∀ e ∈ [Entry.listPop []], Fits e := by
    intro e he
    cases List.mem_singleton.1 he
    unfold Fits
    decide +kernel
  have hroot := (C31_accepted_at_root (.list t) hst (by simp [shape]) (by simp [shape]) m' ⟨id', []⟩ r hr rfl []).1
  have hrep := replay_eq (Ty.list t).dict m' r [.listPop []] hfit hroot
  rw [applyAll_of_applies h3] at hrep
  refine ⟨w3, _, r', hatt, by rw [hentries]; exact bytes_eq m μ ⟨_⟩ hfit, hrep, ?_⟩
  have hlen' : r'.items.length = v.items.dropLast.length := by
    have : (strip (.list t) r').items.length = (strip (.list t) { v with items := v.items.dropLast }).items.length := by rw [h4]
    simpa [strip] using this
  rw [hlen', List.length_dropLast]
  omega

theorem sendable_w8 (n : BitVec 8) : Sendable (.uint .w8) n := by
  refine ⟨trivial, ?_⟩
  show (leb n.toNat).length < _
  have := leb_length_le 4 n.toNat (by have := n.isLt; omega)
  omega

/-- C60 is false for setters that switch a variant: with the second of their two entries refused, the variant has been switched
and the field not set. (The log says so too: only atomicity is lost.) -/
theorem C60_setter_not_atomic_false :
    ∃ (v v' : hEnum.El) (op : hEnum.Op) (w w' : Fallible), At hEnum ⟨4, []⟩ v ∧ OpAddr hEnum op v ∧ OpSync hEnum op v ∧
      hEnum.attempt .release op v w = (⟨true, v'⟩, w') ∧ ¬ Same hEnum v' v ∧
      (w'.world.loggers 4).entries = [.update [] (encode hEnum v')] := by
  refine ⟨⟨⟨4, [0#32]⟩, .inl (9#32, ())⟩, ⟨⟨4, [1#32]⟩, .inr (.inl (⟨⟨4, [1#32, 5#32]⟩, []⟩, ()))⟩,
    .inr (.inl (.inl (.set ⟨Rt.dflt, [1#8]⟩))), ⟨hWorld, fun n => if n = 0 then .stored else .error, fun _ => false⟩, _,
    ?_, ?_, ?_, rfl, ?_, ?_⟩
  · exact ⟨fun _ => rfl, trivial, trivial⟩
  · rintro _ (_ | x)
    · exact ⟨Rt.dflt, rfl, fun _ _ _ => trivial⟩
    · exact nomatch x
  · refine ⟨?_, ?_⟩
    · intro _ _ rt x h
      cases h
      show (leb 1 ++ []).length < _
      rw [leb_eq_lebF]; decide
    · rintro _ (_ | x)
      · refine ⟨rfl, fun _ _ => trivial, ?_⟩
        show (leb 1 ++ []).length < _
        rw [leb_eq_lebF]; decide
      · exact nomatch x
  · intro h
    cases h
  · decide +kernel

/-- C60 is false for closures that panic: the pause window stays open, so that calls made later return normally and change the
source while nothing is logged (see also `C28_panic_leaves_logger_paused`). -/
theorem C60_panicking_closure_false :
    ∃ (v v' : (Ty.list (.uint .w8)).El) (f : Rt → Exec (BitVec 8)) (w w' : Fallible), At (.list (.uint .w8)) ⟨4, []⟩ v ∧ Sound w ∧
      w.world.loggers 4 = ⟨0, []⟩ ∧
      tries (.list (.uint .w8)) .release [.pushWith f, .push (7#8 : BitVec 8)] v w = (v', w') ∧ v'.items = List.append (α := BitVec 8) v.items [7#8] ∧
      (w'.world.loggers 4).entries = [] := by
  refine ⟨⟨⟨4, []⟩, [1#8]⟩, ⟨⟨4, []⟩, [1#8, 7#8]⟩, fun _ => .ret (.error .panic), ⟨hWorld, fun _ => .stored, fun _ => false⟩, _, ?_,
    ⟨fun _ => rfl, fun _ => rfl⟩, rfl, rfl, rfl, ?_⟩
  · exact ⟨rfl, fun i x hx => trivial⟩
  · decide +kernel

/-! ## A program that survives -/

/-- The logger refuses the second and the fifth entry. -/
def aWorld : Fallible := ⟨hWorld, fun n => if n = 1 ∨ n = 4 then .error else .stored, fun _ => false⟩

def aOps : List (Ty.list (.uint .w8)).Op :=
  [.push (1#8 : BitVec 8), .push (2#8 : BitVec 8), .push (3#8 : BitVec 8), .push (4#8 : BitVec 8), .swapRemove 0, .pop]

/-- Not vacuous: of six calls the second and the fifth fail; the list ends up as `[1, 3]`, and so does the replica. -/
example (m' : Mode) (μ : Nat → Mem) :
    (tries (.list (.uint .w8)) .debug aOps ⟨⟨4, []⟩, []⟩ aWorld).1.items = ([1#8, 3#8] : List (BitVec 8)) ∧
    ((tries (.list (.uint .w8)) .debug aOps ⟨⟨4, []⟩, []⟩ aWorld).2.world.loggers 4).entries.length = 4 ∧
    ∃ bytes r', (BufferLogger.mk ((tries (.list (.uint .w8)) .debug aOps ⟨⟨4, []⟩, []⟩ aWorld).2.world.loggers 4).entries).bytes .debug
        μ = .ok bytes ∧
      replay (Ty.list (.uint .w8)).dict m' ⟨⟨9, []⟩, []⟩ bytes = .ok r' [] ∧
      Same (.list (.uint .w8)) r' (tries (.list (.uint .w8)) .debug aOps ⟨⟨4, []⟩, []⟩ aWorld).1 := by
  have s8 := sendable_w8
  have hops : TriesSync (.list (.uint .w8)) .debug aOps ⟨⟨4, []⟩, []⟩ aWorld := by
    refine ⟨⟨Rt.dflt, trivial⟩, s8 _, fun h => h.1, ⟨Rt.dflt, trivial⟩, s8 _, fun h => h.1, ⟨Rt.dflt, trivial⟩, s8 _, fun h => h.1,
      ⟨Rt.dflt, trivial⟩, s8 _, fun h => h.1, ?_, ?_, ?_, trivial, trivial, fun h => h.1, trivial⟩
    · intro h; cases h
    · exact fun _ => ⟨by decide, fun x _ => (s8 x).2⟩
    · exact fun h => nomatch h.2.1
  have h := C60_replica_follows_survivor_partial (.list (.uint .w8)) ⟨rfl, trivial⟩ rfl (by simp [shape]) (by simp [shape]) .debug
    m' μ 4 9 aOps ⟨⟨4, []⟩, []⟩ ⟨⟨9, []⟩, []⟩ aWorld ⟨rfl, fun _ _ _ => trivial⟩ (fun x hx => nomatch hx)
    ⟨rfl, fun _ _ _ => trivial⟩ rfl rfl hops
  obtain ⟨bytes, r', h1, h2, h3, _⟩ := h.2.2.2 (by unfold Fits; decide +kernel)
  exact ⟨rfl, by decide +kernel, bytes, r', h1, h2, h3⟩

/-- Not vacuous: a logger that panics at the second entry; the third push then meets a poisoned mutex. -/
example :
    let w : Fallible := ⟨hWorld, fun n => if n = 1 then .panics else .stored, fun _ => false⟩
    let l := tries (.list (.uint .w8)) .debug [.push (1#8 : BitVec 8), .push (2#8 : BitVec 8)] ⟨⟨4, []⟩, []⟩ w
    l.2.poisoned 4 = true ∧ l.1.items = ([1#8] : List (BitVec 8)) ∧
      ((Ty.list (.uint .w8)).attempt .debug (.push (3#8 : BitVec 8)) l.1 l.2).1.panicked = true :=
  ⟨rfl, rfl, rfl⟩

/-- Not vacuous: `C60_torn_swap_remove_false` on `[1, 2, 3]`, removing the first item. -/
example (m' : Mode) (μ : Nat → Mem) :
    ∃ w' bytes r', (Ty.list (.uint .w8)).attempt .debug (.swapRemove 0) ⟨⟨4, []⟩, [1#8, 2#8, 3#8]⟩
        ⟨hWorld, fun n => if n = 0 then .stored else .error, fun _ => false⟩ = (⟨true, ⟨⟨4, []⟩, [1#8, 2#8, 3#8]⟩⟩, w') ∧
      (BufferLogger.mk (w'.world.loggers 4).entries).bytes .debug μ = .ok bytes ∧
      replay (Ty.list (.uint .w8)).dict m' ⟨⟨9, []⟩, [1#8, 2#8, 3#8]⟩ bytes = .ok r' [] ∧ r'.items.length + 1 = 3 :=
  C60_torn_swap_remove_false (.uint .w8) ⟨rfl, trivial⟩ .debug m' μ 4 9 _ _ 0 _ ⟨rfl, fun _ _ _ => trivial⟩ (fun _ _ => trivial)
    ⟨rfl, fun _ _ _ => trivial⟩ rfl (by decide) (fun x _ => (sendable_w8 x).2) rfl rfl ⟨rfl, by decide⟩

end Steit
