import Verif.Props.Defects
import Verif.Props.Attempt
import Verif.Lemmas.Only
import Verif.Spec.States

/-!
# Several states in one process, and objects that leave a state: property C76

Processes with several states are in `Verif/Spec/States.lean`.
-/

namespace Steit
open Spec Prog

section states
variable {ι : Type} [DecidableEq ι] {T : ι → Ty}

theorem putState_self (v : ∀ i, (T i).El) (i : ι) (x : (T i).El) : putState T v i x i = x := by
  unfold putState
  rw [dif_pos rfl]

theorem putState_ne (v : ∀ i, (T i).El) {i j : ι} (x : (T i).El) (h : i ≠ j) : putState T v i x j = v j := by
  unfold putState
  rw [dif_neg h]

theorem together_told (ht : ∀ i, (T i).WF) (id : ι → Nat) (hid : ∀ i j, id i = id j → i = j)
    (m : Mode) : ∀ (steps : List (ProcStep T)) (v : ∀ i, (T i).El) (w : World), (∀ i, At (T i) ⟨id i, []⟩ (v i)) →
    (∀ i, Carried (T i) (v i)) → TogetherSync T m steps v w →
    ∃ v' w', together T m steps v w = (.ok v', w') ∧ ∀ i, At (T i) ⟨id i, []⟩ (v' i) ∧ Carried (T i) (v' i) ∧
      ∃ es, Logged ⟨id i, []⟩ w w' es ∧ Steps (Means (T i)) (v i) es (v' i)
  | [], v, w, hv, hc, _ => ⟨v, w, rfl, fun i => ⟨hv i, hc i, [], .refl rfl, rfl⟩⟩
  | ⟨i, call⟩ :: steps, v, w, hv, hc, ⟨ha, ho, hl, hn⟩ => by
    obtain ⟨x, w1, es1, h1, hc1, hl1, hs1⟩ := tells (T i) (ht i) m (call v) (v i) ⟨id i, []⟩ w (hv i) (hc i) ha ho
    have hx := at_run (T i) (ht i) m (call v) (v i) ⟨id i, []⟩ w x w1 (hv i) ha h1
    have honly := only_run (T i) (ht i) m (call v) ⟨id i, []⟩ (v i) (hv i) hl w
    rw [h1] at honly
    obtain ⟨v2, w2, h2, hall⟩ := together_told ht id hid m steps (putState T v i x) w1
      (fun j => by
        by_cases h : i = j
        · subst h; rw [putState_self]; exact hx
        · rw [putState_ne v x h]; exact hv j)
      (fun j => by
        by_cases h : i = j
        · subst h; rw [putState_self]; exact hc1
        · rw [putState_ne v x h]; exact hc j) (hn x w1 h1)
    refine ⟨v2, w2, (Exec.bind_of h1).trans h2, fun j => ?_⟩
    obtain ⟨hv2, hc2, es2, hl2, hs2⟩ := hall j
    by_cases h : i = j
    · subst h
      rw [putState_self] at hs2
      exact ⟨hv2, hc2, es1 ++ es2, hl1.trans hl2, hs1.trans hs2⟩
    · rw [putState_ne v x h] at hs2
      refine ⟨hv2, hc2, es2, ?_, hs2⟩
      have hne : id j ≠ id i := fun h' => h (hid _ _ h'.symm)
      unfold Logged at hl2 ⊢
      rw [hl2]
      exact congrArg (fun l => appended l _) (honly (id j) hne)

end states

/-- C76: a process holds any number of states, of any types, with one logger each. It makes any number of calls on them in any order,
each within the side conditions, with arguments computed from all the states. No call panics, and for every one of the states, a
replica that replays the log of its logger is equal to it again: no entry of one state ends up in the log of another. -/
theorem C76_states_follow {ι : Type} [DecidableEq ι] (T : ι → Ty) (ht : ∀ i, (T i).WF) (hs : ∀ i, (T i).isState = true)
    (hp : ∀ i, shape (T i) ≠ .prim) (hb : ∀ i, ¬ (shape (T i) = .enum ∧ isBox (T i) = true)) (m m' : Mode) (μ : Nat → Mem)
    (id id' : ι → Nat) (hid : ∀ i j, id i = id j → i = j) (steps : List (ProcStep T)) (v r : ∀ i, (T i).El) (w : World)
    (hv : ∀ i, At (T i) ⟨id i, []⟩ (v i)) (hc : ∀ i, Carried (T i) (v i)) (hr : ∀ i, At (T i) ⟨id' i, []⟩ (r i))
    (hsame : ∀ i, Same (T i) (r i) (v i)) (hw : ∀ i, w.loggers (id i) = ⟨0, []⟩) (hsteps : TogetherSync T m steps v w) :
    ∃ v' w', together T m steps v w = (.ok v', w') ∧
      ∀ i, At (T i) ⟨id i, []⟩ (v' i) ∧ Carried (T i) (v' i) ∧ (w'.loggers (id i)).paused = 0 ∧
        ((∀ e ∈ (w'.loggers (id i)).entries, Fits e) →
          ∃ bytes r', (BufferLogger.mk (w'.loggers (id i)).entries).bytes m μ = .ok bytes ∧
            replay (T i).dict m' (r i) bytes = .ok r' [] ∧ Same (T i) r' (v' i) ∧ (T i).eq r' (v' i) = true) := by
  obtain ⟨v', w', h1, hall⟩ := together_told ht id hid m steps v w hv hc hsteps
  refine ⟨v', w', h1, fun i => ?_⟩
  obtain ⟨hv', hc', es, hl, hf⟩ := hall i
  have hlog : w'.loggers (id i) = ⟨0, es⟩ := by
    have := hl
    unfold Logged at this
    rw [map_under_nil, hw] at this
    simpa [appended] using this
  refine ⟨hv', hc', by rw [hlog], fun hfit => ?_⟩
  rw [hlog] at hfit ⊢
  obtain ⟨r', ha, hsr⟩ := follows_steps (ht i) (hs i) m' hf (hr i) (hsame i)
  have hroot := (C31_accepted_at_root (T i) (hs i) (hp i) (hb i) m' ⟨id' i, []⟩ (r i) (hr i) rfl []).1
  have hrep := replay_eq (T i).dict m' (r i) es hfit hroot
  rw [applyAll_of_applies ha] at hrep
  exact ⟨_, r', bytes_eq m μ ⟨es⟩ hfit, hrep, hsr, eq_of_same hsr hc'⟩

/-- C76, C# clients: likewise, a client for every state. -/
theorem C76_clients_follow {ι : Type} [DecidableEq ι] (T : ι → Ty) (ht : ∀ i, (T i).WF) (hm : ∀ i, Mirrored (T i)) (ρ : Bytes → Str)
    (m : Mode) (μ : Nat → Mem) (id : ι → Nat) (hid : ∀ i j, id i = id j → i = j) (steps : List (ProcStep T)) (v : ∀ i, (T i).El)
    (c : ∀ i, (T i).Cs) (w : World) (hv : ∀ i, At (T i) ⟨id i, []⟩ (v i)) (hc : ∀ i, Carried (T i) (v i))
    (hs : ∀ i, Shows (T i) (v i) (c i)) (hw : ∀ i, w.loggers (id i) = ⟨0, []⟩) (hsteps : TogetherSync T m steps v w) :
    ∃ v' w', together T m steps v w = (.ok v', w') ∧ ∀ i, (∀ e ∈ (w'.loggers (id i)).entries, CsFits e) →
      ∃ bytes c', (BufferLogger.mk (w'.loggers (id i)).entries).bytes m μ = .ok bytes ∧ (T i).csReplay ρ (c i) bytes = .ok c' ∧
        Shows (T i) (v' i) c' := by
  obtain ⟨v', w', h1, hall⟩ := together_told ht id hid m steps v w hv hc hsteps
  refine ⟨v', w', h1, fun i => ?_⟩
  obtain ⟨_, _, es, hl, hf⟩ := hall i
  have hlog : w'.loggers (id i) = ⟨0, es⟩ := by
    have := hl
    unfold Logged at this
    rw [map_under_nil, hw] at this
    simpa [appended] using this
  intro hfit
  rw [hlog] at hfit ⊢
  obtain ⟨c', h3, h4⟩ := csReplay_steps ρ (T i) (ht i) (hm i) hf (hs i) hfit
  exact ⟨_, c', bytes_eq m μ ⟨es⟩ (fun e he => by have := hfit e he; unfold CsFits at this; unfold Fits; omega), h3.done, h4⟩

/-! ## Objects that leave a state -/

/-- C76, `pop`: the item taken out of a list anywhere in a state still sits, as far as it knows, where it was. -/
theorem C76_popped_item_keeps_address {t : Ty} {v : t.El} {p : List U32} {s : Ty} {u : ListV s.El} {put : ListV s.El → t.El}
    (h : Part t v p (.list s) u put) (xs : List s.El) (x : s.El) (hx : u.items = xs ++ [x]) (id : Nat) (hv : At t ⟨id, []⟩ v)
    (w : World) :
    ∃ w', listPop u w = (.ok (some x, { u with items := xs }), w') ∧ At s ⟨id, p ++ [fieldNo xs.length]⟩ x ∧
      w'.loggers id = appended (w.loggers id) [.listPop p] := by
  have hu := at_part h hv
  obtain ⟨w1, h1, h2⟩ := C33_pop u xs x hx w
  rw [hu.1] at h2
  refine ⟨w1, h1, ?_, by simpa using h2⟩
  exact hu.2 xs.length x (by rw [hx]; simp)

/-- C76, `remove`: likewise for a value taken out of a map. -/
theorem C76_removed_value_keeps_address {t : Ty} {v : t.El} {p : List U32} {kt : KeyTy} {s : Ty} {u : MapV s.El}
    {put : MapV s.El → t.El} (h : Part t v p (.map kt s) u put) (k : U32) (x : s.El) (hx : mapGet u k = some x) (id : Nat)
    (hv : At t ⟨id, []⟩ v) (w : World) :
    ∃ u' w', mapRemove u k w = (.ok (some x, u'), w') ∧ mapGet u' k = none ∧ At s ⟨id, p ++ [k]⟩ x ∧
      w'.loggers id = appended (w.loggers id) [.mapRemove p k] := by
  have hu := at_part h hv
  obtain ⟨u', w1, h1, h2, _, _, h3⟩ := C34_remove u hu.2.1 k w
  rw [hx] at h1
  rw [hu.1] at h3
  refine ⟨u', w1, h1, by rw [h2, if_pos rfl], ?_, by simpa using h3⟩
  exact hu.2.2 (k, x) ((C34_get u hu.2.1 k x).1 hx)

/-- C76, taking leave properly: an object given a runtime of its own (`set_runtime`) is a state of its own, unchanged otherwise; calls
on it are logged to its new logger and to no other. -/
theorem C76_rerooted (t : Ty) (ht : t.WF) (m : Mode) (rt : Rt) (x : t.El) (hx : At t rt x) (hc : Carried t x) (id : Nat) (op : t.Op)
    (ha : OpAddr t op (t.dict.setRuntime ⟨id, []⟩ x)) (ho : OpSync t op (t.dict.setRuntime ⟨id, []⟩ x)) (hl : OpOnly t op)
    (w : World) :
    Same t (t.dict.setRuntime ⟨id, []⟩ x) x ∧ ∃ x' w' es, t.run m op (t.dict.setRuntime ⟨id, []⟩ x) w = (.ok x', w') ∧
      At t ⟨id, []⟩ x' ∧ w'.loggers id = appended (w.loggers id) es ∧ ∀ j, j ≠ id → w'.loggers j = w.loggers j := by
  have hsame : Same t (t.dict.setRuntime ⟨id, []⟩ x) x := strip_setRuntime t _ _
  have hat := (anyLaw t ht).at_set rt ⟨id, []⟩ x hx
  obtain ⟨x', w', es, h1, _, h2, _⟩ := syncs t ht m op _ ⟨id, []⟩ w hat ((carried_same hsame).2 hc) ha ho
  have honly := only_run t ht m op ⟨id, []⟩ _ hat hl w
  rw [h1] at honly
  refine ⟨hsame, x', w', es, h1, at_run t ht m op _ ⟨id, []⟩ w x' w' hat ha h1, ?_, honly⟩
  unfold Logged at h2
  rwa [map_under_nil] at h2

/-- An entry for an item that is not there. -/
theorem apply_gone {t : Ty} (ht : t.WF) {r : t.El} {p : List U32} {s : Ty} {u : ListV s.El} {put : ListV s.El → t.El}
    (h : Part t r p (.list s) u put) (i : U32) (hi : u.items.length ≤ i.toNat) (m : Mode) (e : Entry) :
    applyEntry t.dict m r (under (p ++ [i]) e) = .err r .invalidData := by
  have h1 : applyEntry (Ty.list s).dict m u (under [i] e) = .err u .invalidData := by
    have hn : u.items[i.toNat]? = none := List.getElem?_eq_none hi
    cases e <;>
    · show listHandle s.dict m u (i :: _) _ _ _ = _
      simp only [listHandle, hn]
  have h2 := (C50_entry_acts_on_its_object ht h m (under [i] e)).2 u .invalidData h1
  rw [part_self h, under_under] at h2
  exact h2

/-- C76 is false for items that were popped (and not given a runtime of their own): if a call on one logs anything, the replica
replays the `pop` and fails at the next entry, and follows nothing that comes later. The list may sit anywhere in the state. -/
theorem C76_popped_item_stops_replay_false {t : Ty} (ht : t.WF) (hs : t.isState = true) (hp : shape t ≠ .prim)
    (hb : ¬ (shape t = .enum ∧ isBox t = true)) {v r : t.El} {p : List U32} {s : Ty} (hws : s.WF) {u : ListV s.El}
    {put : ListV s.El → t.El} (h : Part t v p (.list s) u put) (xs : List s.El) (x : s.El) (hx : u.items = xs ++ [x])
    (hlen : xs.length < 2 ^ 32) (id id' : Nat) (m m' : Mode) (op : s.Op) (w : World) (hv : At t ⟨id, []⟩ v) (hcx : Carried s x)
    (hr : At t ⟨id', []⟩ r) (hsame : Same t r v) (hw : w.loggers id = ⟨0, []⟩) (ha : OpAddr s op x) (ho : OpSync s op x) :
    ∃ w1 x' w2 es, listPop u w = (.ok (some x, { u with items := xs }), w1) ∧ s.run m op x w1 = (.ok x', w2) ∧
      (w2.loggers id).entries = .listPop p :: es ∧
      ∀ later : List Entry, es ≠ [] → (∀ e ∈ (w2.loggers id).entries ++ later, Fits e) →
        ∃ r', replay t.dict m' r (((w2.loggers id).entries ++ later).flatMap entryBytes) = .err r' .invalidData ∧
          Same t r' (put { u with items := xs }) := by
  obtain ⟨w1, h1, hxat, hl1⟩ := C76_popped_item_keeps_address h xs x hx id hv w
  obtain ⟨x', w2, es, h2, _, hl2, _⟩ := syncs s hws m op x ⟨id, p ++ [fieldNo xs.length]⟩ w1 hxat hcx ha ho
  have hlog : (w2.loggers id).entries = .listPop p :: es.map (under (p ++ [fieldNo xs.length])) := by
    have : w2.loggers id = appended (w1.loggers id) (es.map (under (p ++ [fieldNo xs.length]))) := hl2
    rw [this, hl1, hw]
    simp [appended]
  refine ⟨w1, x', w2, _, h1, h2, hlog, fun later hne hfit => ?_⟩
  rw [hlog] at hfit ⊢
  obtain ⟨ur, putr, q1, q2, q3⟩ := part_same h hsame
  have hitems : ur.items.map (strip s) = xs.map (strip s) ++ [strip s x] := by
    have := congrArg ListV.items q2
    have h3 : ur.items.map (strip s) = u.items.map (strip s) := this
    rw [h3, hx]
    simp
  have hne' : ur.items ≠ [] := fun h0 => by rw [h0] at hitems; simp at hitems
  have hdrop : (ur.items.dropLast).map (strip s) = xs.map (strip s) := by
    rw [List.map_dropLast, hitems, List.dropLast_concat]
  have hroot := (C31_accepted_at_root t hs hp hb m' ⟨id', []⟩ r hr rfl []).1
  have hpop : ∃ rest, applyEntry t.dict m' r (.listPop p) = .ok (putr { ur with items := ur.items.dropLast }) rest := by
    have h3 := (C50_entry_acts_on_its_object ht q1 m' (.listPop [])).1 { ur with items := ur.items.dropLast } [] (by
      show listHandle s.dict m' ur [] .listPop none [] = _
      simp only [listHandle, if_neg hne'])
    refine ⟨_, by simpa [under] using h3⟩
  obtain ⟨rest, hpop⟩ := hpop
  refine ⟨putr { ur with items := ur.items.dropLast }, ?_, q3 _ _ ?_⟩
  · rw [replay_eq t.dict m' r _ hfit hroot]
    cases es with
    | nil => exact absurd rfl hne
    | cons e es =>
      have hgone := apply_gone ht (part_put q1 { ur with items := ur.items.dropLast }) (fieldNo xs.length) (by
        rw [fieldNo_toNat hlen]
        have := congrArg List.length hdrop
        simp only [List.length_map] at this
        show ur.items.dropLast.length ≤ _
        omega) m' e
      simp only [List.cons_append, List.map_cons, applyAll, hpop, hgone]
      rfl
  · show ListV.mk _ (List.map (strip s) ur.items.dropLast) = ListV.mk _ (List.map (strip s) xs)
    rw [hdrop]

/-- C76 is false for values removed from a map as well: entries they log, other than an update of the whole value, cannot be applied
by the replica, which stops there. The map may sit anywhere in the state. -/
theorem C76_removed_value_stops_replay_false {t : Ty} (ht : t.WF) {r : t.El} {p : List U32} {kt : KeyTy} {s : Ty} {u : MapV s.El}
    {put : MapV s.El → t.El} (h : Part t r p (.map kt s) u put) (k : U32) (hk : mapGet u k = none)
    (hroot : t.dict.isRoot r = .ok true) (m : Mode) (e : Entry) (he : ∀ bytes, e ≠ .update [] bytes) (later : List Entry)
    (hfit : ∀ e' ∈ under (p ++ [k]) e :: later, Fits e') :
    replay t.dict m r ((under (p ++ [k]) e :: later).flatMap entryBytes) = .err r .invalidData := by
  have h1 : applyEntry (Ty.map kt s).dict m u (under [k] e) = .err u .invalidData := by
    have hk' : entriesGet k u.entries = none := hk
    cases e with
    | update path bytes =>
      cases path with
      | nil => exact absurd rfl (he bytes)
      | cons j path =>
        show mapHandle kt s.dict m u (k :: j :: path) _ _ _ = _
        simp [mapHandle, hk']
    | _ =>
      show mapHandle kt s.dict m u (k :: _) _ _ _ = _
      simp [mapHandle, hk']
  have h2 := (C50_entry_acts_on_its_object ht h m (under [k] e)).2 u .invalidData h1
  rw [part_self h, under_under] at h2
  rw [replay_eq t.dict m r _ hfit hroot]
  simp only [applyAll, h2]
  rfl

/-- An enum with two variants, the second with a `u8`. -/
def leftTy : Ty := .enum true false .nil (.cons 1#32 false (.cons 0#32 {} (.uint .w8) .nil) .nil)

/-- The enum, as a value of a map at key 3 of a state with the given logger. -/
def leftVal (id : Nat) : leftTy.El := ⟨⟨id, [3#32, 0#32]⟩, .inl ()⟩

/-- The map. -/
def leftMap (id : Nat) : (Ty.map .u8 leftTy).El := ⟨⟨id, []⟩, [(3#32, leftVal id)]⟩

/-- After the removal, and after the call. -/
def leftWorld1 : World := (mapRemove (leftMap 4) 3#32 blank).2

/-- The call of the setter on the enum taken out. -/
def leftCall : Except Err leftTy.El × World := leftTy.run .release (.inr (.inl (.inl (.set 7#8)))) (leftVal 4) leftWorld1

theorem left_call : leftCall.1 = .ok ⟨⟨4, [3#32, 1#32]⟩, .inr (.inl (7#8, ()))⟩ := rfl

theorem left_entries : (leftCall.2.loggers 4).entries =
    [.mapRemove [] 3#32, .update [3#32] [1#8], .update [3#32, 1#32, 0#32] [7#8]] := by decide +kernel

/-- C76, worse: an enum taken out of a map comes back in the replica, without any error, when one of its setters is called. The source
has removed key 3 and has an empty map; the replica has key 3 again, with the new value. -/
theorem C76_removed_enum_comes_back_false (μ : Nat → Mem) :
    ∃ (w1 w2 : World) (x' : leftTy.El) (bytes : Bytes),
      mapRemove (leftMap 4) 3#32 blank = (.ok (some (leftVal 4), ⟨⟨4, []⟩, []⟩), w1) ∧
      leftTy.run .release (.inr (.inl (.inl (.set 7#8)))) (leftVal 4) w1 = (.ok x', w2) ∧
      (BufferLogger.mk (w2.loggers 4).entries).bytes .release μ = .ok bytes ∧
      replay (Ty.map .u8 leftTy).dict .release (leftMap 7) bytes =
        .ok ⟨⟨7, []⟩, [(3#32, ⟨⟨7, [3#32, 1#32]⟩, .inr (.inl (7#8, ()))⟩)]⟩ [] := by
  have hfit : ∀ e ∈ (leftCall.2.loggers 4).entries, Fits e := by rw [left_entries]; unfold Fits; decide +kernel
  refine ⟨leftWorld1, leftCall.2, ⟨⟨4, [3#32, 1#32]⟩, .inr (.inl (7#8, ()))⟩, _, rfl, Prod.ext left_call rfl,
    bytes_eq .release μ ⟨_⟩ hfit, ?_⟩
  refine (replay_eq (Ty.map .u8 leftTy).dict .release (leftMap 7) _ hfit rfl).trans ?_
  rw [left_entries]
  rfl

/-- A list of lists, both roots of the given logger. -/
def swapVal (id : Nat) : (Ty.list (.list (.uint .w8))).El := ⟨⟨id, []⟩, [⟨⟨id, [0#32]⟩, [1#8]⟩, ⟨⟨id, [1#32]⟩, [2#8]⟩]⟩

/-- After the first list has been taken out with `swap_remove`. -/
def swapWorld : World := (listSwapRemove (Ty.list (.uint .w8)).dict .release (swapVal 5) 0 blank).2

/-- A push to the list taken out. -/
def swapCall : Except Err (Ty.list (.uint .w8)).El × World :=
  (Ty.list (.uint .w8)).run .release (.push (7#8 : BitVec 8)) ⟨⟨5, [0#32]⟩, [1#8]⟩ swapWorld

theorem swap_entries : (swapCall.2.loggers 5).entries = [.listPop [], .update [0#32] [2#8], .listPush [0#32] [7#8]] := by
  decide +kernel

/-- C76 after `swap_remove`: the item taken out and the one moved to its place have the same address. `[[1], [2]]` becomes `[[2]]`, 7 is
pushed to the list taken out; the replica pushes it to the one that is left. No error anywhere. -/
theorem C76_swap_removed_item_misleads_false (μ : Nat → Mem) :
    ∃ (w1 w2 : World) (bytes : Bytes),
      listSwapRemove (Ty.list (.uint .w8)).dict .release (swapVal 5) 0 blank =
        (.ok (some ⟨⟨5, [0#32]⟩, [1#8]⟩, ⟨⟨5, []⟩, [⟨⟨5, [0#32]⟩, [2#8]⟩]⟩), w1) ∧
      (Ty.list (.uint .w8)).run .release (.push (7#8 : BitVec 8)) ⟨⟨5, [0#32]⟩, [1#8]⟩ w1 = (.ok ⟨⟨5, [0#32]⟩, [1#8, 7#8]⟩, w2) ∧
      (BufferLogger.mk (w2.loggers 5).entries).bytes .release μ = .ok bytes ∧
      replay (Ty.list (.list (.uint .w8))).dict .release (swapVal 8) bytes = .ok ⟨⟨8, []⟩, [⟨⟨8, [0#32]⟩, [2#8, 7#8]⟩]⟩ [] := by
  have hfit : ∀ e ∈ (swapCall.2.loggers 5).entries, Fits e := by rw [swap_entries]; unfold Fits; decide +kernel
  refine ⟨swapWorld, swapCall.2, _, rfl, rfl, bytes_eq .release μ ⟨_⟩ hfit, ?_⟩
  refine (replay_eq (Ty.list (.list (.uint .w8))).dict .release (swapVal 8) _ hfit rfl).trans ?_
  rw [swap_entries]
  rfl

/-- C76 is false for copies: a clone of a state (or of an object in one) shares its runtime. The replica follows calls made on the clone
as if they were made on the original, so it ends up equal to the clone; if the calls changed anything, it differs from the original. -/
theorem C76_replica_follows_clone_false (t : Ty) (ht : t.WF) (hs : t.isState = true) (hp : shape t ≠ .prim)
    (hb : ¬ (shape t = .enum ∧ isBox t = true)) (m m' : Mode) (μ : Nat → Mem) (id id' : Nat) (ops : List t.Op) (v r : t.El)
    (w : World) (hv : At t ⟨id, []⟩ v) (hc : Carried t v) (hr : At t ⟨id', []⟩ r) (hsame : Same t r v)
    (hw : w.loggers id = ⟨0, []⟩) (hops : CallsSync t m ops v w) :
    let clone := v
    ∃ clone' w', calls t m ops clone w = (.ok clone', w') ∧
      ((∀ e ∈ (w'.loggers id).entries, Fits e) →
        ∃ bytes r', (BufferLogger.mk (w'.loggers id).entries).bytes m μ = .ok bytes ∧ replay t.dict m' r bytes = .ok r' [] ∧
          Same t r' clone' ∧ (¬ Same t clone' v → ¬ Same t r' v)) := by
  obtain ⟨v', w', h1, _, _, _, h2⟩ := C24_replica_follows t ht hs hp hb m m' μ id id' ops v r w hv hc hr hsame hw hops
  refine ⟨v', w', h1, fun hfit => ?_⟩
  obtain ⟨bytes, r', h3, h4, h5, _, _⟩ := h2 hfit
  exact ⟨bytes, r', h3, h4, h5, fun hne h => hne (h5.symm.trans h)⟩

/-- C76 needs a logger for each state: two lists, both roots of one logger. The first is pushed 1, the second 2; the replica of either
of them ends with `[1, 2]`. -/
theorem C76_shared_logger_false (μ : Nat → Mem) :
    let T : Bool → Ty := fun _ => .list (.uint .w8)
    let v : ∀ i, (T i).El := fun _ => ⟨⟨4, []⟩, []⟩
    ∃ (v' : ∀ i, (T i).El) (w' : World) (bytes : Bytes),
      together T .release [⟨false, fun _ => .push (1#8 : BitVec 8)⟩, ⟨true, fun _ => .push (2#8 : BitVec 8)⟩] v blank = (.ok v', w') ∧
      (v' false).items = ([1#8] : List (BitVec 8)) ∧ (v' true).items = ([2#8] : List (BitVec 8)) ∧
      (BufferLogger.mk (w'.loggers 4).entries).bytes .release μ = .ok bytes ∧
      ∀ i, replay (T i).dict .release ⟨⟨7, []⟩, []⟩ bytes = .ok ⟨⟨7, []⟩, ([1#8, 2#8] : List (BitVec 8))⟩ [] := by
  intro T v
  obtain ⟨v', w', h1⟩ : ∃ v' w', together T .release
      [⟨false, fun _ => .push (1#8 : BitVec 8)⟩, ⟨true, fun _ => .push (2#8 : BitVec 8)⟩] v blank = (.ok v', w') := ⟨_, _, rfl⟩
  have h3 : (w'.loggers 4).entries = [.listPush [] [1#8], .listPush [] [2#8]] := by cases h1; decide +kernel
  have hfit : ∀ e ∈ (w'.loggers 4).entries, Fits e := by rw [h3]; unfold Fits; decide +kernel
  refine ⟨v', w', _, h1, by cases h1; rfl, by cases h1; rfl, bytes_eq .release μ ⟨_⟩ hfit, fun i => ?_⟩
  rw [replay_eq _ _ _ _ hfit rfl, h3]
  rfl

/-! ## Not vacuous -/

/-- Two states: a list of lists, and a list. -/
def twoTys : Bool → Ty
  | true => .list (.list (.uint .w8))
  | false => .list (.uint .w8)

/-- Their first values. -/
def twoVals : ∀ i, (twoTys i).El
  | true => ⟨⟨5, []⟩, [⟨⟨5, [0#32]⟩, [1#8]⟩]⟩
  | false => ⟨⟨4, []⟩, [9#8, 8#8]⟩

/-- The program pushes a copy of the second state to the first, takes it out of it, and changes both. -/
def twoSteps : List (ProcStep twoTys) :=
  [⟨true, fun v => .push ⟨(v false).rt, (v false).items⟩⟩, ⟨false, fun _ => .pop⟩, ⟨true, fun _ => .item 1 (.push (7#8 : BitVec 8))⟩]

theorem twoVals_at : ∀ i, At (twoTys i) ⟨if i then 5 else 4, []⟩ (twoVals i)
  | true => ⟨rfl, fun i x hx => by
      cases i with
      | zero => cases hx; exact ⟨rfl, fun _ _ _ => trivial⟩
      | succ i => simp [twoVals] at hx⟩
  | false => ⟨rfl, fun _ _ _ => trivial⟩

theorem twoVals_carried : ∀ i, Carried (twoTys i) (twoVals i)
  | true => fun x hx => by
      rw [List.mem_singleton.1 hx]
      exact fun y hy => trivial
  | false => fun x hx => trivial

example (μ : Nat → Mem) : ∃ v' w', together twoTys .debug twoSteps twoVals blank = (.ok v', w') ∧
    (v' true).items.map (·.items) = [[1#8], [9#8, 8#8, 7#8]] ∧ (v' false).items = [9#8] ∧
    ∃ bytes r', (BufferLogger.mk (w'.loggers 5).entries).bytes .debug μ = .ok bytes ∧
      replay (twoTys true).dict .release ⟨⟨8, []⟩, [⟨⟨8, [0#32]⟩, [1#8]⟩]⟩ bytes = .ok r' [] ∧ Same (twoTys true) r' (v' true) := by
  have hops : TogetherSync twoTys .debug twoSteps twoVals blank := by
    have s8 := sendable_w8
    refine ⟨⟨_, rfl, fun _ _ _ => trivial⟩, ⟨fun _ _ => trivial, ?_⟩, trivial, fun x w' h => ⟨trivial, trivial, trivial, fun x w' h =>
      ⟨fun x hx => ⟨Rt.dflt, trivial⟩, fun x hx => ⟨by decide, s8 _⟩, trivial, fun _ _ _ => trivial⟩⟩⟩
    show (encode (.list (.uint .w8)) _).length < _
    decide +kernel
  obtain ⟨v', w', h1, hall⟩ := C76_states_follow twoTys (fun i => by cases i <;> exact ⟨rfl, by trivial⟩)
    (fun i => by cases i <;> rfl) (fun i => by cases i <;> decide) (fun i => by cases i <;> decide) .debug .release μ
    (fun i => if i then 5 else 4) (fun i => if i then 8 else 9) (fun i j => by cases i <;> cases j <;> decide) twoSteps twoVals
    (fun i => match i with | true => ⟨⟨8, []⟩, [⟨⟨8, [0#32]⟩, [1#8]⟩]⟩ | false => ⟨⟨9, []⟩, [9#8, 8#8]⟩) blank twoVals_at twoVals_carried
    (fun i => match i with
      | true => ⟨rfl, fun i x hx => by
          cases i with
          | zero => cases hx; exact ⟨rfl, fun _ _ _ => trivial⟩
          | succ i => simp at hx⟩
      | false => ⟨rfl, fun _ _ _ => trivial⟩)
    (fun i => match i with | true => rfl | false => rfl) (fun i => rfl) hops
  have h2 : (match (together twoTys .debug twoSteps twoVals blank).1 with
      | .ok v => ((v true).items.map (·.items), (v false).items)
      | .error _ => ([], [])) = ([[1#8], [9#8, 8#8, 7#8]], [9#8]) := by rfl
  have h3 : ((together twoTys .debug twoSteps twoVals blank).2.loggers 5).entries =
      [.listPush [] [9#8, 8#8], .listPush [1#32] [7#8]] := by decide +kernel
  rw [h1] at h2 h3
  obtain ⟨bytes, r', h4, h5, h6, _⟩ := (hall true).2.2.2 (by
    show ∀ e ∈ (w'.loggers 5).entries, _
    rw [h3]; unfold Fits; decide +kernel)
  exact ⟨v', w', h1, congrArg Prod.fst h2, congrArg Prod.snd h2, bytes, r', h4, h5, h6⟩

/-- A list is popped from a list of lists, and then pushed to: the replica has the state after the `pop` and stops there. -/
example : ∃ w2 : World, (w2.loggers 5).entries = [.listPop [], .listPush [0#32] [7#8]] ∧
    ∀ later : List Entry, (∀ e ∈ (w2.loggers 5).entries ++ later, Fits e) →
      ∃ r', replay (twoTys true).dict .release ⟨⟨8, []⟩, [⟨⟨8, [0#32]⟩, [1#8]⟩]⟩ (((w2.loggers 5).entries ++ later).flatMap entryBytes) =
          .err r' .invalidData ∧ Same (twoTys true) r' ⟨⟨5, []⟩, []⟩ := by
  obtain ⟨w1, x', w2, es, h1, h2, h3, h4⟩ := C76_popped_item_stops_replay_false (t := twoTys true) ⟨rfl, rfl, trivial⟩ rfl (by decide)
    (by decide) (v := twoVals true) (r := ⟨⟨8, []⟩, [⟨⟨8, [0#32]⟩, [1#8]⟩]⟩) (s := .list (.uint .w8)) ⟨rfl, trivial⟩ .self []
    ⟨⟨5, [0#32]⟩, [1#8]⟩ rfl (by decide) 5 8 .debug .release (.push (7#8 : BitVec 8)) blank (twoVals_at true)
    (fun _ _ => trivial)
    ⟨rfl, fun i x hx => by
          cases i with
          | zero => cases hx; exact ⟨rfl, fun _ _ _ => trivial⟩
          | succ i => simp at hx⟩ rfl rfl ⟨Rt.dflt, trivial⟩ (sendable_w8 _)
  have h5 : w2 = ((Ty.list (.uint .w8)).run .debug (.push (7#8 : BitVec 8)) ⟨⟨5, [0#32]⟩, [1#8]⟩
      (listPop (twoVals true) blank).2).2 := by rw [h1, h2]
  have h6 : (w2.loggers 5).entries = [.listPop [], .listPush [0#32] [7#8]] := by rw [h5]; decide +kernel
  refine ⟨w2, h6, fun later hfit => h4 later (fun h0 => ?_) hfit⟩
  rw [h6, h0] at h3
  simp at h3

/-- A list popped from a state and given a runtime of its own: calls on it are logged there, and not to its old logger. -/
example : ∃ (x' : (Ty.list (.uint .w8)).El) (w' : World),
    (Ty.list (.uint .w8)).run .debug (.push (7#8 : BitVec 8)) ((Ty.list (.uint .w8)).dict.setRuntime ⟨6, []⟩ ⟨⟨5, [0#32]⟩, [1#8]⟩) blank =
      (.ok x', w') ∧ x'.items = [1#8, 7#8] ∧ (w'.loggers 5) = blank.loggers 5 ∧ (w'.loggers 6).entries = [.listPush [] [7#8]] := by
  obtain ⟨_, x', w', es, h1, _, _, h3⟩ := C76_rerooted (.list (.uint .w8)) ⟨rfl, trivial⟩ .debug ⟨5, [0#32]⟩ ⟨⟨5, [0#32]⟩, [1#8]⟩
    ⟨rfl, fun _ _ _ => trivial⟩ (fun _ _ => trivial) 6 (.push (7#8 : BitVec 8)) ⟨Rt.dflt, trivial⟩ (sendable_w8 _) trivial blank
  refine ⟨x', w', h1, ?_, h3 5 (by decide), ?_⟩
  · have h4 : (match ((Ty.list (.uint .w8)).run .debug (.push (7#8 : BitVec 8))
        ((Ty.list (.uint .w8)).dict.setRuntime ⟨6, []⟩ ⟨⟨5, [0#32]⟩, [1#8]⟩) blank).1 with
        | .ok v => v.items
        | .error _ => []) = [1#8, 7#8] := by rfl
    rw [h1] at h4
    exact h4
  · have h4 : (((Ty.list (.uint .w8)).run .debug (.push (7#8 : BitVec 8))
        ((Ty.list (.uint .w8)).dict.setRuntime ⟨6, []⟩ ⟨⟨5, [0#32]⟩, [1#8]⟩) blank).2.loggers 6).entries = [.listPush [] [7#8]] := by
      decide +kernel
    rw [h1] at h4
    exact h4

/-- The same with a list taken out of a map: the entry it logs stops the replica. -/
example : replay (Ty.map .u8 (.list (.uint .w8))).dict .release ⟨⟨8, []⟩, []⟩ ([Entry.listPush [3#32] [7#8], .listPop []].flatMap entryBytes) =
    .err ⟨⟨8, []⟩, []⟩ .invalidData :=
  C76_removed_value_stops_replay_false (t := .map .u8 (.list (.uint .w8))) ⟨rfl, rfl, trivial⟩ .self 3#32 rfl rfl .release
    (.listPush [] [7#8]) (fun _ h => nomatch h) [.listPop []] (by unfold Fits; decide +kernel)

end Steit
