import Verif.Props.Parts
import Verif.Props.Collections

/-!
# Where the code departs from what users expect: properties C35, C36 and C37

For each: what happens instead, in general and on a concrete state, and under which conditions (`_partial`) the expected
behaviour holds.
-/

namespace Steit
open Spec Prog

/-! ## C35: removing an absent key -/

/-- C35, the source: `remove` of an absent key returns `None` and changes nothing, but logs an entry. -/
theorem C35_absent_remove_logs {α : Type} (v : MapV α) (k : U32) (hk : mapGet v k = none) (w : World) :
    ∃ w', mapRemove v k w = (.ok (none, v), w') ∧
      w'.loggers v.rt.logger = appended (w.loggers v.rt.logger) [.mapRemove v.rt.path k] := by
  obtain ⟨w1, h1, h2⟩ := log_run v.rt (.mapRemove v.rt.path k) w
  refine ⟨w1, ?_, h2⟩
  unfold mapRemove Rt.logMapRemove
  rw [Exec.bind_of h1]
  have hk' : entriesGet k v.entries = none := hk
  simp only [entriesRemove_absent k v.entries (entriesGet_none.1 hk'), hk']
  rfl

/-- C35, the replica: wherever the map sits in the replica's state, replaying the entry fails, and nothing that follows in the
log (`suffix`) is applied. -/
theorem C35_absent_remove_stops_replay {t : Ty} (ht : t.WF) {r : t.El} {p : List U32} {kt : KeyTy} {s : Ty} {u : MapV s.El}
    {put : MapV s.El → t.El} (h : Part t r p (.map kt s) u put) (k : U32) (hk : mapGet u k = none)
    (hroot : t.dict.isRoot r = .ok true) (hfit : Fits (.mapRemove p k)) (m : Mode) (suffix : Bytes) :
    replay t.dict m r (entryBytes (.mapRemove p k) ++ suffix) = .err r .invalidData := by
  have h1 : applyEntry t.dict m r (.mapRemove p k) = .err r .invalidData := by
    have h2 := (C50_entry_acts_on_its_object ht h m (.mapRemove [] k)).2 u .invalidData (by
      show mapHandle kt s.dict m u [] .mapRemove (some k) [] = _
      have hk' : entriesGet k u.entries = none := hk
      simp only [mapHandle, hk'])
    rw [part_self h] at h2
    simpa [under] using h2
  obtain ⟨x, h2, h3⟩ := read_entry m (.mapRemove p k) suffix hfit
  unfold replay
  rw [hroot]
  simp only
  have hne := entryBytes_ne (.mapRemove p k)
  cases hb : entryBytes (.mapRemove p k) ++ suffix with
  | nil => exact absurd (List.append_eq_nil_iff.1 hb).1 hne
  | cons b bs =>
    have hstep : replayStep t.dict m r (b :: bs) = .err r .invalidData := by
      unfold replayStep
      rw [← hb, h2]
      simp only [h3, h1]
    simp only [List.length_cons, untilEof, hstep]

/-- C35, both: an equal source and replica; the source removes an absent key from a map anywhere in its state, which leaves it
as it is, and then does anything (logging `later`). The replay fails at once, so the replica follows nothing of it. -/
theorem C35_replica_left_behind {t : Ty} (ht : t.WF) (hs : t.isState = true) (hp : shape t ≠ .prim)
    (hb : ¬ (shape t = .enum ∧ isBox t = true)) {v r : t.El} {p : List U32} {kt : KeyTy} {s : Ty} {u : MapV s.El}
    {put : MapV s.El → t.El} (h : Part t v p (.map kt s) u put) (k : U32) (hk : mapGet u k = none) (id id' : Nat) (m m' : Mode)
    (w : World) (hv : At t ⟨id, []⟩ v) (hr : At t ⟨id', []⟩ r) (hsame : Same t r v) (hw : w.loggers id = ⟨0, []⟩)
    (hfit : Fits (.mapRemove p k)) (later : List Entry) :
    ∃ w', (Ty.map kt s).run m (.remove k) u w = (.ok u, w') ∧ put u = v ∧ (w'.loggers id).entries = [.mapRemove p k] ∧
      replay t.dict m' r (((w'.loggers id).entries ++ later).flatMap entryBytes) = .err r .invalidData := by
  have hu := at_part h hv
  obtain ⟨w', h1, h2⟩ := C35_absent_remove_logs u k hk w
  have hlog : (w'.loggers id).entries = [.mapRemove p k] := by
    rw [hu.1, hw] at h2
    simp only [List.nil_append] at h2
    rw [h2]
    rfl
  refine ⟨w', Exec.map_of (f := Prod.snd) h1, part_self h, hlog, ?_⟩
  obtain ⟨ur, putr, q1, q2, _⟩ := part_same h hsame
  have hk' : mapGet ur k = none := by
    have hg := entriesGet_same (t := s) (f := strip s) (congrArg MapV.entries q2) k
    rw [show entriesGet k u.entries = none from hk] at hg
    have hg' : entriesGet k ur.entries = none := by simpa using hg
    exact hg'
  rw [hlog, List.flatMap_append, List.flatMap_cons, List.flatMap_nil, List.append_nil]
  exact C35_absent_remove_stops_replay ht q1 k hk' (C31_accepted_at_root t hs hp hb m' ⟨id', []⟩ r hr rfl []).1 hfit m' _

/-- C35 with the key present: source and replica remove it and stay equal. -/
theorem C35_present_remove_partial {t : Ty} (ht : t.WF) (hs : t.isState = true) {v : t.El} {p : List U32} {kt : KeyTy} {s : Ty}
    {u : MapV s.El} {put : MapV s.El → t.El} (h : Part t v p (.map kt s) u put) (k : U32) (x : s.El) (hk : mapGet u k = some x)
    (rt : Rt) (m : Mode) (w : World) (hv : At t rt v) (hc : Carried t v) :
    ∃ (u' : MapV s.El) (w' : World), (Ty.map kt s).run m (.remove k) u w = (.ok u', w') ∧ mapGet u' k = none ∧
      ∀ m' r rt', At t rt' r → Same t r v →
        ∃ r', applyAll t.dict m' r [.mapRemove p k] = .ok r' ∧ Same t r' (put u') := by
  have hu := at_part h hv
  have hmem : k ∈ u.entries.map (·.1) := List.mem_map.2 ⟨_, entriesGet_mem hk, rfl⟩
  obtain ⟨u', w', es, h1, _, _, h3, _, h4, _⟩ := C51_call_on_an_object_inside ht hs h m (.remove k) rt w hv hc trivial hmem
  obtain ⟨u1, w1, k1, k2, _, _, k3⟩ := C34_remove u hu.2.1 k w
  have k1' : (Ty.map kt s).run m (.remove k) u w = (.ok u1, w1) := Exec.map_of (f := Prod.snd) k1
  rw [h1] at k1'
  cases k1'
  refine ⟨u', w', h1, by rw [k2, if_pos rfl], fun m' r rt' hr hsame => ?_⟩
  obtain ⟨u2, w2, es2, j1, _, _, j3, _, j4, _⟩ :=
    C51_call_on_an_object_inside ht hs h m (.remove k) rt blank hv hc trivial hmem
  obtain ⟨u3, w3, i1, i2, _, _, i3⟩ := C34_remove u hu.2.1 k blank
  have i1' : (Ty.map kt s).run m (.remove k) u blank = (.ok u3, w3) := Exec.map_of (f := Prod.snd) i1
  rw [j1] at i1'
  cases i1'
  have hes : es2 = [.mapRemove [] k] := by
    rw [hu.1] at i3
    rw [i3] at j3
    have := congrArg LoggerSt.entries j3
    simp only [appended, blank, if_true, List.nil_append] at this
    refine (map_under_inj (p := rt.path ++ p) ?_).symm
    refine Eq.trans ?_ (this.trans (List.map_congr_left fun e _ => ?_))
    · simp [under]
    · cases e <;> simp [under]
  obtain ⟨r', q1, q2⟩ := j4 m' r rt' hr hsame
  have hu2 : u2 = u' := by
    have e1 : u' = { u with entries := entriesRemove k u.entries } := by
      obtain ⟨a, ha, hb⟩ := Exec.map_ok h1
      obtain ⟨_, w4, _, hc'⟩ := Exec.bind_ok ha
      cases hc'
      cases hb
      rfl
    have e2 : u2 = { u with entries := entriesRemove k u.entries } := by
      obtain ⟨a, ha, hb⟩ := Exec.map_ok j1
      obtain ⟨_, w4, _, hc'⟩ := Exec.bind_ok ha
      cases hc'
      cases hb
      rfl
    rw [e1, e2]
  subst hu2
  refine ⟨r', ?_, q2⟩
  rw [hes] at q1
  simpa [under] using q1

/-- The hypotheses of C35 on a struct holding a map with key 3 only. -/
example : ∃ put, Part hTy pVal [1#32] (.map .u8 (.list (.uint .w8))) ⟨⟨4, [1#32]⟩, [(3#32, ⟨⟨4, [1#32, 3#32]⟩, [1#8, 2#8]⟩)]⟩ put ∧
    mapGet (⟨⟨4, [1#32]⟩, [(3#32, ⟨⟨4, [1#32, 3#32]⟩, [1#8, 2#8]⟩)]⟩ : MapV (ListV (BitVec 8))) 8#32 = none ∧
    Fits (.mapRemove [1#32] 8#32) :=
  ⟨_, .inside (.field (.tail (.head rfl))) .self, rfl, by unfold Fits; decide +kernel⟩

/-! ## C36: values inserted into a map keep the runtime they had -/

/-- C36: a value `x` built at `rt'` is inserted and then a call is made on it through the map. The insertion is logged to the
map's logger; the call, however, is logged to the logger of `rt'` below the path of `rt'`, not below the key. If that is
another logger, the map's logger receives nothing, so that replicas stay with the value as it was inserted. -/
theorem C36_inserted_value_logs_elsewhere (kt : KeyTy) (t : Ty) (ht : (Ty.map kt t).WF) (m : Mode) (v : MapV t.El) (rt rt' : Rt)
    (k : U32) (x : t.El) (op : t.Op) (w : World) (hv : At (.map kt t) rt v) (hc : Carried (.map kt t) v)
    (hk : k.toNat ≤ kt.max) (hk' : k.toNat < 2 ^ 29) (hx : Sendable t x) (hat : At t rt' x) (ha : OpAddr t op x)
    (ho : OpSync t op x) :
    ∃ (v1 v2 : MapV t.El) (w1 w2 : World) (x' : t.El) (es : List Entry),
      (Ty.map kt t).run m (.insert k x) v w = (.ok v1, w1) ∧ mapGet v1 k = some x ∧
      w1.loggers rt.logger = appended (w.loggers rt.logger) [.update (rt.path ++ [k]) (encode t x)] ∧
      (Ty.map kt t).run m (.value k op) v1 w1 = (.ok v2, w2) ∧ t.run m op x w1 = (.ok x', w2) ∧ mapGet v2 k = some x' ∧
      w2.loggers rt'.logger = appended (w1.loggers rt'.logger) (es.map (under rt'.path)) ∧
      (OpOnly t op → rt'.logger ≠ rt.logger → w2.loggers rt.logger = w1.loggers rt.logger) ∧
      ∀ m' r rt'', At (.map kt t) rt'' r → Same (.map kt t) r v →
        ∃ r', applyAll (Ty.map kt t).dict m' r [.update [k] (encode t x)] = .ok r' ∧ Same (.map kt t) r' v1 := by
  obtain ⟨v1, w1, h1, h2, _, h4, h5⟩ := C34_insert t ht.2 m v k x hx w
  have h1' : (Ty.map kt t).run m (.insert k x) v w = (.ok v1, w1) := Exec.map_of (f := Prod.snd) h1
  have hget : mapGet v1 k = some x := by rw [h2, if_pos rfl]
  obtain ⟨x', w2, es, k1, _, k3, _⟩ := syncs t ht.2 m op x rt' w1 hat hx.1 ha ho
  refine ⟨v1, { v1 with entries := entriesInsert k x' v1.entries }, w1, w2, x', es, h1', hget, ?_, ?_, k1, ?_, k3, ?_, ?_⟩
  · rw [hv.1] at h5; exact h5
  · simp only [Ty.run, runMap, show entriesGet k v1.entries = some x from hget]
    exact Exec.bind_of (f := fun x => (pure { v1 with entries := entriesInsert k x v1.entries } : Exec (MapV t.El))) k1
  · exact entriesGet_insert k x' v1.entries
  · intro hon hne
    have := only_run t ht.2 m op rt' x hat hon w1 rt.logger (Ne.symm hne)
    rwa [k1] at this
  · intro m' r rt'' hr hsame
    obtain ⟨v3, w3, es3, j1, _, j3, j4⟩ := told_insert (m := m) (w0 := blank) (w := blank) ht hv hc hk hk' hx rfl
    obtain ⟨v4, w4, i1, _, _, _, i5⟩ := C34_insert t ht.2 m v k x hx blank
    have i1' : (Prod.snd <$> mapInsert t.dict m v k x) blank = (.ok v4, w4) := Exec.map_of (f := Prod.snd) i1
    rw [j1] at i1'
    cases i1'
    have hes : es3 = [.update [k] (encode t x)] := by
      refine logged_blank j3 ?_
      unfold Logged
      rw [hv.1] at i5
      rw [i5]
      simp [under]
    obtain ⟨r', q1, q2⟩ := follows_steps ht rfl m' j4 hr hsame
    refine ⟨r', ?_, q2.trans ?_⟩
    · rw [← hes]; exact applyAll_of_applies q1
    · have e1 : v1 = { v with entries := entriesInsert k x v.entries } := by
        obtain ⟨_, _, _, hc'⟩ := Exec.bind_ok h1
        cases hc'
        rfl
      have e2 : v3 = { v with entries := entriesInsert k x v.entries } := by
        obtain ⟨_, _, _, hc'⟩ := Exec.bind_ok i1
        cases hc'
        rfl
      rw [e1, e2]

/-- C36 on a concrete state, so the property as expected is false: an empty list built elsewhere (logger 9) is inserted at
key 3, then 5 is pushed to it through the map. The source ends with the list `[5]`; its log holds the insertion only; a
replica that replays it ends with an empty list. -/
theorem C36_insert_loses_later_changes_false :
    ∃ (v : (Ty.map .u8 (.list (.uint .w8))).El) (w : World),
      (calls (.map .u8 (.list (.uint .w8))) .release [.insert 3#32 ⟨⟨9, []⟩, []⟩, .value 3#32 (.push 5#8)] ⟨⟨4, []⟩, []⟩ blank) =
        (.ok v, w) ∧
      v.entries = [(3#32, ⟨⟨9, []⟩, [5#8]⟩)] ∧ (w.loggers 4).entries = [.update [3#32] []] ∧
      (w.loggers 9).entries = [.listPush [] [5#8]] ∧
      applyAll (Ty.map .u8 (.list (.uint .w8))).dict .release ⟨⟨7, []⟩, []⟩ (w.loggers 4).entries =
        .ok ⟨⟨7, []⟩, [(3#32, ⟨⟨7, [3#32]⟩, []⟩)]⟩ :=
  ⟨_, _, rfl, rfl, rfl, rfl, rfl⟩

/-- C36 where it holds: values built by `insert_with` (at the runtime the closure is given), and integers and bools, which have
no runtime, leave every object in the map at its address; hence (C25, C51) calls on them are logged below their key, to
the map's logger. -/
theorem C36_partial (kt : KeyTy) (t : Ty) (ht : (Ty.map kt t).WF) (m : Mode) (v v' : MapV t.El) (rt : Rt) (k : U32)
    (w w' : World) (hv : At (.map kt t) rt v) :
    (∀ f, ClosureAddr t f → (Ty.map kt t).run m (.insertWith k f) v w = (.ok v', w') → At (.map kt t) rt v') ∧
    (∀ x, shape t = .prim → (Ty.map kt t).run m (.insert k x) v w = (.ok v', w') → At (.map kt t) rt v') :=
  ⟨fun f hf h => at_run (.map kt t) ht m (.insertWith k f) v rt w v' w' hv hf h,
   fun x hp h => at_run (.map kt t) ht m (.insert k x) v rt w v' w' hv (at_prim t ht.1 hp _ x) h⟩

/-! ## C37: `swap_remove` in lists of enums -/

theorem enum_at_unique {t : Ty} (hs : t.isState = true) (he : shape t = .enum) {rt rt' : Rt} {x : t.El} (h : At t rt x)
    (h' : At t rt' x) : rt = rt' := by
  have h1 := runtime_at t hs rt x h
  have h2 := runtime_at t hs rt' x h'
  rw [he] at h1 h2
  obtain ⟨tag, h1⟩ := h1
  obtain ⟨tag', h2⟩ := h2
  rw [h1] at h2
  have h3 := Option.some.inj h2
  have hl := congrArg Rt.logger h3
  have hp := congrArg Rt.path h3
  simp only [Rt.nested] at hl hp
  have := List.append_inj_left' hp rfl
  cases rt; cases rt'; simp_all

/-- C37 is false for enums: after `swap_remove(i)` of an item that is not the last, the moved item believes to sit one level too
deep, at `[.., i, i]`, and so not every object knows its address any more. -/
theorem C37_enum_item_misplaced_false (t : Ty) (ht : t.WF) (hs : t.isState = true) (he : shape t = .enum) (m : Mode) (rt : Rt)
    (l : ListV t.El) (xs ys : List t.El) (x last : t.El) (hl : l.items = xs ++ x :: ys ++ [last]) (hv : At (.list t) rt l)
    (hx : Sendable t last) (w : World) :
    ∃ (last' : t.El) (w' : World), listSwapRemove t.dict m l xs.length w = (.ok (some x, { l with items := xs ++ last' :: ys }), w') ∧
      Same t last' last ∧ At t ((rt.nested (fieldNo xs.length)).nested (fieldNo xs.length)) last' ∧
      ¬ At (.list t) rt { l with items := xs ++ last' :: ys } := by
  have hi : l.items[xs.length]? = some x := by rw [hl]; simp
  have hla : l.items.getLast? = some last := by rw [hl, List.getLast?_append]; rfl
  have hne : ¬ (xs.length + 1 = l.items.length) := by rw [hl]; simp
  have hvr : ∀ z, vecSwapRemove l.items xs.length z = xs ++ z :: ys := by
    intro z
    unfold vecSwapRemove
    rw [hl, List.append_assoc, List.set_append_right _ _ (Nat.le_refl _), Nat.sub_self, List.cons_append, List.set_cons_zero,
      ← List.cons_append, ← List.append_assoc, List.dropLast_concat]
  obtain ⟨w1, h1, hw1⟩ := toBytesNow_run ht m hx w
  obtain ⟨w2, h2, hw2⟩ := logMulti_run l.rt
    [.listPop l.rt.path, .update (l.rt.path ++ [fieldNo xs.length]) (encode t last)] w1
  have hw : t.dict.wire = .sized := (wire_shape t hs).2 (by rw [he]; decide)
  have hq := runtime_at t hs _ x (hv.2 _ _ hi)
  rw [he] at hq
  obtain ⟨tag, hq⟩ := hq
  have hr : ((rt.nested (fieldNo xs.length)).nested tag).sibling (fieldNo xs.length) =
    .ok ((rt.nested (fieldNo xs.length)).nested (fieldNo xs.length)) := Rt.sibling_nested ..
  have hlast : l.items[xs.length + 1 + ys.length]? = some last := by
    rw [hl, List.append_assoc, List.getElem?_append_right (by omega)]
    have : xs.length + 1 + ys.length - xs.length = (x :: ys).length := by simp only [List.length_cons]; omega
    rw [this, List.getElem?_append_right (Nat.le_refl _), Nat.sub_self]
    rfl
  have hat : At t ((rt.nested (fieldNo xs.length)).nested (fieldNo xs.length))
      (t.dict.setRuntime ((rt.nested (fieldNo xs.length)).nested (fieldNo xs.length)) last) :=
    (anyLaw t ht).at_set _ _ _ (hv.2 _ _ hlast)
  refine ⟨_, w2, ?_, strip_setRuntime t _ _, hat, fun hbad => ?_⟩
  · unfold listSwapRemove
    simp only [hi, hla, if_neg hne]
    rw [Exec.bind_of h1, Exec.bind_of h2]
    simp only [hw, if_true, hvr, hq, hr]
    rfl
  · have := hbad.2 xs.length _ (by rw [List.getElem?_append_right (Nat.le_refl _), Nat.sub_self]; rfl)
    have := congrArg (fun r => r.path.length) (enum_at_unique hs he this hat)
    simp [Rt.nested] at this

/-- C37, consequence: a call on the moved item is logged below `[.., i, i]`. -/
theorem C37_moved_enum_logs_elsewhere (t : Ty) (ht : t.WF) (m : Mode) (rt : Rt) (i : U32) (x : t.El) (op : t.Op) (w : World)
    (hat : At t ((rt.nested i).nested i) x) (hc : Carried t x) (ha : OpAddr t op x) (ho : OpSync t op x) :
    ∃ (x' : t.El) (w' : World) (es : List Entry), t.run m op x w = (.ok x', w') ∧
      w'.loggers rt.logger = appended (w.loggers rt.logger) (es.map (under (rt.path ++ [i, i]))) := by
  obtain ⟨x', w', es, h1, _, h3, _⟩ := syncs t ht m op x _ w hat hc ha ho
  refine ⟨x', w', es, h1, ?_⟩
  have h4 : w'.loggers rt.logger = appended (w.loggers rt.logger) (es.map (under ((rt.path ++ [i]) ++ [i]))) := h3
  rw [h4]
  simp

/-- C37 on a concrete list of two enums `A(1)`, `A(2)`: `swap_remove(0)`, then setting the field of the remaining item to 7. The
source ends with `A(7)`. Its log addresses the last change to `[0, 0, 0, 0]` instead of `[0, 0, 0]`, and replaying it fails. -/
theorem C37_replica_fails_false :
    ∃ (v : (Ty.list hEnum).El) (w : World),
      (calls (.list hEnum) .release [.swapRemove 0, .item 0 (.inl (.inl (.set 7#32)))]
        ⟨⟨4, []⟩, [⟨⟨4, [0#32, 0#32]⟩, .inl (1#32, ())⟩, ⟨⟨4, [1#32, 0#32]⟩, .inl (2#32, ())⟩]⟩ blank) = (.ok v, w) ∧
      v.items.map (·.val) = [.inl (7#32, ())] ∧
      (w.loggers 4).entries.map address = [[], [0#32], [0#32, 0#32, 0#32, 0#32]] ∧
      ∀ v', applyAll (Ty.list hEnum).dict .release
        ⟨⟨7, []⟩, [⟨⟨7, [0#32, 0#32]⟩, .inl (1#32, ())⟩, ⟨⟨7, [1#32, 0#32]⟩, .inl (2#32, ())⟩]⟩ (w.loggers 4).entries ≠ .ok v' :=
  ⟨_, _, rfl, rfl, rfl, fun _ h => nomatch h⟩

/-- C37 where it holds: for all other item types (structs, lists, maps, integers, ...) every object still knows its address
after `swap_remove`. -/
theorem C37_partial (t : Ty) (ht : (Ty.list t).WF) (he : shape t ≠ .enum) (m : Mode) (rt : Rt) (l l' : ListV t.El) (i : Nat)
    (w w' : World) (hv : At (.list t) rt l) (h : (Ty.list t).run m (.swapRemove i) l w = (.ok l', w')) : At (.list t) rt l' :=
  at_run (.list t) ht m (.swapRemove i) l rt w l' w' hv (fun h => absurd h he) h

end Steit
