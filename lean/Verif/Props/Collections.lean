import Verif.Props.Sync
import Verif.Spec.Collections

/-! # Lists and maps: properties C33 and C34 -/

namespace Steit
open Spec Prog

/-! ## C33 -/

/-- C33, `push`: appends the item (with its runtime set) and returns its index, modulo 2^32 as the code does; one entry is
logged. -/
theorem C33_push (t : Ty) (ht : t.WF) (m : Mode) (l : ListV t.El) (x : t.El) (hx : Sendable t x) (w : World) :
    ∃ x' w', listPush t.dict m l x w = (.ok (l.items.length % 2 ^ 32, { l with items := l.items ++ [x'] }), w') ∧ Same t x' x ∧
      (∀ rt, At t rt x → At t (l.rt.nested (fieldNo l.items.length)) x') ∧
      w'.loggers l.rt.logger = appended (w.loggers l.rt.logger) [.listPush l.rt.path (encode t x)] := by
  have hf : ∀ w, 0 < (w.loggers l.rt.logger).paused →
      ∃ y w', (fun rt => (pure (t.dict.setRuntime rt x) : Exec t.El)) (l.rt.nested (fieldNo l.items.length)) w = (.ok y, w') ∧
        Sendable t y ∧ w'.loggers l.rt.logger = w.loggers l.rt.logger :=
    fun w _ => ⟨_, w, rfl, sendable_same (strip_setRuntime t _ _) hx, rfl⟩
  obtain ⟨y, w1, hy, hw1, hrun, w2, w3, hf'⟩ := paused_run (f := fun rt => (pure (t.dict.setRuntime rt x) : Exec t.El))
    l.rt (fieldNo l.items.length) w
    (fun item => do
      l.rt.logListPush t.dict m item
      pure ((fieldNo l.items.length).toNat, ({ l with items := l.items ++ [item] } : ListV t.El))) hf
  obtain ⟨hy', _⟩ := Exec.pure_ok hf'
  subst hy'
  obtain ⟨w4, h2, hlog⟩ := logListPush_run ht l.rt m hy w1
  refine ⟨_, w4, ?_, strip_setRuntime t _ _, fun rt h => (anyLaw t ht).at_set rt _ x h, ?_⟩
  · unfold listPush listPushWith
    rw [hrun, Exec.bind_of h2]
    show (Except.ok (_, _), w4) = _
    simp [fieldNo]
  · have := hlog.from hw1
    unfold Logged at this
    rw [this, encode_same (strip_setRuntime t _ _)]
    simp [under]

/-- C33, `pop` of a non-empty list: removes and returns the last item; one entry is logged. -/
theorem C33_pop {α : Type} (l : ListV α) (xs : List α) (x : α) (h : l.items = xs ++ [x]) (w : World) :
    ∃ w', listPop l w = (.ok (some x, { l with items := xs }), w') ∧
      w'.loggers l.rt.logger = appended (w.loggers l.rt.logger) [.listPop l.rt.path] := by
  obtain ⟨w1, h1, h2⟩ := log_run l.rt (.listPop l.rt.path) w
  refine ⟨w1, ?_, h2⟩
  unfold listPop
  rw [if_pos (by rw [h]; simp)]
  unfold Rt.logListPop
  rw [Exec.bind_of h1, h]
  simp only [List.getLast?_append, List.getLast?_singleton, Option.some_or, List.dropLast_concat]
  rfl

/-- C33, `pop` of an empty list: nothing happens, nothing is logged. -/
theorem C33_pop_empty {α : Type} (l : ListV α) (h : l.items = []) (w : World) : listPop l w = (.ok (none, l), w) := by
  unfold listPop
  rw [if_neg (by simp [h])]
  rfl

/-- C33, `swap_remove` out of range: nothing happens, nothing is logged. -/
theorem C33_swap_remove_out_of_range {α : Type} (d : Dict α) (m : Mode) (l : ListV α) (i : Nat) (h : l.items.length ≤ i)
    (w : World) : listSwapRemove d m l i w = (.ok (none, l), w) := by
  unfold listSwapRemove
  rw [List.getElem?_eq_none h]
  rfl

/-- C33, `swap_remove` of the last item: as `pop`. -/
theorem C33_swap_remove_last {α : Type} (d : Dict α) (m : Mode) (l : ListV α) (xs : List α) (x : α) (h : l.items = xs ++ [x]) :
    listSwapRemove d m l xs.length = listPop l := by
  unfold listSwapRemove
  rw [h]
  simp

theorem placed_sibling {t : Ty} (hs : t.isState = true) {x : t.El} (hx : Placed t x) (hw : t.dict.wire = .sized) (i : U32) :
    ∃ (q r : Rt) (k : U32), t.dict.runtime x = some q ∧ q.sibling i = .ok (r.nested k) := by
  obtain ⟨rt, k, hx⟩ := hx
  have := runtime_at t hs _ x hx
  cases hsh : shape t with
  | prim => exact absurd hsh ((wire_shape t hs).1 hw)
  | plain => rw [hsh] at this; exact ⟨_, _, _, this, Rt.sibling_nested ..⟩
  | enum => rw [hsh] at this; obtain ⟨tag, h⟩ := this; exact ⟨_, _, _, h, Rt.sibling_nested ..⟩

/-- C33, `swap_remove` of any other item: returns it, and the last item, with its runtime set, takes its place. The two
entries that do the same on a replica are logged. This holds for enum items too, whose runtimes then are wrong (C37). -/
theorem C33_swap_remove (t : Ty) (ht : t.WF) (hs : t.isState = true) (m : Mode) (l : ListV t.El)
    (xs ys : List t.El) (x last : t.El) (hl : l.items = xs ++ x :: ys ++ [last]) (hp : Placed t x) (hp' : Placed t last)
    (hx : Sendable t last) (w : World) :
    ∃ last' w', listSwapRemove t.dict m l xs.length w = (.ok (some x, { l with items := xs ++ last' :: ys }), w') ∧
      Same t last' last ∧ Placed t last' ∧
      w'.loggers l.rt.logger = appended (w.loggers l.rt.logger)
        [.listPop l.rt.path, .update (l.rt.path ++ [fieldNo xs.length]) (encode t last)] := by
  have hi : l.items[xs.length]? = some x := by rw [hl]; simp
  have hla : l.items.getLast? = some last := by rw [hl, List.getLast?_append]; rfl
  have hne : ¬ (xs.length + 1 = l.items.length) := by rw [hl]; simp
  have hv : ∀ z, vecSwapRemove l.items xs.length z = xs ++ z :: ys := by
    intro z
    unfold vecSwapRemove
    rw [hl, List.append_assoc, List.set_append_right _ _ (Nat.le_refl _), Nat.sub_self, List.cons_append, List.set_cons_zero,
      ← List.cons_append, ← List.append_assoc, List.dropLast_concat]
  obtain ⟨w1, h1, hw1⟩ := toBytesNow_run ht m hx w
  obtain ⟨w2, h2, hw2⟩ := logMulti_run l.rt
    [.listPop l.rt.path, .update (l.rt.path ++ [fieldNo xs.length]) (encode t last)] w1
  rw [hw1] at hw2
  by_cases hw : t.dict.wire = .sized
  · obtain ⟨q, r, k, hq, hr⟩ := placed_sibling hs hp hw (fieldNo xs.length)
    obtain ⟨r0, k0, hlast⟩ := hp'
    refine ⟨t.dict.setRuntime (r.nested k) last, w2, ?_, strip_setRuntime t _ _, ⟨r, k, (anyLaw t ht).at_set _ _ _ hlast⟩, hw2⟩
    unfold listSwapRemove
    simp only [hi, hla, if_neg hne]
    rw [Exec.bind_of h1, Exec.bind_of h2]
    simp only [hw, if_true, hv, hq, hr]
    rfl
  · refine ⟨last, w2, ?_, rfl, hp', hw2⟩
    unfold listSwapRemove
    simp only [hi, hla, if_neg hne]
    rw [Exec.bind_of h1, Exec.bind_of h2]
    simp only [hw, if_false, hv]
    rfl

/-- C33, `get_mut`: a call on item `i` leaves all other items and the number of items alone; without an item `i` nothing
happens. -/
theorem C33_get_mut (t : Ty) (m : Mode) (i : Nat) (op : t.Op) (l l' : ListV t.El) (w w' : World)
    (h : (Ty.list t).run m (.item i op) l w = (.ok l', w')) :
    l'.items.length = l.items.length ∧ (∀ j, j ≠ i → l'.items[j]? = l.items[j]?) ∧
      (∀ x, l.items[i]? = some x → ∃ x', t.run m op x w = (.ok x', w') ∧ l'.items[i]? = some x') ∧
      (l.items[i]? = none → l' = l ∧ w' = w) := by
  simp only [Ty.run, runList] at h
  cases hx : l.items[i]? with
  | none =>
    rw [hx] at h
    cases h
    exact ⟨rfl, fun _ _ => rfl, fun _ h => (nomatch h), fun _ => ⟨rfl, rfl⟩⟩
  | some x =>
    rw [hx] at h
    obtain ⟨x', w1, h1, h2⟩ := Exec.bind_ok h
    cases h2
    refine ⟨List.length_set, fun j hj => List.getElem?_set_ne (Ne.symm hj), fun y hy => ?_, fun h => nomatch h⟩
    cases hy
    exact ⟨x', h1, List.getElem?_set_self (List.getElem?_eq_some_iff.1 hx).1⟩

theorem getLast?_map_strip {α β : Type} (f : α → β) (xs : List α) : (xs.map f).getLast? = xs.getLast?.map f := by
  simp

theorem swapRemoved_map {α β : Type} (f : α → β) (xs : List α) (i : Nat) :
    swapRemoved (xs.map f) i = (swapRemoved xs i).map f := by
  unfold swapRemoved
  rw [getLast?_map_strip]
  cases xs.getLast? with
  | none => rfl
  | some last =>
    simp only [Option.map_some, List.length_map]
    split
    · simp [List.map_take, List.map_drop, List.map_dropLast]
    · split <;> simp [List.map_take]

theorem swapRemoved_eq {α : Type} (xs : List α) (i : Nat) (last : α) (hl : xs.getLast? = some last) (hi : i + 1 < xs.length) :
    (xs.set i last).dropLast = swapRemoved xs i := by
  unfold swapRemoved
  rw [hl]
  simp only [if_pos hi]
  rw [List.set_eq_take_append_cons_drop, if_pos (by omega), List.dropLast_append_of_ne_nil (by simp)]
  congr 1
  rw [List.dropLast_cons_of_ne_nil]
  simp only [ne_eq, List.drop_eq_nil_iff]
  omega

/-- C33 for whole histories: after any number of calls, none of which panics, the items are (up to runtimes) those of a
sequence on which the same calls were made. No restriction on item types. -/
theorem C33_history (t : Ty) (ht : (Ty.list t).WF) (m : Mode) : ∀ (ops : List (SeqOp t.El)) (l : ListV t.El) (w : World),
    (∀ x ∈ l.items, Sendable t x ∧ Placed t x) → (∀ op ∈ ops, op.Ok) →
    ∃ l' w', calls (.list t) m (ops.map SeqOp.ofCall) l w = (.ok l', w') ∧
      l'.items.map (strip t) = (ops.map SeqOp.strip).foldl SeqOp.apply (l.items.map (strip t))
  | [], l, w, _, _ => ⟨l, w, rfl, rfl⟩
  | op :: ops, l, w, hl, hops => by
    -- one step
    suffices step : ∃ l1 w1, (Ty.list t).run m op.ofCall l w = (.ok l1, w1) ∧ (∀ x ∈ l1.items, Sendable t x ∧ Placed t x) ∧
        l1.items.map (strip t) = op.strip.apply (l.items.map (strip t)) by
      obtain ⟨l1, w1, h1, hl1, h1s⟩ := step
      obtain ⟨l2, w2, h2, h2s⟩ := C33_history t ht m ops l1 w1 hl1 (fun o ho => hops o (List.mem_cons_of_mem _ ho))
      refine ⟨l2, w2, (Exec.bind_of h1).trans h2, ?_⟩
      rw [h2s, h1s]
      rfl
    have hop := hops op (List.mem_cons_self ..)
    have pop : ∀ xs x, l.items = xs ++ [x] → ∃ l1 w1, (Prod.snd <$> listPop l) w = (.ok l1, w1) ∧
        (∀ x ∈ l1.items, Sendable t x ∧ Placed t x) ∧ l1.items = xs := by
      intro xs x h4
      obtain ⟨w', h5, _⟩ := C33_pop l xs x h4 w
      exact ⟨_, w', Exec.map_of h5, fun y hy => hl y (by rw [h4]; exact List.mem_append_left _ hy), rfl⟩
    cases op with
    | push x =>
      obtain ⟨hx, rt, hrt⟩ := hop
      obtain ⟨x', w', h4, h5, h6, _⟩ := C33_push t ht.2 m l x hx w
      refine ⟨_, w', Exec.map_of h4, ?_, ?_⟩
      · intro y hy
        rcases List.mem_append.1 hy with hy | hy
        · exact hl y hy
        · rw [List.mem_singleton.1 hy]
          exact ⟨sendable_same h5 hx, _, _, h6 rt hrt⟩
      · simp only [List.map_append, List.map_cons, List.map_nil, SeqOp.strip, SeqOp.apply]
        rw [show strip t x' = strip t x from h5]
    | pop =>
      rcases List.eq_nil_or_concat l.items with h4 | ⟨xs, x, h4⟩
      · exact ⟨l, w, Exec.map_of (C33_pop_empty l h4 w), hl, by simp [h4, SeqOp.strip, SeqOp.apply]⟩
      · rw [List.concat_eq_append] at h4
        obtain ⟨l1, w1, h5, h6, h7⟩ := pop xs x h4
        exact ⟨l1, w1, h5, h6, by simp [h4, h7, SeqOp.strip, SeqOp.apply]⟩
    | swapRemove i =>
      simp only [SeqOp.strip, SeqOp.apply, swapRemoved_map]
      by_cases hlt : i < l.items.length
      · by_cases hla : i + 1 = l.items.length
        · rcases List.eq_nil_or_concat l.items with h4 | ⟨xs, x, h4⟩
          · rw [h4] at hlt; simp at hlt
          · rw [List.concat_eq_append] at h4
            have hi : i = xs.length := by rw [h4] at hla; simp at hla; exact hla
            subst hi
            obtain ⟨l1, w1, h5, h6, h7⟩ := pop xs x h4
            rw [← C33_swap_remove_last t.dict m l xs x h4] at h5
            exact ⟨l1, w1, h5, h6, by simp [swapRemoved, h4, h7]⟩
        · have hlt' : i + 1 < l.items.length := by omega
          rcases List.eq_nil_or_concat l.items with h4 | ⟨zs, last, h4⟩
          · rw [h4] at hlt; simp at hlt
          · rw [List.concat_eq_append] at h4
            have hz : i < zs.length := by rw [h4] at hlt'; simp at hlt'; exact hlt'
            have h5 : l.items = zs.take i ++ zs[i] :: zs.drop (i + 1) ++ [last] := by
              rw [List.getElem_cons_drop, List.take_append_drop, h4]
            have hlast : l.items.getLast? = some last := by rw [h4]; simp
            have hm := hl last (List.mem_of_getLast? hlast)
            have hm' := hl zs[i] (by rw [h4]; simp)
            obtain ⟨last', w', h6, h8, h9, _⟩ := C33_swap_remove t ht.2 ht.1 m l _ _ _ _ h5 hm'.2 hm.2 hm.1 w
            rw [List.length_take, Nat.min_eq_left (by omega)] at h6
            refine ⟨_, w', Exec.map_of h6, ?_, ?_⟩
            · intro y hy
              simp only [List.mem_append, List.mem_cons] at hy
              rcases hy with hy | rfl | hy
              · exact hl y (by rw [h4]; exact List.mem_append_left _ (List.mem_of_mem_take hy))
              · exact ⟨sendable_same h8 hm.1, h9⟩
              · exact hl y (by rw [h4]; exact List.mem_append_left _ (List.mem_of_mem_drop hy))
            · rw [← swapRemoved_eq _ _ _ hlast hlt', h4, List.set_append_left _ _ hz, List.dropLast_concat,
                List.set_eq_take_append_cons_drop, if_pos hz]
              simp only [List.map_append, List.map_cons]
              rw [show strip t last' = strip t last from h8]
      · refine ⟨l, w, Exec.map_of (C33_swap_remove_out_of_range t.dict m l i (by omega) w), hl, ?_⟩
        unfold swapRemoved
        cases l.items.getLast? with
        | none => rfl
        | some last => simp only; rw [if_neg (by omega), if_neg (by omega)]

/-- Lists of bytes, which have runtimes; the items of the examples. -/
def cItem (b : BitVec 8) : (Ty.list (.uint .w8)).El := ⟨⟨3, [9#32]⟩, [b]⟩

theorem cItem_sendable (b : BitVec 8) : Sendable (.list (.uint .w8)) (cItem b) := by
  refine ⟨fun _ _ => trivial, ?_⟩
  show (leb b.toNat ++ []).length < 2 ^ 32
  rw [List.append_nil]
  exact Nat.lt_of_le_of_lt (leb_length_le 1 _ (Nat.lt_of_lt_of_le b.isLt (by decide))) (by decide)

/-- Not vacuous: three pushes, then the last item takes the place of the first. -/
example (w : World) : ∃ l' w', calls (.list (.list (.uint .w8))) .debug
      (([.push (cItem 1#8), .push (cItem 2#8), .push (cItem 3#8), .swapRemove 0, .swapRemove 7] :
        List (SeqOp (Ty.list (.uint .w8)).El)).map SeqOp.ofCall) ⟨⟨4, []⟩, []⟩ w = (.ok l', w') ∧
    l'.items.map (·.items) = [[3#8], [2#8]] := by
  obtain ⟨l', w', h1, h2⟩ := C33_history (.list (.uint .w8)) ⟨rfl, rfl, trivial⟩ .debug
    [.push (cItem 1#8), .push (cItem 2#8), .push (cItem 3#8), .swapRemove 0, .swapRemove 7] ⟨⟨4, []⟩, []⟩ w (fun _ h => nomatch h)
    (by
      have h : ∀ b, SeqOp.Ok (.push (cItem b)) := fun b => ⟨cItem_sendable b, ⟨3, [9#32]⟩, rfl, fun _ _ _ => trivial⟩
      intro op hop
      simp only [List.mem_cons, List.not_mem_nil, or_false] at hop
      rcases hop with rfl | rfl | rfl | rfl | rfl
      · exact h _
      · exact h _
      · exact h _
      · trivial
      · trivial)
  refine ⟨l', w', h1, ?_⟩
  have h3 := congrArg (List.map (fun x : ListV (BitVec 8) => x.items)) h2
  refine Eq.trans ?_ h3
  refine Eq.trans ?_ (List.map_map (f := strip (.list (.uint .w8))) (g := fun x : ListV (BitVec 8) => x.items)).symm
  refine List.map_congr_left fun x _ => ?_
  show x.items = x.items.map (fun x => x)
  simp

theorem setRuntimeItems_getElem {t : Ty} (rt : Rt) (xs : List t.El) : ∀ (i j : Nat),
    (setRuntimeItems t.dict rt i xs)[j]? = xs[j]?.map (t.dict.setRuntime (rt.nested (fieldNo (i + j)))) := by
  induction xs with
  | nil => intro i j; simp [setRuntimeItems]
  | cons x xs ih =>
    intro i j
    cases j with
    | zero => simp [setRuntimeItems]
    | succ j => simp only [setRuntimeItems, List.getElem?_cons_succ, ih]; rw [Nat.add_right_comm, Nat.add_assoc]

/-- `List::from_iter`: the items in order, every one of them at its address. -/
theorem C33_from_iter (t : Ty) (ht : (Ty.list t).WF) (rt : Rt) (items : List t.El) (h : ∀ x ∈ items, ∃ rt, At t rt x) :
    At (.list t) rt (listFromIter (Ty.list t).dict rt items) ∧
      (listFromIter (Ty.list t).dict rt items).items.map (strip t) = items.map (strip t) := by
  refine ⟨⟨rfl, ?_⟩, ?_⟩
  · intro i x hx
    have hx : (setRuntimeItems t.dict rt 0 items)[i]? = some x := hx
    rw [setRuntimeItems_getElem, Nat.zero_add] at hx
    obtain ⟨y, hy, rfl⟩ := Option.map_eq_some_iff.1 hx
    obtain ⟨r, hr⟩ := h y (List.mem_of_getElem? hy)
    exact (anyLaw t ht.2).at_set _ _ _ hr
  · apply List.ext_getElem?
    intro i
    show ((setRuntimeItems t.dict rt 0 items).map (strip t))[i]? = _
    rw [List.getElem?_map, setRuntimeItems_getElem, List.getElem?_map]
    cases items[i]? with
    | none => rfl
    | some x => exact congrArg some (strip_setRuntime t _ _)

/-! ## C34 -/

/-- C34, `get`: finds exactly the entries. -/
theorem C34_get {α : Type} (v : MapV α) (h : (v.entries.map (·.1)).Nodup) (k : U32) (x : α) :
    mapGet v k = some x ↔ (k, x) ∈ v.entries := by
  refine ⟨entriesGet_mem, fun hm => ?_⟩
  unfold mapGet
  generalize v.entries = es at h hm
  induction es with
  | nil => cases hm
  | cons e es ih =>
    obtain ⟨k', x'⟩ := e
    simp only [List.map_cons, List.nodup_cons] at h
    simp only [entriesGet]
    rcases List.mem_cons.1 hm with he | hm
    · cases he; simp
    · rw [if_neg ?_]
      · exact ih h.2 hm
      · rintro rfl
        exact h.1 (List.mem_map.2 ⟨_, hm, rfl⟩)

/-- C34, `contains`: whether there is an entry. -/
theorem C34_contains {α : Type} (v : MapV α) (k : U32) : mapContains v k = true ↔ ∃ x, (k, x) ∈ v.entries := by
  unfold mapContains
  constructor
  · intro h
    obtain ⟨x, hx⟩ := Option.isSome_iff_exists.1 h
    exact ⟨x, entriesGet_mem hx⟩
  · rintro ⟨x, hx⟩
    obtain ⟨y, hy⟩ := entriesGet_some_of_mem (k := k) (List.mem_map.2 ⟨_, hx, rfl⟩)
    rw [hy]
    rfl

/-- C34, `len`: the number of keys. -/
theorem C34_len {α : Type} (v : MapV α) (ks : List U32) (hn : ks.Nodup) (hv : (v.entries.map (·.1)).Nodup)
    (h : ∀ k, k ∈ ks ↔ mapContains v k = true) : mapLen v = ks.length := by
  have : ks.Perm (v.entries.map (·.1)) := by
    rw [List.perm_ext_iff_of_nodup hn hv]
    intro k
    rw [h, C34_contains]
    simp
  rw [this.length_eq, List.length_map]
  rfl

/-- C34, indexing: the value `get` finds; a panic without one. -/
theorem C34_index {α : Type} (v : MapV α) (k : U32) :
    (∀ x, mapIndex v k = .ok x ↔ mapGet v k = some x) ∧ (mapContains v k = false → mapIndex v k = .error .panic) := by
  constructor
  · intro x
    unfold mapIndex
    cases mapGet v k with
    | none => exact ⟨fun h => (nomatch h), fun h => (nomatch h)⟩
    | some y => simp
  · intro h
    unfold mapIndex mapGet
    unfold mapContains at h
    cases hg : entriesGet k v.entries with
    | none => rfl
    | some y => rw [hg] at h; cases h

theorem entriesGet_insert_if {α : Type} (k j : U32) (x : α) (es : List (U32 × α)) :
    entriesGet j (entriesInsert k x es) = if j = k then some x else entriesGet j es := by
  induction es with
  | nil => simp only [entriesInsert, entriesGet, eq_comm]
  | cons e es ih =>
    obtain ⟨k', x'⟩ := e
    simp only [entriesInsert]
    by_cases h : k' = k
    · subst h
      rw [if_pos rfl]
      simp only [entriesGet]
      by_cases hj : j = k'
      · simp [hj]
      · rw [if_neg (Ne.symm hj), if_neg hj, if_neg (Ne.symm hj)]
    · rw [if_neg h]
      simp only [entriesGet, ih]
      by_cases hj : k' = j
      · subst hj; simp [h]
      · simp [hj]

/-- C34, `insert`: the old value comes back, the lookup changes at that key only, the keys stay in order with a new one last,
and the entry saying so is logged. -/
theorem C34_insert (t : Ty) (ht : t.WF) (m : Mode) (v : MapV t.El) (k : U32) (x : t.El) (hx : Sendable t x) (w : World) :
    ∃ v' w', mapInsert t.dict m v k x w = (.ok (mapGet v k, v'), w') ∧
      (∀ j, mapGet v' j = if j = k then some x else mapGet v j) ∧
      v'.entries.map (·.1) = (if mapContains v k then v.entries.map (·.1) else v.entries.map (·.1) ++ [k]) ∧
      v'.rt = v.rt ∧
      w'.loggers v.rt.logger = appended (w.loggers v.rt.logger) [.update (v.rt.path ++ [k]) (encode t x)] := by
  obtain ⟨w1, h1, hlog⟩ := logUpdateChild_run ht v.rt m k hx w
  refine ⟨{ v with entries := entriesInsert k x v.entries }, w1, ?_, fun j => entriesGet_insert_if k j x v.entries, ?_, rfl, ?_⟩
  · unfold mapInsert
    rw [Exec.bind_of h1]
    rfl
  · simp only [entriesInsert_keys]
    by_cases h : mapContains v k = true
    · obtain ⟨y, hy⟩ := (C34_contains v k).1 h
      rw [if_pos (List.mem_map.2 ⟨_, hy, rfl⟩), if_pos h]
    · rw [if_neg ?_, if_neg h]
      intro hm
      obtain ⟨⟨k', y⟩, hy, rfl⟩ := List.mem_map.1 hm
      exact h ((C34_contains v _).2 ⟨y, hy⟩)
  · unfold Logged at hlog
    rw [hlog]
    simp [under]

/-- C34, `insert_with`: the value the closure returns, likewise. -/
theorem C34_insert_with (t : Ty) (ht : t.WF) (m : Mode) (v : MapV t.El) (k : U32) (f : Rt → Exec t.El) (hf : ClosureSync t f)
    (w : World) :
    ∃ x v' w' w1 w2, mapInsertWith t.dict m v k f w = (.ok (mapGet v k, v'), w') ∧ f (v.rt.nested k) w1 = (.ok x, w2) ∧
      (∀ j, mapGet v' j = if j = k then some x else mapGet v j) ∧
      w'.loggers v.rt.logger = appended (w.loggers v.rt.logger) [.update (v.rt.path ++ [k]) (encode t x)] := by
  obtain ⟨x, w1, hx, hw1, hrun, w2, w3, h3⟩ := paused_run v.rt k w (fun x => mapInsert t.dict m v k x) (closure_run hf v.rt k)
  obtain ⟨v', w', h1, h2, _, _, h4⟩ := C34_insert t ht m v k x hx w1
  refine ⟨x, v', w', w2, w3, ?_, h3, h2, ?_⟩
  · unfold mapInsertWith
    rw [hrun, h1]
  · rw [h4, hw1]

theorem entriesRemove_at {α : Type} (k : U32) (x : α) (xs ys : List (U32 × α)) (hk : k ∉ xs.map (·.1)) :
    entriesRemove k (xs ++ (k, x) :: ys) =
      match ys.getLast? with
      | none => xs
      | some last => xs ++ last :: ys.dropLast := by
  have hf : (xs ++ (k, x) :: ys).findIdx? (fun e => decide (e.1 = k)) = some xs.length := by
    rw [List.findIdx?_append, List.findIdx?_eq_none_iff.2]
    · simp [List.findIdx?_cons]
    · intro e he
      simp only [decide_eq_false_iff_not]
      rintro rfl
      exact hk (List.mem_map.2 ⟨e, he, rfl⟩)
  unfold entriesRemove
  rw [hf]
  rcases List.eq_nil_or_concat ys with rfl | ⟨zs, z, rfl⟩
  · simp
  · rw [List.concat_eq_append]
    have hne : ¬ (xs.length + 1 = (xs ++ (k, x) :: (zs ++ [z])).length) := by simp
    have hla : (xs ++ (k, x) :: (zs ++ [z])).getLast? = some z := by
      rw [← List.cons_append, ← List.append_assoc, List.getLast?_append]; rfl
    simp only [if_neg hne, hla]
    rw [List.set_append_right _ _ (Nat.le_refl _), Nat.sub_self, List.set_cons_zero, ← List.cons_append, ← List.append_assoc,
      List.dropLast_concat, List.dropLast_concat, List.getLast?_append]
    rfl

theorem entriesRemove_absent {α : Type} (k : U32) (es : List (U32 × α)) (hk : k ∉ es.map (·.1)) : entriesRemove k es = es := by
  unfold entriesRemove
  rw [List.findIdx?_eq_none_iff.2]
  intro e he
  simp only [decide_eq_false_iff_not]
  rintro rfl
  exact hk (List.mem_map.2 ⟨e, he, rfl⟩)

theorem entries_split {α : Type} {k : U32} {es : List (U32 × α)} (h : k ∈ es.map (·.1)) :
    ∃ xs x ys, es = xs ++ (k, x) :: ys ∧ k ∉ xs.map (·.1) := by
  induction es with
  | nil => simp at h
  | cons e es ih =>
    obtain ⟨k', x'⟩ := e
    by_cases hk : k' = k
    · subst hk
      exact ⟨[], x', es, rfl, by simp⟩
    · simp only [List.map_cons, List.mem_cons] at h
      obtain ⟨xs, x, ys, rfl, h2⟩ := ih (h.resolve_left (Ne.symm hk))
      exact ⟨(k', x') :: xs, x, ys, rfl, by simp [h2, Ne.symm hk]⟩

theorem entriesRemove_iff {α : Type} (k : U32) (es : List (U32 × α)) (h : (es.map (·.1)).Nodup) (e : U32 × α) :
    e ∈ entriesRemove k es ↔ e ∈ es ∧ e.1 ≠ k := by
  by_cases hk : k ∈ es.map (·.1)
  · obtain ⟨xs, x, ys, rfl, h2⟩ := entries_split hk
    have h3 : k ∉ ys.map (·.1) := by
      rw [List.map_append, List.map_cons, List.nodup_append] at h
      exact (List.nodup_cons.1 h.2.1).1
    have hx : ∀ e ∈ xs, e.1 ≠ k := fun e he h => h2 (h ▸ List.mem_map.2 ⟨e, he, rfl⟩)
    have hy : ∀ e ∈ ys, e.1 ≠ k := fun e he h => h3 (h ▸ List.mem_map.2 ⟨e, he, rfl⟩)
    rw [entriesRemove_at k x xs ys h2]
    rcases List.eq_nil_or_concat ys with rfl | ⟨zs, z, rfl⟩
    · simp only [List.getLast?_nil, List.mem_append, List.mem_singleton]
      refine ⟨fun h => ⟨.inl h, hx _ h⟩, fun h => h.1.resolve_right ?_⟩
      rintro rfl
      exact h.2 rfl
    · rw [List.concat_eq_append] at hy ⊢
      have hla : (zs ++ [z]).getLast? = some z := by simp
      simp only [hla, List.dropLast_concat, List.mem_append, List.mem_cons, List.mem_singleton, List.not_mem_nil, or_false] at hy ⊢
      constructor
      · rintro (h | h | h)
        · exact ⟨.inl h, hx _ h⟩
        · exact ⟨.inr (.inr (.inr h)), hy _ (.inr h)⟩
        · exact ⟨.inr (.inr (.inl h)), hy _ (.inl h)⟩
      · rintro ⟨h | h | h | h, hne⟩
        · exact .inl h
        · exact absurd (by rw [h]) hne
        · exact .inr (.inr h)
        · exact .inr (.inl h)
  · rw [entriesRemove_absent k es hk]
    exact ⟨fun he => ⟨he, fun h => hk (h ▸ List.mem_map.2 ⟨e, he, rfl⟩)⟩, fun h => h.1⟩

/-- C34, `remove`: the value comes back, the key is gone and no other, and an entry is logged. -/
theorem C34_remove {α : Type} (v : MapV α) (hv : (v.entries.map (·.1)).Nodup) (k : U32) (w : World) :
    ∃ v' w', mapRemove v k w = (.ok (mapGet v k, v'), w') ∧
      (∀ j, mapGet v' j = if j = k then none else mapGet v j) ∧ (v'.entries.map (·.1)).Nodup ∧ v'.rt = v.rt ∧
      w'.loggers v.rt.logger = appended (w.loggers v.rt.logger) [.mapRemove v.rt.path k] := by
  obtain ⟨w1, h1, h2⟩ := log_run v.rt (.mapRemove v.rt.path k) w
  have hn := entriesRemove_nodup k v.entries hv
  refine ⟨{ v with entries := entriesRemove k v.entries }, w1, ?_, ?_, hn, rfl, h2⟩
  · unfold mapRemove Rt.logMapRemove
    rw [Exec.bind_of h1]
    rfl
  · intro j
    apply Option.ext
    intro x
    rw [C34_get _ hn]
    show (j, x) ∈ entriesRemove k v.entries ↔ _
    rw [entriesRemove_iff k _ hv]
    by_cases hj : j = k
    · simp [hj]
    · rw [if_neg hj, C34_get _ hv]
      simp [hj]

/-- C34, `remove`, where the entries are afterwards: the last one has taken the place of the removed one. -/
theorem C34_remove_order {α : Type} (v : MapV α) (k : U32) (x : α) (xs ys : List (U32 × α))
    (hk : ∀ e ∈ xs, e.1 ≠ k) (w : World) (v' : MapV α) (o : Option α) (w' : World)
    (h : mapRemove v k w = (.ok (o, v'), w')) :
    (∀ last, v.entries = xs ++ (k, x) :: ys ++ [last] → v'.entries = xs ++ last :: ys) ∧
    (v.entries = xs ++ [(k, x)] → v'.entries = xs) ∧ ((∀ e ∈ v.entries, e.1 ≠ k) → v'.entries = v.entries) := by
  obtain ⟨w1, h1, -⟩ := log_run v.rt (.mapRemove v.rt.path k) w
  have hr : mapRemove v k w = (.ok (entriesGet k v.entries, { v with entries := entriesRemove k v.entries }), w1) := by
    unfold mapRemove Rt.logMapRemove
    rw [Exec.bind_of h1]
    rfl
  rw [hr] at h
  cases h
  have hk' : k ∉ xs.map (·.1) := by
    intro hm
    obtain ⟨e, he, h⟩ := List.mem_map.1 hm
    exact hk e he h
  refine ⟨fun last hv => ?_, fun hv => ?_, fun hv => ?_⟩
  · show entriesRemove k v.entries = _
    rw [hv, List.append_assoc, List.cons_append, entriesRemove_at k x xs _ hk']
    simp
  · show entriesRemove k v.entries = _
    rw [hv, entriesRemove_at k x xs _ hk']
    rfl
  · refine entriesRemove_absent k _ ?_
    intro hm
    obtain ⟨e, he, h⟩ := List.mem_map.1 hm
    exact hv e he h

/-- C34, `get_mut`: a call on one value changes the lookup at its key only; without a value nothing happens. -/
theorem C34_get_mut (kt : KeyTy) (t : Ty) (m : Mode) (k : U32) (op : t.Op) (v v' : MapV t.El) (w w' : World)
    (h : (Ty.map kt t).run m (.value k op) v w = (.ok v', w')) :
    (∀ x, mapGet v k = some x → ∃ x', t.run m op x w = (.ok x', w') ∧
      (∀ j, mapGet v' j = if j = k then some x' else mapGet v j) ∧ v'.entries.map (·.1) = v.entries.map (·.1)) ∧
      (mapGet v k = none → v' = v ∧ w' = w) := by
  simp only [Ty.run, runMap] at h
  unfold mapGet
  cases hx : entriesGet k v.entries with
  | none =>
    rw [hx] at h
    cases h
    exact ⟨fun _ h => (nomatch h), fun _ => ⟨rfl, rfl⟩⟩
  | some x =>
    rw [hx] at h
    obtain ⟨x', w1, h1, h2⟩ := Exec.bind_ok h
    cases h2
    refine ⟨fun y hy => ?_, fun h => nomatch h⟩
    cases hy
    refine ⟨x', h1, fun j => entriesGet_insert_if k j x' v.entries, ?_⟩
    simp only [entriesInsert_keys]
    rw [if_pos (List.mem_map.2 ⟨_, entriesGet_mem hx, rfl⟩)]

/-- C34 for whole histories: after any number of calls, none of which panics, the keys are distinct and looking one up gives what
looking it up in a partial function gives on which the same calls were made. -/
theorem C34_history (kt : KeyTy) (t : Ty) (ht : t.WF) (m : Mode) : ∀ (ops : List (FinOp t.El)) (v : MapV t.El) (w : World),
    (v.entries.map (·.1)).Nodup → (∀ op ∈ ops, ∀ k x, op = .insert k x → Sendable t x) →
    ∃ v' w', calls (.map kt t) m (ops.map FinOp.ofCall) v w = (.ok v', w') ∧ (v'.entries.map (·.1)).Nodup ∧
      mapGet v' = ops.foldl FinOp.apply (mapGet v)
  | [], v, w, hv, _ => ⟨v, w, rfl, hv, rfl⟩
  | op :: ops, v, w, hv, hops => by
    suffices step : ∃ v1 w1, (Ty.map kt t).run m op.ofCall v w = (.ok v1, w1) ∧ (v1.entries.map (·.1)).Nodup ∧
        mapGet v1 = op.apply (mapGet v) by
      obtain ⟨v1, w1, h1, hv1, h2⟩ := step
      obtain ⟨v2, w2, h3, hv2, h4⟩ := C34_history kt t ht m ops v1 w1 hv1 (fun o ho => hops o (List.mem_cons_of_mem _ ho))
      exact ⟨v2, w2, (Exec.bind_of h1).trans h3, hv2, by rw [h4, h2]; rfl⟩
    cases op with
    | insert k x =>
      obtain ⟨v', w', h1, h2, h3, _⟩ := C34_insert t ht m v k x (hops _ (List.mem_cons_self ..) k x rfl) w
      refine ⟨v', w', Exec.map_of h1, ?_, funext h2⟩
      rw [h3]
      split
      · exact hv
      · next h =>
        rw [List.nodup_append]
        refine ⟨hv, by simp, ?_⟩
        rintro a ha b hb rfl
        rw [List.mem_singleton] at hb
        subst hb
        obtain ⟨⟨k', y⟩, hy, rfl⟩ := List.mem_map.1 ha
        exact h ((C34_contains v _).2 ⟨y, hy⟩)
    | remove k =>
      obtain ⟨v', w', h1, h2, h3, _⟩ := C34_remove v hv k w
      exact ⟨v', w', Exec.map_of h1, h3, funext h2⟩

/-- Not vacuous: two keys, the first then replaced, the second removed, an absent one removed. -/
example (w : World) : ∃ v' w', calls (.map .u8 (.list (.uint .w8))) .debug
      (([.insert 1#32 (cItem 1#8), .insert 2#32 (cItem 2#8), .insert 1#32 (cItem 3#8), .remove 2#32, .remove 5#32] :
        List (FinOp (Ty.list (.uint .w8)).El)).map FinOp.ofCall) ⟨⟨4, []⟩, []⟩ w = (.ok v', w') ∧
    mapGet v' 1#32 = some (cItem 3#8) ∧ mapGet v' 2#32 = none := by
  obtain ⟨v', w', h1, _, h2⟩ := C34_history .u8 (.list (.uint .w8)) ⟨rfl, trivial⟩ .debug
    [.insert 1#32 (cItem 1#8), .insert 2#32 (cItem 2#8), .insert 1#32 (cItem 3#8), .remove 2#32, .remove 5#32]
    ⟨⟨4, []⟩, []⟩ w (by simp) (by
      intro op hop k x h
      subst h
      simp only [List.mem_cons, List.not_mem_nil, or_false, FinOp.insert.injEq, reduceCtorEq] at hop
      rcases hop with ⟨_, rfl⟩ | ⟨_, rfl⟩ | ⟨_, rfl⟩ <;> exact cItem_sendable _)
  exact ⟨v', w', h1, by rw [h2]; rfl, by rw [h2]; rfl⟩

/-- C34, `from_iter`: keys distinct, every value at its address, and a later pair wins over an earlier one with its key. -/
theorem C34_from_iter (kt : KeyTy) (t : Ty) (ht : (Ty.map kt t).WF) (rt : Rt) (pairs : List (U32 × t.El))
    (h : ∀ e ∈ pairs, ∃ rt, At t rt e.2) :
    At (.map kt t) rt (mapFromIter (Ty.map kt t).dict rt pairs) ∧
      ∀ k, (mapGet (mapFromIter (Ty.map kt t).dict rt pairs) k).map (strip t) =
        ((pairs.reverse.find? (fun e => e.1 = k)).map (fun e => strip t e.2)) := by
  have key : ∀ (pairs : List (U32 × t.El)) (es : List (U32 × t.El)), (es.map (·.1)).Nodup → (∀ e ∈ es, ∃ rt, At t rt e.2) →
      (∀ e ∈ pairs, ∃ rt, At t rt e.2) →
      ((pairs.foldl (fun es e => entriesInsert e.1 e.2 es) es).map (·.1)).Nodup ∧
      (∀ e ∈ pairs.foldl (fun es e => entriesInsert e.1 e.2 es) es, ∃ rt, At t rt e.2) ∧
      ∀ k, entriesGet k (pairs.foldl (fun es e => entriesInsert e.1 e.2 es) es) =
        ((pairs.reverse.find? (fun e => e.1 = k)).map (·.2)).or (entriesGet k es) := by
    intro pairs
    induction pairs with
    | nil => intro es h1 h2 h3; exact ⟨h1, h2, fun k => by simp⟩
    | cons e pairs ih =>
      intro es h1 h2 h3
      obtain ⟨i1, i2, i3⟩ := ih (entriesInsert e.1 e.2 es) (entriesInsert_nodup _ _ _ h1) (fun e' he' => by
        rcases entriesInsert_mem he' with h | rfl
        · exact h2 _ h
        · exact h3 e (List.mem_cons_self ..)) (fun e' he' => h3 e' (List.mem_cons_of_mem _ he'))
      refine ⟨i1, i2, fun k => ?_⟩
      rw [List.foldl_cons, i3, entriesGet_insert_if, List.reverse_cons, List.find?_append]
      cases pairs.reverse.find? (fun e => decide (e.1 = k)) with
      | some y => simp
      | none =>
        by_cases hk : k = e.1
        · subst hk; simp
        · simp [hk, Ne.symm hk]
  obtain ⟨k1, k2, k3⟩ := key pairs [] (by simp) (by simp) h
  refine ⟨⟨rfl, ?_, ?_⟩, ?_⟩
  · show ((List.map (fun e : U32 × t.El => (e.1, t.dict.setRuntime (rt.nested e.1) e.2)) _).map (·.1)).Nodup
    rw [List.map_map]
    exact k1
  · intro e he
    obtain ⟨e', he', rfl⟩ := List.mem_map.1 he
    obtain ⟨r, hr⟩ := k2 e' he'
    exact (anyLaw t ht.2).at_set _ _ _ hr
  · intro k
    have hg := k3 k
    show (entriesGet k (List.map (fun e : U32 × t.El => (e.1, t.dict.setRuntime (rt.nested e.1) e.2)) _)).map (strip t) = _
    have hs : (List.map (fun e => (e.1, t.dict.setRuntime (rt.nested e.1) e.2))
          (pairs.foldl (fun es e => entriesInsert e.1 e.2 es) [])).map (fun e => (e.1, strip t e.2)) =
        (pairs.foldl (fun es e => entriesInsert e.1 e.2 es) []).map (fun e => (e.1, strip t e.2)) := by
      rw [List.map_map]
      exact List.map_congr_left (fun e _ => by simp only [Function.comp, strip_setRuntime])
    rw [← entriesGet_map, hs, entriesGet_map, hg]
    cases pairs.reverse.find? (fun e => decide (e.1 = k)) <;> simp [entriesGet]

/-- Not vacuous: three pairs, two of them with the same key. -/
example : (mapFromIter (Ty.map .u8 (.list (.uint .w8))).dict ⟨4, [6#32]⟩
    [(1#32, cItem 1#8), (2#32, cItem 2#8), (1#32, cItem 3#8)]).entries =
      [(1#32, ⟨⟨4, [6#32, 1#32]⟩, [3#8]⟩), (2#32, ⟨⟨4, [6#32, 2#32]⟩, [2#8]⟩)] := rfl

end Steit
