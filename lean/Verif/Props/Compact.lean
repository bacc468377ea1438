import Verif.Props.Again
import Verif.Props.Sync
import Verif.Props.Agreement
import Verif.Lemmas.Compact

/-!
# Which entries of a log can be left out, and which can change places: property C85

A log that is kept for late replicas grows with every call. Entries for an object can be left out if a later one replaces or removes the
object; entries for an object can be moved past entries that leave it alone.
-/

namespace Steit
open Spec Prog

theorem applyAll_applies {t : Ty} {m : Mode} : ∀ {es : List Entry} {v v' : t.El}, applyAll t.dict m v es = .ok v' →
    Applies (t.dict.handle m) v es v'
  | [], v, v', h => by cases h; rfl
  | e :: es, v, v', h => by
    simp only [applyAll] at h
    cases he : applyEntry t.dict m v e with
    | err _ _ => rw [he] at h; cases h
    | ok u r =>
      rw [he] at h
      exact ⟨u, r, he, applyAll_applies h⟩

theorem replay_applies {t : Ty} {m : Mode} {v v' : t.El} {es : List Entry} {r : Bytes} (hfit : ∀ e ∈ es, Fits e)
    (hr : t.dict.isRoot v = .ok true) :
    replay t.dict m v (es.flatMap entryBytes) = .ok v' r ↔ Applies (t.dict.handle m) v es v' ∧ r = [] := by
  constructor
  · intro h
    obtain ⟨-, h1, h2⟩ := replay_applyAll hfit h
    exact ⟨applyAll_applies h1, h2⟩
  · rintro ⟨h, rfl⟩
    rw [replay_eq _ _ _ _ hfit hr, applyAll_of_applies h]
    rfl

theorem mem_without {p : List U32} {es : List Entry} {e : Entry} (h : e ∈ without p es) : e ∈ es := (List.mem_filter.1 h).1

theorem applies_compact {t : Ty} (ht : t.WF) (hs : t.isState = true) {rt : Rt} (m : Mode) {p : List U32} {s : Ty} {es : List Entry}
    (hes : ∀ e ∈ es, Within p e ∨ Aside p e) {e : Entry} (he : Erases p e) {later : List Entry} {v v' : t.El} {u : s.El} {put : s.El → t.El}
    (hp : Part t v p s u put) (hv : At t rt v) (h : Applies (t.dict.handle m) v (es ++ e :: later) v') :
    Applies (t.dict.handle m) v (without p es ++ e :: later) v' := by
  obtain ⟨v1, h1, v2, r, h2, h3⟩ := h.split
  have hat1 := applies_at ht hs hv h1
  obtain ⟨u', put', -, h5, rfl⟩ := applies_split ht hs m hes hp hv h1
  have h6 := (h5 u).1
  rw [part_self hp] at h6
  have hat2 := applies_at ht hs hv h6
  have h7 : (applyE (t.dict.handle m) (put' u) e).got = some v2 := by
    rw [← got_erases (h5 u).2 ht hs m u' u hat1 hat2 he, h2]
    rfl
  obtain ⟨r', h8⟩ := Res.got_some.1 h7
  exact h6.trans ⟨v2, r', h8, h3⟩

/-- C85: a log consists of entries `es`, an entry `e`, and more. Before it is replayed the replica has an object at `p`; each of `es` is
for this object (or something inside it) or leaves it alone; `e` replaces or removes the object or something around it. If the log can be
replayed, then so can the log without the entries for the object before `e`, and it leaves the replica in exactly the same state. -/
theorem C85_overwritten (t : Ty) (ht : t.WF) (hs : t.isState = true) (m m' : Mode) (μ μ' : Nat → Mem) (rt : Rt) (p : List U32) (s : Ty)
    (es : List Entry) (hes : ∀ e ∈ es, Within p e ∨ Aside p e) (e : Entry) (he : Erases p e) (later : List Entry)
    (hfit : ∀ x ∈ es ++ e :: later, Fits x) (log short : Bytes) (hlog : (BufferLogger.mk (es ++ e :: later)).bytes m' μ = .ok log)
    (hshort : (BufferLogger.mk (without p es ++ e :: later)).bytes m' μ' = .ok short) (v v' : t.El) (r : Bytes) (u : s.El)
    (put : s.El → t.El) (hp : Part t v p s u put) (hv : At t rt v) (h : replay t.dict m v log = .ok v' r) :
    replay t.dict m v short = .ok v' r := by
  have hfit' : ∀ x ∈ without p es ++ e :: later, Fits x := by
    intro x hx
    rcases List.mem_append.1 hx with hx | hx
    · exact hfit x (List.mem_append_left _ (mem_without hx))
    · exact hfit x (List.mem_append_right _ hx)
  rw [bytes_eq m' μ ⟨_⟩ hfit] at hlog
  rw [bytes_eq m' μ' ⟨_⟩ hfit'] at hshort
  cases hlog
  cases hshort
  have hr := replay_root h
  rw [replay_applies hfit hr] at h
  exact (replay_applies hfit' hr).2 ⟨applies_compact ht hs m hes he hp hv h.1, h.2⟩

/-- C85: two logs of entries that are for the object at `p` or leave it alone, with the same entries for the object in the same order, and
the same other entries in the same order. One can be replayed if and only if the other can, and with exactly the same result. -/
theorem C85_reorder (t : Ty) (ht : t.WF) (hs : t.isState = true) (m m' : Mode) (μ μ' : Nat → Mem) (rt : Rt) (p : List U32) (s : Ty)
    (es es' : List Entry) (hes : ∀ e ∈ es, Within p e ∨ Aside p e) (hes' : ∀ e ∈ es', Within p e ∨ Aside p e)
    (hin : es'.filter (fun e => decide (Within p e)) = es.filter (fun e => decide (Within p e))) (hout : without p es' = without p es)
    (hfit : ∀ x ∈ es, Fits x) (hfit' : ∀ x ∈ es', Fits x) (log log' : Bytes) (hlog : (BufferLogger.mk es).bytes m' μ = .ok log)
    (hlog' : (BufferLogger.mk es').bytes m' μ' = .ok log') (v v' : t.El) (r : Bytes) (u : s.El) (put : s.El → t.El)
    (hp : Part t v p s u put) (hv : At t rt v) :
    replay t.dict m v log = .ok v' r ↔ replay t.dict m v log' = .ok v' r := by
  rw [bytes_eq m' μ ⟨_⟩ hfit] at hlog
  rw [bytes_eq m' μ' ⟨_⟩ hfit'] at hlog'
  cases hlog
  cases hlog'
  have key : ∀ {es es' : List Entry}, (∀ e ∈ es, Within p e ∨ Aside p e) → (∀ e ∈ es', Within p e ∨ Aside p e) →
      es'.filter (fun e => decide (Within p e)) = es.filter (fun e => decide (Within p e)) → without p es' = without p es →
      Applies (t.dict.handle m) v es v' → Applies (t.dict.handle m) v es' v' := by
    intro es es' hes hes' hin hout h
    obtain ⟨u', put', ⟨A, h1, h2⟩, h3, rfl⟩ := applies_split ht hs m hes hp hv h
    exact applies_join ht hs m hes' hp hv (hin.trans h1) h2 (fun y => by rw [hout]; exact (h3 y).1)
  constructor
  · intro h
    have hr := replay_root h
    rw [replay_applies hfit hr] at h
    exact (replay_applies hfit' hr).2 ⟨key hes hes' hin hout h.1, h.2⟩
  · intro h
    have hr := replay_root h
    rw [replay_applies hfit' hr] at h
    exact (replay_applies hfit hr).2 ⟨key hes' hes hin.symm hout.symm h.1, h.2⟩

/-- C85: a replica that is sent, in place of the log of a history of calls, the log without overwritten entries, equals the source. -/
theorem C85_replica (t : Ty) (ht : t.WF) (hs : t.isState = true) (hpr : shape t ≠ .prim) (hb : ¬ (shape t = .enum ∧ isBox t = true))
    (m m' : Mode) (μ : Nat → Mem) (id id' : Nat) (ops : List t.Op) (v r : t.El) (w : World) (hv : At t ⟨id, []⟩ v) (hc : Carried t v)
    (hr : At t ⟨id', []⟩ r) (hsame : Same t r v) (hw : w.loggers id = ⟨0, []⟩) (hops : CallsSync t m ops v w) :
    ∃ v' w', calls t m ops v w = (.ok v', w') ∧ ∀ (p : List U32) (s : Ty) (u : s.El) (put : s.El → t.El) (es later : List Entry) (e : Entry),
      Part t r p s u put → (w'.loggers id).entries = es ++ e :: later → (∀ e ∈ es, Within p e ∨ Aside p e) → Erases p e →
      (∀ e ∈ (w'.loggers id).entries, Fits e) →
      ∃ short r', (BufferLogger.mk (without p es ++ e :: later)).bytes m μ = .ok short ∧ replay t.dict m' r short = .ok r' [] ∧
        t.eq r' v' = true := by
  obtain ⟨v', w', h1, -, -, -, h2⟩ := C24_replica_follows t ht hs hpr hb m m' μ id id' ops v r w hv hc hr hsame hw hops
  refine ⟨v', w', h1, fun p s u put es later e hp hsplit hes he hfit => ?_⟩
  obtain ⟨bytes, r', h3, h4, -, h5, -⟩ := h2 hfit
  rw [hsplit] at hfit h3
  have hshort := bytes_eq m μ ⟨without p es ++ e :: later⟩ (fun x hx => by
    rcases List.mem_append.1 hx with hx | hx
    · exact hfit x (List.mem_append_left _ (mem_without hx))
    · exact hfit x (List.mem_append_right _ hx))
  exact ⟨_, r', hshort, C85_overwritten t ht hs m' m μ μ _ p s es hes e he later hfit bytes _ h3 hshort r r' [] u put hp hr h4, h5⟩

/-! ## Where it ends -/

/-- C85 is false of objects that are not there yet: a value is put into a map and removed again. Without the entry that puts it there the
removal is refused, and with it whatever follows. -/
theorem C85_absent_false (m m' : Mode) (μ μ' : Nat → Mem) :
    ∃ log short, (BufferLogger.mk [.update [5#32] [1#8], .mapRemove [] 5#32]).bytes m' μ = .ok log ∧
      (BufferLogger.mk (without [5#32] [.update [5#32] [1#8]] ++ [.mapRemove [] 5#32])).bytes m' μ' = .ok short ∧
      replay (Ty.map .u8 (.uint .w8)).dict m ⟨⟨9, []⟩, []⟩ log = .ok ⟨⟨9, []⟩, []⟩ [] ∧
      replay (Ty.map .u8 (.uint .w8)).dict m ⟨⟨9, []⟩, []⟩ short = .err ⟨⟨9, []⟩, []⟩ .invalidData := by
  have hfit : ∀ e ∈ [Entry.update [5#32] [1#8], .mapRemove [] 5#32], CsFits e := by unfold CsFits; decide +kernel
  have hfit' : ∀ e ∈ [Entry.mapRemove [] 5#32], CsFits e := by unfold CsFits; decide +kernel
  refine ⟨_, _, bytes_eq m' μ ⟨_⟩ fun e he => fits_of (hfit e he), bytes_eq m' μ' ⟨[.mapRemove [] 5#32]⟩ fun e he => fits_of (hfit' e he), ?_, ?_⟩
  · exact replayed hfit rfl (by cases m <;> rfl)
  · exact replayed hfit' rfl (by cases m <;> rfl)

/-- C85 is false of two new keys: they leave each other alone, but a `Map` is an `IndexMap` and remembers which came first. The replicas
iterate in another order, and send other bytes. -/
theorem C85_order_false (m m' : Mode) (μ μ' : Nat → Mem) :
    Aside [3#32] (.update [5#32] [1#8]) ∧ Aside [5#32] (.update [3#32] [2#8]) ∧
    ∃ log log', (BufferLogger.mk [.update [5#32] [1#8], .update [3#32] [2#8]]).bytes m' μ = .ok log ∧
      (BufferLogger.mk [.update [3#32] [2#8], .update [5#32] [1#8]]).bytes m' μ' = .ok log' ∧
      replay (Ty.map .u8 (.uint .w8)).dict m ⟨⟨9, []⟩, []⟩ log = .ok ⟨⟨9, []⟩, [(5#32, 1#8), (3#32, 2#8)]⟩ [] ∧
      replay (Ty.map .u8 (.uint .w8)).dict m ⟨⟨9, []⟩, []⟩ log' = .ok ⟨⟨9, []⟩, [(3#32, 2#8), (5#32, 1#8)]⟩ [] ∧
      encode (.map .u8 (.uint .w8)) ⟨⟨9, []⟩, [(5#32, 1#8), (3#32, 2#8)]⟩ ≠
        encode (.map .u8 (.uint .w8)) ⟨⟨9, []⟩, [(3#32, 2#8), (5#32, 1#8)]⟩ := by
  have hfit : ∀ e ∈ [Entry.update [5#32] [1#8], .update [3#32] [2#8]], CsFits e := by unfold CsFits; decide +kernel
  have hfit' : ∀ e ∈ [Entry.update [3#32] [2#8], .update [5#32] [1#8]], CsFits e := by unfold CsFits; decide +kernel
  refine ⟨by unfold Aside; decide, by unfold Aside; decide, _, _, bytes_eq m' μ ⟨_⟩ fun e he => fits_of (hfit e he),
    bytes_eq m' μ' ⟨_⟩ fun e he => fits_of (hfit' e he), ?_, ?_, by decide +kernel⟩
  · exact replayed hfit rfl (by cases m <;> rfl)
  · exact replayed hfit' rfl (by cases m <;> rfl)

/-! ## Not vacuous -/

/-- A replica with one value in its map. -/
abbrev compactStart : againTyE.El := ⟨⟨9, []⟩, (1#8, ⟨⟨9, [1#32]⟩, [(5#32, ⟨⟨9, [1#32, 5#32, 0#32]⟩, .inl (2#8, ())⟩)]⟩, ())⟩

/-- The value is changed twice, and once more replaced; in between, another field is set and another value is put into the map. -/
abbrev compactLog : List Entry := [.update [1#32, 5#32, 0#32, 0#32] [6#8], .update [0#32] [9#8], .update [1#32, 5#32] [0#8, 0#8, 4#8],
  .update [1#32, 6#32] [1#8]]

theorem compactStart_part : Part againTyE compactStart [1#32, 5#32] againEnum ⟨⟨9, [1#32, 5#32, 0#32]⟩, .inl (2#8, ())⟩
    (fun x => ⟨⟨9, []⟩, (1#8, ⟨⟨9, [1#32]⟩, [(5#32, x)]⟩, ())⟩) :=
  .inside (p := [1#32]) (q := [5#32]) (.field (v := compactStart) (.tail (.head rfl)))
    (.inside (p := [5#32]) (q := []) (.value (pre := []) (post := []) rfl (fun _ h => nomatch h)) .self)

theorem compactStart_at : At againTyE ⟨9, []⟩ compactStart := by
  have h : replay againTyE.dict .release (againTyE.dict.withRuntime ⟨9, []⟩)
      ([Entry.update [0#32] [1#8], .update [1#32, 5#32] [0#8, 0#8, 2#8]].flatMap entryBytes) = .ok compactStart [] :=
    replayed (by unfold CsFits; decide +kernel) rfl rfl
  have := replay_at againTyE againTyE_wf rfl .release ⟨9, []⟩ ((anyLaw againTyE againTyE_wf).at_new ⟨9, []⟩)
    ([Entry.update [0#32] [1#8], .update [1#32, 5#32] [0#8, 0#8, 2#8]].flatMap entryBytes)
  rw [h] at this
  exact this

theorem compactLog_sorted : ∀ e ∈ compactLog, Within [1#32, 5#32] e ∨ Aside [1#32, 5#32] e := by
  intro e he
  simp only [compactLog, List.mem_cons, List.not_mem_nil, or_false] at he
  rcases he with rfl | rfl | rfl | rfl
  · exact .inl ⟨[0#32, 0#32], rfl⟩
  · exact .inr (by unfold Aside; decide)
  · exact .inl ⟨[], rfl⟩
  · exact .inr (by unfold Aside; decide)

/-- The value is removed in the end: what happened to it before need not be sent. -/
example (μ μ' : Nat → Mem) : ∃ log short v', (BufferLogger.mk (compactLog ++ [.mapRemove [1#32] 5#32])).bytes .debug μ = .ok log ∧
    (BufferLogger.mk [.update [0#32] [9#8], .update [1#32, 6#32] [1#8], .mapRemove [1#32] 5#32]).bytes .debug μ' = .ok short ∧
    replay againTyE.dict .release compactStart log = .ok v' [] ∧ replay againTyE.dict .release compactStart short = .ok v' [] := by
  have hfit : ∀ e ∈ compactLog ++ [Entry.mapRemove [1#32] 5#32], CsFits e := by unfold CsFits; decide +kernel
  have hfit' : ∀ e ∈ [Entry.update [0#32] [9#8], .update [1#32, 6#32] [1#8], .mapRemove [1#32] 5#32], CsFits e := by
    unfold CsFits; decide +kernel
  have hlog := bytes_eq .debug μ ⟨compactLog ++ [.mapRemove [1#32] 5#32]⟩ fun e he => fits_of (hfit e he)
  have hshort := bytes_eq .debug μ' ⟨without [1#32, 5#32] compactLog ++ [.mapRemove [1#32] 5#32]⟩ fun e he => fits_of (hfit' e he)
  have h : replay againTyE.dict .release compactStart ((compactLog ++ [Entry.mapRemove [1#32] 5#32]).flatMap entryBytes) =
      .ok ⟨⟨9, []⟩, (9#8, ⟨⟨9, [1#32]⟩, [(6#32, ⟨⟨9, [1#32, 6#32, 1#32]⟩, .inr (.inl ())⟩)]⟩, ())⟩ [] := replayed hfit rfl rfl
  exact ⟨_, _, _, hlog, hshort, h, C85_overwritten againTyE againTyE_wf rfl .release .debug μ μ' ⟨9, []⟩ [1#32, 5#32] againEnum
    compactLog compactLog_sorted (.mapRemove [1#32] 5#32) ⟨[], rfl⟩ [] (fun e he => fits_of (hfit e he)) _ _ hlog hshort _ _ _ _ _
    compactStart_part compactStart_at h⟩

/-- The entries for the value after all the others. -/
example (μ μ' : Nat → Mem) : ∃ log log' v', (BufferLogger.mk compactLog).bytes .debug μ = .ok log ∧
    (BufferLogger.mk [.update [0#32] [9#8], .update [1#32, 6#32] [1#8], .update [1#32, 5#32, 0#32, 0#32] [6#8],
      .update [1#32, 5#32] [0#8, 0#8, 4#8]]).bytes .debug μ' = .ok log' ∧
    replay againTyE.dict .release compactStart log = .ok v' [] ∧ replay againTyE.dict .release compactStart log' = .ok v' [] := by
  have hfit : ∀ e ∈ compactLog, CsFits e := by unfold CsFits; decide +kernel
  have hfit' : ∀ e ∈ [Entry.update [0#32] [9#8], .update [1#32, 6#32] [1#8], .update [1#32, 5#32, 0#32, 0#32] [6#8],
      .update [1#32, 5#32] [0#8, 0#8, 4#8]], CsFits e := by unfold CsFits; decide +kernel
  have hlog := bytes_eq .debug μ ⟨compactLog⟩ fun e he => fits_of (hfit e he)
  have hlog' := bytes_eq .debug μ' ⟨[.update [0#32] [9#8], .update [1#32, 6#32] [1#8], .update [1#32, 5#32, 0#32, 0#32] [6#8],
      .update [1#32, 5#32] [0#8, 0#8, 4#8]]⟩ fun e he => fits_of (hfit' e he)
  have h : replay againTyE.dict .release compactStart (compactLog.flatMap entryBytes) =
      .ok ⟨⟨9, []⟩, (9#8, ⟨⟨9, [1#32]⟩, [(5#32, ⟨⟨9, [1#32, 5#32, 0#32]⟩, .inl (4#8, ())⟩),
        (6#32, ⟨⟨9, [1#32, 6#32, 1#32]⟩, .inr (.inl ())⟩)]⟩, ())⟩ [] := replayed hfit rfl rfl
  refine ⟨_, _, _, hlog, hlog', h, (C85_reorder againTyE againTyE_wf rfl .release .debug μ μ' ⟨9, []⟩ [1#32, 5#32] againEnum compactLog _
    compactLog_sorted ?_ (by decide) (by decide) (fun e he => fits_of (hfit e he)) (fun e he => fits_of (hfit' e he)) _ _ hlog hlog' _ _ _ _ _
    compactStart_part compactStart_at).1 h⟩
  intro e he
  simp only [List.mem_cons, List.not_mem_nil, or_false] at he
  rcases he with rfl | rfl | rfl | rfl
  · exact .inr (by unfold Aside; decide)
  · exact .inr (by unfold Aside; decide)
  · exact .inl ⟨[0#32, 0#32], rfl⟩
  · exact .inl ⟨[], rfl⟩

/-- A push to a list, an insertion elsewhere, and a setter replacing the list. -/
def compactOps : List hTy.Op :=
  [ .inl (.inner (.push (7#8 : BitVec 8))), .inr (.inl (.inner (.insertWith 3#32 hNew))), .inl (.set ⟨Rt.dflt, [1#8]⟩) ]

theorem compactOps_ok (w : World) : CallsSync hTy .debug compactOps (hVal [] [] (hA 0)) w := by
  have s8 : ∀ n : BitVec 8, Sendable (.uint .w8) n := by
    intro n
    refine ⟨trivial, ?_⟩
    show (leb n.toNat).length < _
    have := leb_length_le 4 n.toNat (by have := n.isLt; omega)
    omega
  refine callsSync_cons (v1 := hVal [7#8] [] (hA 0)) ?_ ?_ (fun _ => rfl) ?_ w
  · exact ⟨Rt.dflt, trivial⟩
  · exact ⟨rfl, s8 _⟩
  refine callsSync_cons (v1 := hVal [7#8] [(3#32, ⟨⟨4, [1#32, 3#32]⟩, [5#8]⟩)] (hA 0)) hNew_ok.1
    ⟨rfl, by decide, by decide, hNew_ok.2⟩ (fun _ => rfl) ?_
  refine callsSync_cons (v1 := hVal [1#8] [(3#32, ⟨⟨4, [1#32, 3#32]⟩, [5#8]⟩)] (hA 0)) ?_ ?_ (fun _ => rfl) (fun _ => trivial)
  · exact ⟨Rt.dflt, rfl, fun _ _ _ => trivial⟩
  · refine ⟨rfl, fun _ _ => trivial, ?_⟩
    show (leb 1 ++ []).length < _
    rw [leb_eq_lebF]; decide

/-- The replica is not told of the push, and equals the source. -/
example (m' : Mode) (μ : Nat → Mem) :
    ∃ v' w' i, calls hTy .debug compactOps (hVal [] [] (hA 0)) hWorld = (.ok v', w') ∧
      (w'.loggers 4).entries = [.listPush [0#32] [7#8], .update [1#32, 3#32] i, .update [0#32] [1#8]] ∧
      ∃ short r', (BufferLogger.mk [.update [1#32, 3#32] i, .update [0#32] [1#8]]).bytes .debug μ = .ok short ∧
        replay hTy.dict m' (hTy.dict.withRuntime ⟨9, []⟩) short = .ok r' [] ∧ hTy.eq r' v' = true := by
  obtain ⟨v', w', h1, h2⟩ := C85_replica hTy hTy_wf rfl (by decide) (by decide) .debug m' μ 4 9 compactOps
    (hVal [] [] (hA 0)) (hTy.dict.withRuntime ⟨9, []⟩) hWorld (hVal_at 4) ((carried_init hTy).1 ⟨4, []⟩) (hVal_at 9) rfl rfl
    (compactOps_ok hWorld)
  have he : (w'.loggers 4).entries = [.listPush [0#32] [7#8], .update [1#32, 3#32] [5#8], .update [0#32] [1#8]] := by
    have : (w'.loggers 4).entries = ((calls hTy .debug compactOps (hVal [] [] (hA 0)) hWorld).2.loggers 4).entries := by rw [h1]
    rw [this]
    decide +kernel
  obtain ⟨short, r', h3, h4, h5⟩ := h2 [0#32] (.list (.uint .w8)) _ _ [.listPush [0#32] [7#8], .update [1#32, 3#32] [5#8]] []
    (.update [0#32] [1#8]) (.inside (p := [0#32]) (q := []) (.field (v := hTy.dict.withRuntime ⟨9, []⟩) (.head rfl)) .self) he
    (by
      intro e he
      simp only [List.mem_cons, List.not_mem_nil, or_false] at he
      rcases he with rfl | rfl
      · exact .inl ⟨[], rfl⟩
      · exact .inr (by unfold Aside; decide))
    ⟨[], rfl⟩ (by rw [he]; unfold Fits; decide +kernel)
  exact ⟨v', w', [5#8], h1, he, short, r', h3, h4, h5⟩

end Steit
