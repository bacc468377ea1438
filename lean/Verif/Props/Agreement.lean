import Verif.Props.Again
import Verif.Props.RoundTrip
import Verif.Props.Sync
import Verif.Spec.Agreement
import Verif.Lemmas.BlindTy

/-!
# Replicas that agree: property C80

Two replicas that hold the same data do the same with the same messages, whatever these are: the same entries are applied, the same
errors are reported, and the replicas hold the same data afterwards, also where a message is cut, damaged or refused halfway.
-/

namespace Steit
open Spec Prog

/-! ## Reading -/

/-- C80, any type: the same data in two places, with different loggers and addresses, is changed in the same way by the same bytes,
whatever they are. Errors included: what is left behind is the same data, too. -/
theorem C80_merge (t : Ty) (m : Mode) (rt rt' : Rt) (v w : t.El) (hv : At t rt v) (hw : At t rt' w) (h : Same t v w) (bs : Bytes) :
    SameRes (Same t) (t.dict.merge m v bs) (t.dict.merge m w bs) := by
  rcases (blindTy t).merge (.inl rfl) bs (twin_of_same t rt rt' v w hv hw h) with h | ⟨hm, _⟩
  · have h' := sameRes_map (f := id) (g := id) h (same_of_twin t)
    cases hx : t.dict.merge m v bs <;> cases hy : t.dict.merge m w bs <;> rw [hx, hy] at h' <;> exact h'
  · exact absurd rfl hm

/-- C80, build modes: a release build reads what a debug build reads, and refuses what it refuses with the same error, unless the debug
build panics. -/
theorem C80_merge_modes (t : Ty) (rt rt' : Rt) (v w : t.El) (hv : At t rt v) (hw : At t rt' w) (h : Same t v w) (bs : Bytes)
    (hp : ∀ u, t.dict.merge .debug v bs ≠ .err u .panic) :
    SameRes (Same t) (t.dict.merge .debug v bs) (t.dict.merge .release w bs) := by
  rcases (blindTy t).merge (.inr ⟨rfl, rfl⟩) bs (twin_of_same t rt rt' v w hv hw h) with h | ⟨_, u, hu⟩
  · have h' := sameRes_map (f := id) (g := id) h (same_of_twin t)
    cases hx : t.dict.merge .debug v bs <;> cases hy : t.dict.merge .release w bs <;> rw [hx, hy] at h' <;> exact h'
  · exact absurd hu (hp u)

/-! ## Replaying -/

theorem ofEl_twin : ∀ x y : logEntryTy.El, Twin logEntryTy x y → Entry.ofEl x = Entry.ofEl y := by
  have items : ∀ xs ys : List U32, SameItems Eq xs ys → xs = ys := fun xs ys h => by
    have := map_of_sameItems (f := id) (fun _ _ h => h) h
    simpa using this
  rintro ⟨rt, x⟩ ⟨rt', y⟩ ⟨_, h⟩
  rcases x with ⟨p, b, ⟨⟩⟩ | ⟨p, b, ⟨⟩⟩ | ⟨p, ⟨⟩⟩ | ⟨p, k, ⟨⟩⟩ | x <;> rcases y with ⟨p', b', ⟨⟩⟩ | ⟨p', b', ⟨⟩⟩ | ⟨p', ⟨⟩⟩ | ⟨p', k', ⟨⟩⟩ | y <;>
    first | exact h.elim | exact x.elim | exact y.elim | skip
  · obtain ⟨h1, h2, _⟩ := h
    exact congrArg₂ Entry.update (items p p' h1) h2
  · obtain ⟨h1, h2, _⟩ := h
    exact congrArg₂ Entry.listPush (items p p' h1) h2
  · obtain ⟨h1, _⟩ := h
    exact congrArg Entry.listPop (items p p' h1)
  · obtain ⟨h1, h2, _⟩ := h
    exact congrArg₂ Entry.mapRemove (items p p' h1) h2

theorem replayStep_agree {m m' : Mode} (hm : Below m m') (t : Ty) (v w : t.El) (bs : Bytes) (h : Twin t v w) :
    ModeRes m m' (Twin t) (replayStep t.dict m v bs) (replayStep t.dict m' w bs) := by
  unfold replayStep
  rcases (blindTy logEntryTy).deserializeNested hm logEntryTy.dict.wire bs with ⟨x, y, rest, h1, h2, h3⟩ | ⟨e, h1, h2⟩ | ⟨hm, h1⟩
  · rw [h1, h2]
    dsimp only
    unfold applyEntry
    rw [ofEl_twin x y h3]
    rcases blind_cases ((blindTy t).handle hm (Entry.ofEl y).unpack.2.1 (Entry.ofEl y).unpack.1 (Entry.ofEl y).unpack.2.2.1
        ((Entry.ofEl y).unpack.2.2.2.getD []) h) with ⟨a, b, r, h1, h2, h3⟩ | ⟨a, b, e, h1, h2, h3⟩ | ⟨hm, a, h1⟩
    · simp only [h1, h2]; exact .ok h3
    · simp only [h1, h2]; exact .err h3
    · simp only [h1]; exact .panic hm
  · rw [h1, h2]; exact .err h
  · rw [h1]; exact .panic hm

theorem replay_agree {m m' : Mode} (hm : Below m m') (t : Ty) (hs : t.isState = true) {rt rt' : Rt} (hrt : rt.path = rt'.path) {v w : t.El}
    (hv : At t rt v) (hw : At t rt' w) (h : Same t v w) (bs : Bytes) :
    ModeRes m m' (Same t) (replay t.dict m v bs) (replay t.dict m' w bs) := by
  have hroot : t.dict.isRoot v = t.dict.isRoot w := by
    rw [isRoot_at t hs rt v hv, isRoot_at t hs rt' w hw]
    unfold Rt.isRoot
    rw [hrt]
  unfold replay
  rw [← hroot]
  cases t.dict.isRoot v with
  | error e => exact .err h
  | ok b =>
    cases b with
    | false => exact .err h
    | true =>
      rcases untilEof_blind (fun v w bs h => replayStep_agree hm t v w bs h) bs.length bs (twin_of_same t rt rt' v w hv hw h) with h | h
      · have h' := sameRes_map (f := id) (g := id) h (same_of_twin t)
        refine .inl ?_
        dsimp only
        cases hx : untilEof (replayStep t.dict m) bs.length v bs <;> cases hy : untilEof (replayStep t.dict m') bs.length w bs <;>
          rw [hx, hy] at h' <;> exact h'
      · exact .inr h

/-- C80, one message: two replicas that hold the same data, each with its own logger, replay the same bytes, whatever they are. Both
accept them or both report the same error; and they hold the same data afterwards, in either case. -/
theorem C80_replay (t : Ty) (hs : t.isState = true) (m : Mode) (id id' : Nat) (v w : t.El) (hv : At t ⟨id, []⟩ v) (hw : At t ⟨id', []⟩ w)
    (h : Same t v w) (bs : Bytes) : SameRes (Same t) (replay t.dict m v bs) (replay t.dict m w bs) := by
  rcases replay_agree (.inl rfl) t hs (rt := ⟨id, []⟩) (rt' := ⟨id', []⟩) rfl hv hw h bs with h | ⟨hm, _⟩
  · exact h
  · exact absurd rfl hm

theorem replay_at (t : Ty) (ht : t.WF) (hs : t.isState = true) (m : Mode) (rt : Rt) {v : t.El} (hv : At t rt v) (bs : Bytes) :
    match replay t.dict m v bs with
    | .ok v' _ => At t rt v'
    | .err v' _ => At t rt v' := by
  rcases C32_replay_preserves_addresses t ht hs m rt v hv bs with ⟨v', h, h'⟩ | ⟨v', e, h, h', _⟩ <;> rw [h] <;> exact h'

/-- C80, any number of messages: the two replicas report the same, message by message, and hold the same data in the end. Nothing is
assumed about the messages. -/
theorem C80_stay (t : Ty) (ht : t.WF) (hs : t.isState = true) (m : Mode) (id id' : Nat) : ∀ (messages : List Bytes) (v w : t.El),
    At t ⟨id, []⟩ v → At t ⟨id', []⟩ w → Same t v w →
    (replayEach t.dict m v messages).2 = (replayEach t.dict m w messages).2 ∧ Same t (replayEach t.dict m v messages).1 (replayEach t.dict m w messages).1
  | [], _, _, _, _, h => ⟨rfl, h⟩
  | bs :: messages, v, w, hv, hw, h => by
    have h1 := C80_replay t hs m id id' v w hv hw h bs
    have hv' := replay_at t ht hs m ⟨id, []⟩ hv bs
    have hw' := replay_at t ht hs m ⟨id', []⟩ hw bs
    simp only [replayEach]
    cases hx : replay t.dict m v bs <;> cases hy : replay t.dict m w bs <;> rw [hx, hy] at h1 <;> rw [hx] at hv' <;> rw [hy] at hw' <;>
      first | exact h1.elim | skip
    · have ih := C80_stay t ht hs m id id' messages _ _ hv' hw' h1.1
      exact ⟨by simp only [ih.1], ih.2⟩
    · have ih := C80_stay t ht hs m id id' messages _ _ hv' hw' h1.1
      exact ⟨by simp only [ih.1, show _ = _ from h1.2], ih.2⟩

/-- C80, build modes: a replica in a debug build and one in a release build. As long as the former does not panic, they report the same
and hold the same data. -/
theorem C80_modes (t : Ty) (ht : t.WF) (hs : t.isState = true) (id id' : Nat) : ∀ (messages : List Bytes) (v w : t.El),
    At t ⟨id, []⟩ v → At t ⟨id', []⟩ w → Same t v w → some .panic ∉ (replayEach t.dict .debug v messages).2 →
    (replayEach t.dict .debug v messages).2 = (replayEach t.dict .release w messages).2 ∧
      Same t (replayEach t.dict .debug v messages).1 (replayEach t.dict .release w messages).1
  | [], _, _, _, _, h, _ => ⟨rfl, h⟩
  | bs :: messages, v, w, hv, hw, h, hp => by
    have hv' := replay_at t ht hs .debug ⟨id, []⟩ hv bs
    have hw' := replay_at t ht hs .release ⟨id', []⟩ hw bs
    simp only [replayEach] at hp ⊢
    rcases blind_cases (replay_agree (.inr ⟨rfl, rfl⟩) t hs (rt := ⟨id, []⟩) (rt' := ⟨id', []⟩) rfl hv hw h bs) with
      ⟨a, b, r, h1, h2, h3⟩ | ⟨a, b, e, h1, h2, h3⟩ | ⟨_, a, h1⟩
    · rw [h1] at hv' hp
      rw [h2] at hw'
      rw [h1, h2]
      have ih := C80_modes t ht hs id id' messages _ _ hv' hw' h3 (fun h => hp (List.mem_cons_of_mem _ h))
      exact ⟨by simp only [ih.1], ih.2⟩
    · rw [h1] at hv' hp
      rw [h2] at hw'
      rw [h1, h2]
      have ih := C80_modes t ht hs id id' messages _ _ hv' hw' h3 (fun h => hp (List.mem_cons_of_mem _ h))
      exact ⟨by simp only [ih.1], ih.2⟩
    · rw [h1] at hp
      exact absurd List.mem_cons_self hp

/-- C80 without the condition on panics is false across build modes: a number with superfluous bytes makes a debug build panic, while a
release build takes it for `0`. The two replicas are then apart. -/
theorem C80_modes_false (μ : Nat → Mem) (m : Mode) :
    ∃ log, (BufferLogger.mk [.update [0#32] [0x80#8, 0x80#8, 0x00#8]]).bytes m μ = .ok log ∧
      replayEach (Ty.struct true true (.cons 0#32 {} (.uint .w8) .nil)).dict .debug ⟨⟨9, []⟩, (5#8, ())⟩ [log] =
        (⟨⟨9, []⟩, (5#8, ())⟩, [some .panic]) ∧
      replayEach (Ty.struct true true (.cons 0#32 {} (.uint .w8) .nil)).dict .release ⟨⟨9, []⟩, (5#8, ())⟩ [log] =
        (⟨⟨9, []⟩, (0#8, ())⟩, [none]) := by
  have hfit : ∀ e ∈ [Entry.update [0#32] [0x80#8, 0x80#8, 0x00#8]], CsFits e := by unfold CsFits; decide +kernel
  refine ⟨_, bytes_eq m μ ⟨_⟩ fun e he => fits_of (hfit e he), ?_, ?_⟩
  · simp only [replayEach, replayed (t := .struct true true (.cons 0#32 {} (.uint .w8) .nil)) (m := .debug) (v := ⟨⟨9, []⟩, (5#8, ())⟩)
      (out := .err ⟨⟨9, []⟩, (5#8, ())⟩ .panic) hfit rfl rfl]
  · simp only [replayEach, replayed (t := .struct true true (.cons 0#32 {} (.uint .w8) .nil)) (m := .release) (v := ⟨⟨9, []⟩, (5#8, ())⟩)
      (out := .ok ⟨⟨9, []⟩, (0#8, ())⟩ []) hfit rfl rfl]

/-! ## Restarting, and joining late -/

theorem deserialize_at (t : Ty) (ht : t.WF) {m : Mode} {bytes r : Bytes} {v : t.El} (h : t.dict.deserialize m bytes = .ok (v, r)) :
    At t ⟨Rt.dflt.logger, []⟩ v := by
  unfold Dict.deserialize at h
  rcases (anyLaw t ht).merge m Rt.dflt t.dict.dflt bytes (anyLaw t ht).at_dflt with ⟨v', rest, h1, h2⟩ | ⟨v', e, h1, _⟩
  · rw [h1] at h; cases h; exact h2
  · rw [h1] at h; cases h

/-- C80, restarting: a replica writes its data to a file and stops; another process, in any build mode, reads the file and goes on. With
whatever is sent from then on it reports what the first would have reported, and holds what the first would hold. -/
theorem C80_restarted (t : Ty) (ht : t.WF) (hs : t.isState = true) (m m' m'' : Mode) (μ : Mem) (id : Nat) (v : t.El) (hv : At t ⟨id, []⟩ v)
    (hc : Carried t v) (hlen : (encode t v).length < 2 ^ 32) :
    ∃ file v', t.dict.toBytesFrom m μ v = .ok file ∧ t.dict.deserialize m' file = .ok (v', []) ∧
      ∀ messages, (replayEach t.dict m'' v' messages).2 = (replayEach t.dict m'' v messages).2 ∧
        Same t (replayEach t.dict m'' v' messages).1 (replayEach t.dict m'' v messages).1 := by
  obtain ⟨file, v', h1, h2, h3, _⟩ := C11_roundtrip t ht m m' μ v hc hlen
  exact ⟨file, v', h1, h2, fun messages => C80_stay t ht hs m'' _ id messages v' v (deserialize_at t ht h2) hv h3⟩

/-- C80, joining late: the source has made calls, all of which wrote fields or whole values; its log has not been drained. A snapshot is
taken and read by a replica, which is then sent the whole log, although the snapshot has all of it already. If the replica accepts it, it
holds the data of the source; and so it did before. -/
theorem C80_late_joiner (t : Ty) (ht : t.WF) (hs : t.isState = true) (hp : shape t ≠ .prim) (hb : ¬ (shape t = .enum ∧ isBox t = true))
    (m m' : Mode) (μ : Nat → Mem) (μ' : Mem) (id : Nat) (ops : List t.Op) (v v' : t.El) (w w' : World) (hv : At t ⟨id, []⟩ v) (hc : Carried t v)
    (hw : w.loggers id = ⟨0, []⟩) (hops : CallsSync t m ops v w) (hcalls : calls t m ops v w = (.ok v', w'))
    (hu : Updates (w'.loggers id).entries) (hfit : ∀ e ∈ (w'.loggers id).entries, Fits e) (hlen : (encode t v').length < 2 ^ 32) :
    ∃ log snapshot j, (BufferLogger.mk (w'.loggers id).entries).bytes m μ = .ok log ∧ t.dict.toBytesFrom m μ' v' = .ok snapshot ∧
      t.dict.deserialize m' snapshot = .ok (j, []) ∧ Same t j v' ∧ ∀ j' r, replay t.dict m' j log = .ok j' r → Same t j' v' := by
  obtain ⟨v1, w1, h1, hv1, hc1, _, hf⟩ := C24_replica_follows t ht hs hp hb m m' μ id id ops v v w hv hc hv rfl hw hops
  rw [hcalls] at h1
  cases h1
  obtain ⟨log, r1, h2, h3, h4, _, h6⟩ := hf hfit
  obtain ⟨snapshot, j, h7, h8, h9, _⟩ := C11_roundtrip t ht m m' μ' v' hc1 hlen
  refine ⟨log, snapshot, j, h2, h7, h8, h9, fun j' r hj => ?_⟩
  have h10 := C80_replay t hs m' _ id j r1 (deserialize_at t ht h8) h6 (Eq.trans h9 (Eq.symm h4)) log
  rw [hj] at h10
  cases h11 : replay t.dict m' r1 log with
  | err _ _ => rw [h11] at h10; exact h10.elim
  | ok r2 rest =>
    rw [h11] at h10
    have h12 := C79_redo t ht hs m' m μ ⟨id, []⟩ _ hu hfit log h2 v r1 r2 [] rest hv h3 h11
    subst h12
    exact Eq.trans h10.1 h4

/-! ## C# clients -/

theorem csReplayLeft_alike (ρ : Bytes → Str) (t : Ty) : ∀ (fuel : Nat) (bs : Bytes) (c c' : t.Cs), Alike t c c' →
    (t.csReplayLeft ρ fuel c bs).2 = (t.csReplayLeft ρ fuel c' bs).2 ∧ Alike t (t.csReplayLeft ρ fuel c bs).1 (t.csReplayLeft ρ fuel c' bs).1
  | fuel, [], c, c', h => by cases fuel <;> exact ⟨rfl, h⟩
  | 0, b :: bs, c, c', h => ⟨rfl, h⟩
  | fuel + 1, b :: bs, c, c', h => by
    rw [Ty.csReplayLeft, Ty.csReplayLeft]
    cases csGetNested (b :: bs) with
    | error e => exact ⟨rfl, h⟩
    | ok x =>
      obtain ⟨payload, rest⟩ := x
      dsimp only
      cases logEntryTy.csDeserialize ρ payload with
      | error e => exact ⟨rfl, h⟩
      | ok y =>
        obtain ⟨entry, _⟩ := y
        dsimp only
        have he := entry_alike (ρ := ρ) t (.ofCs entry) c c' h
        cases h1 : t.csReplayEntry ρ c (.ofCs entry) <;> cases h2 : t.csReplayEntry ρ c' (.ofCs entry) <;> rw [h1, h2] at he
        · exact ⟨congrArg some he, h⟩
        · exact he.elim
        · exact he.elim
        · exact csReplayLeft_alike ρ t fuel rest _ _ he

/-- C80, C#: two clients whose objects are equal up to the order of dictionaries are sent the same messages, whatever these are. The same
exceptions are thrown, message by message, and the objects are equal in the end, up to the order of dictionaries. -/
theorem C80_clients_stay (t : Ty) (ρ : Bytes → Str) : ∀ (messages : List Bytes) (c c' : t.Cs), Alike t c c' →
    (csReplayEach ρ t c messages).2 = (csReplayEach ρ t c' messages).2 ∧ Alike t (csReplayEach ρ t c messages).1 (csReplayEach ρ t c' messages).1
  | [], _, _, h => ⟨rfl, h⟩
  | bs :: messages, c, c', h => by
    obtain ⟨h1, h2⟩ := csReplayLeft_alike ρ t bs.length bs c c' h
    obtain ⟨h3, h4⟩ := C80_clients_stay t ρ messages _ _ h2
    exact ⟨by rw [csReplayEach, csReplayEach, h1, h3], h4⟩

/-! ## Not vacuous -/

/-- Two replicas with loggers 9 and 4 get a log, then a byte that starts no entry, then a push to a map (refused), then the log again.
They report the same; the first message changes them, the next two are refused. -/
example (μ : Nat → Mem) (m : Mode) : ∃ log bad v, (BufferLogger.mk againLog).bytes m μ = .ok log ∧
    (BufferLogger.mk [.listPush [1#32] []]).bytes m μ = .ok bad ∧
    replayEach againTyE.dict .debug (againTyE.dict.withRuntime ⟨9, []⟩) [log, [0x05#8], bad, log] =
      (v, [none, some .unexpectedEof, some .invalidData, none]) ∧
    (replayEach againTyE.dict .release (againTyE.dict.withRuntime ⟨4, []⟩) [log, [0x05#8], bad, log]).2 =
      [none, some .unexpectedEof, some .invalidData, none] ∧
    Same againTyE v (replayEach againTyE.dict .release (againTyE.dict.withRuntime ⟨4, []⟩) [log, [0x05#8], bad, log]).1 ∧
    ¬ Same againTyE v (againTyE.dict.withRuntime ⟨4, []⟩) := by
  have hbad : ∀ e ∈ [Entry.listPush [1#32] []], CsFits e := by unfold CsFits; decide +kernel
  have hlog := bytes_eq m μ ⟨againLog⟩ fun e he => fits_of (againLog_fits e he)
  have hlog' := bytes_eq m μ ⟨[.listPush [1#32] []]⟩ fun e he => fits_of (hbad e he)
  have h1 : replay againTyE.dict .debug (againTyE.dict.withRuntime ⟨9, []⟩) (againLog.flatMap entryBytes) =
      .ok ⟨⟨9, []⟩, (9#8, ⟨⟨9, [1#32]⟩, [(5#32, ⟨⟨9, [1#32, 5#32, 0#32]⟩, .inl (6#8, ())⟩)]⟩, ())⟩ [] := replayed againLog_fits rfl rfl
  have h2 : replay againTyE.dict .debug ⟨⟨9, []⟩, (9#8, ⟨⟨9, [1#32]⟩, [(5#32, ⟨⟨9, [1#32, 5#32, 0#32]⟩, .inl (6#8, ())⟩)]⟩, ())⟩
      (againLog.flatMap entryBytes) =
      .ok ⟨⟨9, []⟩, (9#8, ⟨⟨9, [1#32]⟩, [(5#32, ⟨⟨9, [1#32, 5#32, 0#32]⟩, .inl (6#8, ())⟩)]⟩, ())⟩ [] := replayed againLog_fits rfl rfl
  have h3 : replay againTyE.dict .debug ⟨⟨9, []⟩, (9#8, ⟨⟨9, [1#32]⟩, [(5#32, ⟨⟨9, [1#32, 5#32, 0#32]⟩, .inl (6#8, ())⟩)]⟩, ())⟩
      ([Entry.listPush [1#32] []].flatMap entryBytes) =
      .err ⟨⟨9, []⟩, (9#8, ⟨⟨9, [1#32]⟩, [(5#32, ⟨⟨9, [1#32, 5#32, 0#32]⟩, .inl (6#8, ())⟩)]⟩, ())⟩ .invalidData := replayed hbad rfl rfl
  have h4 : replay againTyE.dict .debug ⟨⟨9, []⟩, (9#8, ⟨⟨9, [1#32]⟩, [(5#32, ⟨⟨9, [1#32, 5#32, 0#32]⟩, .inl (6#8, ())⟩)]⟩, ())⟩ [0x05#8] =
      .err ⟨⟨9, []⟩, (9#8, ⟨⟨9, [1#32]⟩, [(5#32, ⟨⟨9, [1#32, 5#32, 0#32]⟩, .inl (6#8, ())⟩)]⟩, ())⟩ .unexpectedEof := rfl
  have h5 : replayEach againTyE.dict .debug (againTyE.dict.withRuntime ⟨9, []⟩)
      [againLog.flatMap entryBytes, [0x05#8], [Entry.listPush [1#32] []].flatMap entryBytes, againLog.flatMap entryBytes] =
      (⟨⟨9, []⟩, (9#8, ⟨⟨9, [1#32]⟩, [(5#32, ⟨⟨9, [1#32, 5#32, 0#32]⟩, .inl (6#8, ())⟩)]⟩, ())⟩,
        [none, some .unexpectedEof, some .invalidData, none]) := by
    simp only [replayEach, h1, h2, h3, h4]
  obtain ⟨h6, h7⟩ := C80_modes againTyE againTyE_wf rfl 9 4 _ _ (againTyE.dict.withRuntime ⟨4, []⟩)
    ((anyLaw againTyE againTyE_wf).at_new ⟨9, []⟩) ((anyLaw againTyE againTyE_wf).at_new ⟨4, []⟩) rfl (by rw [h5]; decide)
  rw [h5] at h6 h7
  refine ⟨_, _, _, hlog, hlog', h5, h6.symm, h7, fun h => ?_⟩
  have := congrArg (fun v => v.fields.1) h
  revert this
  decide

/-- A key is inserted with a closure that makes an API call, and an enum switches variants. -/
abbrev joinOps : List hTy.Op :=
  [ .inr (.inl (.inner (.insertWith 3#32 hNew))),
    .inr (.inr (.inl (.inner (.inr (.inl (.inl (.set ⟨Rt.dflt, [1#8]⟩))))))) ]

theorem joinOps_ok (w : World) : CallsSync hTy .debug joinOps (hVal [] [] (hA 0)) w := by
  refine callsSync_cons (t := hTy) (op := .inr (.inl (.inner (.insertWith 3#32 hNew)))) (v := hVal [] [] (hA 0))
    (v1 := hVal [] [(3#32, ⟨⟨4, [1#32, 3#32]⟩, [5#8]⟩)] (hA 0)) hNew_ok.1
    ⟨rfl, by decide, by decide, hNew_ok.2⟩ (fun _ => rfl) ?_ w
  refine callsSync_cons (v1 := hVal [] [(3#32, ⟨⟨4, [1#32, 3#32]⟩, [5#8]⟩)] (hB [1#8])) ?_ ?_ (fun _ => rfl) (fun _ => trivial)
  · rintro _ (_ | x)
    · exact ⟨Rt.dflt, rfl, fun _ _ _ => trivial⟩
    · exact nomatch x
  · refine ⟨rfl, ?_, ?_⟩
    · intro _ _ rt x h
      cases h
      show (leb 1 ++ []).length < _
      rw [leb_eq_lebF]; decide
    · rintro _ (_ | x)
      · refine ⟨rfl, fun _ _ => trivial, ?_⟩
        show (leb 1 ++ []).length < _
        rw [leb_eq_lebF]; decide
      · exact nomatch x

/-- A replica reads a snapshot of `hTy` taken after `joinOps`, is sent the log of `joinOps`, accepts it, and holds what the source holds. -/
example (μ : Nat → Mem) (μ' : Mem) (m' : Mode) : ∃ v' w' log snapshot j j', calls hTy .debug joinOps (hVal [] [] (hA 0)) hWorld = (.ok v', w') ∧
    (w'.loggers 4).entries.map address = [[1#32, 3#32], [2#32], [2#32, 1#32, 5#32]] ∧ (BufferLogger.mk (w'.loggers 4).entries).bytes .debug μ = .ok log ∧
    hTy.dict.toBytesFrom .debug μ' v' = .ok snapshot ∧ hTy.dict.deserialize m' snapshot = .ok (j, []) ∧
    replay hTy.dict m' j log = .ok j' [] ∧ Same hTy j' v' ∧ ¬ Same hTy j' (hVal [] [] (hA 0)) := by
  obtain ⟨v', w', h1, hv, _⟩ := C24_replica_follows hTy hTy_wf rfl (by decide) (by decide) .debug m' μ 4 4 joinOps
    (hVal [] [] (hA 0)) (hVal [] [] (hA 0)) hWorld (hVal_at 4) ((carried_init hTy).1 ⟨4, []⟩) (hVal_at 4) rfl rfl (joinOps_ok hWorld)
  have hv' : v' = hVal [] [(3#32, ⟨⟨4, [1#32, 3#32]⟩, [5#8]⟩)] (hB [1#8]) := by
    have : (calls hTy .debug joinOps (hVal [] [] (hA 0)) hWorld).1 = .ok (hVal [] [(3#32, ⟨⟨4, [1#32, 3#32]⟩, [5#8]⟩)] (hB [1#8])) := rfl
    rw [h1] at this
    exact Except.ok.inj this
  have he : (w'.loggers 4).entries = [.update [1#32, 3#32] [5#8], .update [2#32] [1#8], .update [2#32, 1#32, 5#32] [1#8]] := by
    have : (w'.loggers 4).entries = ((calls hTy .debug joinOps (hVal [] [] (hA 0)) hWorld).2.loggers 4).entries := by rw [h1]
    rw [this]
    decide +kernel
  have hfit : ∀ e ∈ (w'.loggers 4).entries, CsFits e := by rw [he]; unfold CsFits; decide +kernel
  have hu : Updates (w'.loggers 4).entries := by
    rw [he]
    intro e h
    simp only [List.mem_cons, List.not_mem_nil, or_false] at h
    rcases h with rfl | rfl | rfl
    · exact ⟨_, _, rfl⟩
    · exact ⟨_, _, rfl⟩
    · exact ⟨_, _, rfl⟩
  obtain ⟨log, snapshot, j, h2, h3, h4, h5, h6⟩ := C80_late_joiner hTy hTy_wf rfl (by decide) (by decide) .debug m' μ μ' 4 joinOps _ v' hWorld w'
    (hVal_at 4) ((carried_init hTy).1 ⟨4, []⟩) rfl (joinOps_ok hWorld) h1 hu (fun e he => fits_of (hfit e he)) (by
      rw [hv']
      decide +kernel)
  have hlog := bytes_eq .debug μ ⟨(w'.loggers 4).entries⟩ fun e he => fits_of (hfit e he)
  rw [h2] at hlog
  have h7 : replay hTy.dict m' v' log = .ok v' [] := by
    rw [Except.ok.inj hlog]
    refine replayed hfit (by rw [hv']; rfl) ?_
    rw [he, hv']
    cases m' <;> rfl
  have h8 := C80_replay hTy rfl m' _ 4 j v' (deserialize_at hTy hTy_wf h4) hv h5 log
  rw [h7] at h8
  cases h9 : replay hTy.dict m' j log with
  | err _ _ => rw [h9] at h8; exact h8.elim
  | ok j' r =>
    rw [h9] at h8
    have hr : r = [] := h8.2
    subst hr
    refine ⟨v', w', log, snapshot, j, j', h1, by rw [he]; rfl, h2, h3, h4, h9, h6 j' _ h9, fun h => ?_⟩
    have h10 : strip hTy v' = strip hTy (hVal [] [] (hA 0)) := (Eq.symm (h6 j' _ h9)).trans h
    rw [hv'] at h10
    have := congrArg (fun v => v.fields.2.1.entries.length) h10
    revert this
    decide

/-- A replica restarts from a snapshot of its own; from then on it treats the messages of the first example as it would have. -/
example (μ : Mem) (m m' m'' : Mode) : ∃ file v', againTyE.dict.toBytesFrom m μ ⟨⟨9, []⟩, (9#8, ⟨⟨9, [1#32]⟩, []⟩, ())⟩ = .ok file ∧
    againTyE.dict.deserialize m' file = .ok (v', []) ∧
    (replayEach againTyE.dict m'' v' [[0x05#8], []]).2 = [some .unexpectedEof, none] := by
  obtain ⟨file, v', h1, h2, h3⟩ := C80_restarted againTyE againTyE_wf rfl m m' m'' μ 9 ⟨⟨9, []⟩, (9#8, ⟨⟨9, [1#32]⟩, []⟩, ())⟩
    (by simp [At, AtFields, Rt.nested]) (by simp [Carried, CarriedFields]) (by decide +kernel)
  exact ⟨file, v', h1, h2, by rw [(h3 _).1]; cases m'' <;> rfl⟩

/-- Two clients that list the entries of a dictionary in different orders are sent a removal, then a byte that starts no entry. -/
example (ρ : Bytes → Str) (μ : Nat → Mem) (m : Mode) : ∃ log, (BufferLogger.mk [.mapRemove [] 3#32]).bytes m μ = .ok log ∧
    Alike (.map .u8 (.uint .w8)) [(3#32, 1#8), (4#32, 2#8), (5#32, 6#8)] [(5#32, 6#8), (4#32, 2#8), (3#32, 1#8)] ∧
    (csReplayEach ρ (.map .u8 (.uint .w8)) [(3#32, 1#8), (4#32, 2#8), (5#32, 6#8)] [log, [0x05#8]]).2 =
      (csReplayEach ρ (.map .u8 (.uint .w8)) [(5#32, 6#8), (4#32, 2#8), (3#32, 1#8)] [log, [0x05#8]]).2 := by
  have hfit : ∀ e ∈ [Entry.mapRemove [] 3#32], CsFits e := by unfold CsFits; decide +kernel
  have h : Alike (.map .u8 (.uint .w8)) [(3#32, 1#8), (4#32, 2#8), (5#32, 6#8)] [(5#32, 6#8), (4#32, 2#8), (3#32, 1#8)] := by
    intro k
    have hk : List.lookup k [(3#32, 1#8), (4#32, 2#8), (5#32, 6#8)] = List.lookup k [(5#32, 6#8), (4#32, 2#8), (3#32, 1#8)] := by
      simp only [List.lookup]
      by_cases h3 : k = 3#32
      · subst h3; decide
      by_cases h4 : k = 4#32
      · subst h4; decide
      by_cases h5 : k = 5#32
      · subst h5; decide
      simp [beq_eq_false_iff_ne.2 h3, beq_eq_false_iff_ne.2 h4, beq_eq_false_iff_ne.2 h5]
    have key : ∀ a b : Option (BitVec 8), a = b → Option.Rel (Alike (.uint .w8)) a b := by
      rintro a _ rfl
      cases a with
      | none => exact .none
      | some x => exact .some rfl
    exact key _ _ hk
  exact ⟨_, bytes_eq m μ ⟨_⟩ fun e he => fits_of (hfit e he), h, (C80_clients_stay (.map .u8 (.uint .w8)) ρ _ _ _ h).1⟩

end Steit
