import Verif.Lemmas.Log
import Verif.Spec.LogCalls

/-! # Logs and loggers: properties C23, C27, C43 -/

namespace Steit
open Spec Prog

/-! ## C23 -/

/-- One entry read as `State::replay` reads it (`steit/src/state.rs:46`) and appended to a list. -/
def parseStep (m : Mode) (acc : List Entry) (bs : Bytes) : Res (List Entry) :=
  match logEntryTy.dict.deserializeNested m logEntryTy.dict.wire bs with
  | .error e => .err acc e
  | .ok (entry, rest) => .ok (acc ++ [Entry.ofEl entry]) rest

/-- The entries that the loop of `State::replay` (`steit/src/state.rs:45-54`) reads from a log. -/
def parseLog (m : Mode) (bs : Bytes) : Res (List Entry) := untilEof (parseStep m) bs.length [] bs

theorem parseLog_entryBytes (m : Mode) (es : List Entry) (h : ∀ e ∈ es, Fits e) :
    parseLog m (es.flatMap entryBytes) = .ok es [] := by
  obtain ⟨ys, h1, h2⟩ := untilEof_items (parseStep m) entryBytes (fun x : Entry => x) (fun x => x)
    (fun acc y => acc ++ [y]) es [] (es.flatMap entryBytes).length (fun e _ => entryBytes_ne e)
    (fun e he acc rest => by
      obtain ⟨v, h1, h2⟩ := read_entry m e rest (h e he)
      exact ⟨e, by simp only [parseStep, h1, h2], rfl⟩) (Nat.le_refl _)
  unfold parseLog
  rw [h1]
  have h3 : ys = es := by simpa using h2
  have h4 : ∀ (ys acc : List Entry), ys.foldl (fun acc y => acc ++ [y]) acc = acc ++ ys := by
    intro ys
    induction ys with
    | nil => simp
    | cons y ys ih => intro acc; simp [ih]
  rw [h4, h3, List.nil_append]

/-- C23: the bytes of a buffer logger parse back to exactly the entries logged, in order; build modes and cache contents
are arbitrary. -/
theorem C23_log_bytes_parse_back (m m' : Mode) (μ : Nat → Mem) (es : List Entry) (h : ∀ e ∈ es, Fits e) :
    ∃ bytes, (es.foldl BufferLogger.log BufferLogger.new).bytes m μ = .ok bytes ∧ parseLog m' bytes = .ok es [] := by
  have h1 : ∀ (es : List Entry) (b : BufferLogger), (es.foldl BufferLogger.log b).entries = b.entries ++ es := by
    intro es
    induction es with
    | nil => intro b; simp
    | cons e es ih => intro b; rw [List.foldl_cons, ih]; simp [BufferLogger.log]
  have h2 : (es.foldl BufferLogger.log BufferLogger.new).entries = es := by rw [h1]; rfl
  refine ⟨es.flatMap entryBytes, ?_, parseLog_entryBytes m' es h⟩
  rw [bytes_eq _ _ _ (by rw [h2]; exact h), h2]

/-- C23: different histories have different bytes. -/
theorem C23_log_bytes_injective (m : Mode) (μ μ' : Nat → Mem) (a b : BufferLogger) (ha : ∀ e ∈ a.entries, Fits e)
    (hb : ∀ e ∈ b.entries, Fits e) (bs : Bytes) (h : a.bytes m μ = .ok bs) (h' : b.bytes m μ' = .ok bs) : a = b := by
  rw [bytes_eq m μ a ha] at h
  rw [bytes_eq m μ' b hb] at h'
  have h1 := parseLog_entryBytes m a.entries ha
  have h2 := parseLog_entryBytes m b.entries hb
  rw [Except.ok.inj h] at h1
  rw [Except.ok.inj h', h1] at h2
  cases a; cases b
  cases h2
  rfl

/-- C23: what is read for an entry is what was put in: kind, path, key and payload. -/
theorem C23_entry_parts (e : Entry) (v : logEntryTy.El) (h : Same logEntryTy v e.toEl) :
    (Entry.ofEl v).unpack = e.unpack ∧ (Entry.ofEl v).kind = e.kind ∧ address (Entry.ofEl v) = address e ∧
      payload (Entry.ofEl v) = payload e := by
  rw [ofEl_of_same h]
  exact ⟨rfl, rfl, rfl, rfl⟩

/-- Not vacuous: four entries of different kinds. -/
example : ∀ e ∈ [Entry.update [1#32, 300#32] [5#8, 6#8], .listPush [] [], .listPop [7#32], .mapRemove [2#32] 9#32],
    Fits e := by
  intro e he
  simp only [List.mem_cons, List.not_mem_nil, or_false] at he
  rcases he with rfl | rfl | rfl | rfl <;> simp [Fits, address, payload]

/-! ## C27 -/

/-- A call on a `RuntimeLogger`. -/
def RuntimeLogger.call (m : Mode) (l : RuntimeLogger) : LogCall → Except Err RuntimeLogger
  | .log e => .ok (l.log e)
  | .pause => (l.pause m).map (·.2)
  | .unpause => .ok l.unpause.2

/-- Calls one after the other. -/
def RuntimeLogger.calls (m : Mode) : RuntimeLogger → List LogCall → Except Err RuntimeLogger
  | l, [] => .ok l
  | l, c :: cs => (l.call m c).bind (fun l => RuntimeLogger.calls m l cs)

theorem RuntimeLogger.call_sim (m : Mode) (l : RuntimeLogger) (r : Recorder) (c : LogCall)
    (h1 : l.inner.entries = r.recorded) (h2 : l.paused.toNat = r.depth) (hb : r.depth + pauses [c] < 2 ^ 32) :
    ∃ l', l.call m c = .ok l' ∧ l'.inner.entries = (r.step c).recorded ∧ l'.paused.toNat = (r.step c).depth := by
  have hz : l.paused = 0#32 ↔ r.depth = 0 := by
    rw [← h2]
    constructor
    · intro h; rw [h]; rfl
    · intro h; exact BitVec.eq_of_toNat_eq h
  cases c with
  | log e =>
    refine ⟨_, rfl, ?_⟩
    simp only [RuntimeLogger.log, Recorder.step]
    by_cases h : r.depth = 0
    · rw [if_pos (hz.2 h), if_pos h]
      exact ⟨by simp [BufferLogger.log, h1], h2⟩
    · rw [if_neg (fun h' => h (hz.1 h')), if_neg h]
      exact ⟨h1, h2⟩
  | pause =>
    simp only [pauses] at hb
    have hne : ¬ l.paused = 0xffffffff#32 := by
      intro h
      rw [h] at h2
      have : (0xffffffff#32 : BitVec 32).toNat = 2 ^ 32 - 1 := by decide
      omega
    refine ⟨{ l with paused := l.paused + 1#32 }, ?_, h1, ?_⟩
    · simp only [RuntimeLogger.call, RuntimeLogger.pause, if_neg hne]; rfl
    · show (l.paused + 1#32).toNat = r.depth + 1
      rw [BitVec.toNat_add, h2]
      exact Nat.mod_eq_of_lt (by simp; omega)
  | unpause =>
    refine ⟨_, rfl, ?_⟩
    simp only [RuntimeLogger.unpause, Recorder.step]
    by_cases h : r.depth = 0
    · rw [if_pos (hz.2 h)]
      exact ⟨h1, by rw [h2]; omega⟩
    · rw [if_neg (fun h' => h (hz.1 h'))]
      refine ⟨h1, ?_⟩
      show (l.paused - 1#32).toNat = r.depth - 1
      rw [BitVec.toNat_sub, h2]
      have := l.paused.isLt
      simp only [BitVec.toNat_ofNat]
      omega

theorem pauses_cons (c : LogCall) (cs : List LogCall) : pauses (c :: cs) = pauses [c] + pauses cs := by
  cases c <;> simp [pauses] <;> omega

theorem Spec.Recorder.step_depth (r : Recorder) (c : LogCall) : (r.step c).depth ≤ r.depth + pauses [c] := by
  cases c with
  | log e => simp only [Recorder.step, pauses]; split <;> simp
  | pause => simp [Recorder.step, pauses]
  | unpause => simp [Recorder.step, pauses]

theorem RuntimeLogger.calls_sim (m : Mode) (cs : List LogCall) : ∀ (l : RuntimeLogger) (r : Recorder),
    l.inner.entries = r.recorded → l.paused.toNat = r.depth → r.depth + pauses cs < 2 ^ 32 →
    ∃ l', l.calls m cs = .ok l' ∧ l'.inner.entries = (cs.foldl Recorder.step r).recorded ∧
      l'.paused.toNat = (cs.foldl Recorder.step r).depth := by
  induction cs with
  | nil => intro l r h1 h2 _; exact ⟨l, rfl, h1, h2⟩
  | cons c cs ih =>
    intro l r h1 h2 hb
    have hb' := hb
    rw [pauses_cons] at hb
    obtain ⟨l', g1, g2, g3⟩ := call_sim m l r c h1 h2 (by omega)
    have := r.step_depth c
    obtain ⟨l'', k1, k2, k3⟩ := ih l' (r.step c) g2 g3 (by omega)
    refine ⟨l'', ?_, k2, k3⟩
    simp only [RuntimeLogger.calls, g1]
    exact k1

/-- C27: any sequence of calls on a runtime logger (with fewer than 2^32 pauses) records exactly the entries logged while no
pause was outstanding, in order, and counts the outstanding pauses. -/
theorem C27_pausing_nests (m : Mode) (inner : BufferLogger) (cs : List LogCall) (h : pauses cs < 2 ^ 32) :
    ∃ l, (RuntimeLogger.new inner).calls m cs = .ok l ∧
      l.inner.entries = (cs.foldl Recorder.step ⟨0, inner.entries⟩).recorded ∧ l.paused.toNat = depthAfter cs 0 := by
  obtain ⟨l, h1, h2, h3⟩ := RuntimeLogger.calls_sim m cs (RuntimeLogger.new inner) ⟨0, inner.entries⟩ rfl rfl
    (by simpa using h)
  refine ⟨l, h1, h2, h3.trans ?_⟩
  have : ∀ (cs : List LogCall) (r : Recorder), (cs.foldl Recorder.step r).depth = depthAfter cs r.depth := by
    intro cs
    induction cs with
    | nil => intro r; rfl
    | cons c cs ih =>
      intro r
      rw [List.foldl_cons, ih]
      cases c with
      | log e => simp only [Recorder.step, depthAfter]; split <;> rfl
      | pause => rfl
      | unpause => rfl
  exact this cs _

theorem depthAfter_append (cs cs' : List LogCall) (d : Nat) :
    depthAfter (cs ++ cs') d = depthAfter cs' (depthAfter cs d) := by
  induction cs generalizing d with
  | nil => rfl
  | cons c cs ih => cases c <;> simp [depthAfter, ih]

theorem pauses_append (cs cs' : List LogCall) : pauses (cs ++ cs') = pauses cs + pauses cs' := by
  induction cs with
  | nil => simp [pauses]
  | cons c cs ih => cases c <;> simp [pauses, ih] <;> omega

theorem unpauses_append (cs cs' : List LogCall) : unpauses (cs ++ cs') = unpauses cs + unpauses cs' := by
  induction cs with
  | nil => simp [unpauses]
  | cons c cs ih => cases c <;> simp [unpauses, ih] <;> omega

theorem snoc_induction {α : Type} {P : List α → Prop} (h0 : P []) (h1 : ∀ xs x, P xs → P (xs ++ [x])) : ∀ xs, P xs := by
  intro xs
  have : ∀ ys : List α, P ys.reverse := by
    intro ys
    induction ys with
    | nil => exact h0
    | cons y ys ih => rw [List.reverse_cons]; exact h1 _ _ ih
  rw [← List.reverse_reverse xs]
  exact this _

theorem suffix_snoc {α : Type} {s xs : List α} {x : α} : s <:+ xs ++ [x] ↔ s = [] ∨ ∃ s', s = s' ++ [x] ∧ s' <:+ xs := by
  constructor
  · rintro ⟨p, hp⟩
    rcases List.eq_nil_or_concat s with rfl | ⟨s', y, rfl⟩
    · exact .inl rfl
    · right
      rw [List.concat_eq_append, ← List.append_assoc] at hp
      obtain ⟨h1, h2⟩ := List.append_inj' hp rfl
      cases h2
      exact ⟨s', by simp, p, h1⟩
  · rintro (rfl | ⟨s', rfl, p, rfl⟩)
    · exact List.nil_suffix
    · exact ⟨p, by simp⟩

theorem depthAfter_le (cs : List LogCall) : ∀ k, depthAfter cs 0 ≤ k ↔ ∀ s, s <:+ cs → pauses s ≤ unpauses s + k := by
  induction cs using snoc_induction with
  | h0 =>
    intro k
    simp only [depthAfter, Nat.zero_le, true_iff]
    intro s hs
    rw [List.suffix_nil.1 hs]
    simp [pauses]
  | h1 cs c ih =>
    intro k
    rw [depthAfter_append]
    have key : (∀ s, s <:+ cs ++ [c] → pauses s ≤ unpauses s + k) ↔
        ∀ s, s <:+ cs → pauses s + pauses [c] ≤ unpauses s + unpauses [c] + k := by
      constructor
      · intro h s hs
        have := h (s ++ [c]) (suffix_snoc.2 (.inr ⟨s, rfl, hs⟩))
        rw [pauses_append, unpauses_append] at this
        exact this
      · intro h s hs
        rcases suffix_snoc.1 hs with rfl | ⟨s', rfl, hs'⟩
        · simp [pauses]
        · rw [pauses_append, unpauses_append]; exact h s' hs'
    rw [key]
    cases c with
    | log e => simpa [depthAfter, pauses, unpauses] using ih k
    | pause =>
      simp only [depthAfter, pauses, unpauses]
      cases k with
      | zero =>
        constructor
        · intro h; omega
        · intro h; have := h [] List.nil_suffix; simp [pauses, unpauses] at this
      | succ k =>
        have := ih k
        constructor
        · intro h s hs
          have := this.1 (by omega) s hs
          omega
        · intro h
          have := this.2 (fun s hs => by have := h s hs; omega)
          omega
    | unpause =>
      simp only [depthAfter, pauses, unpauses]
      have := ih (k + 1)
      constructor
      · intro h s hs
        have := this.1 (by omega) s hs
        omega
      · intro h
        have := this.2 (fun s hs => by have := h s hs; omega)
        omega

/-- C27, when an entry is recorded: the logger is active after some calls exactly when in every final stretch of them the
pauses are matched by unpauses. -/
theorem C27_active_iff_matched (cs : List LogCall) :
    depthAfter cs 0 = 0 ↔ ∀ s, s <:+ cs → pauses s ≤ unpauses s := by
  have := depthAfter_le cs 0
  simp only [Nat.le_zero, Nat.add_zero] at this
  exact this

/-- C27, in one statement: an entry logged after the calls `cs` is recorded, as the last entry, if in every final stretch of
`cs` the pauses are matched by unpauses; otherwise nothing changes. -/
theorem C27_entry_recorded_iff (m : Mode) (inner : BufferLogger) (cs : List LogCall) (h : pauses cs < 2 ^ 32) (e : Entry) :
    ∃ l, (RuntimeLogger.new inner).calls m cs = .ok l ∧
      ((∀ s, s <:+ cs → pauses s ≤ unpauses s) → (l.log e).inner.entries = l.inner.entries ++ [e]) ∧
      (¬ (∀ s, s <:+ cs → pauses s ≤ unpauses s) → l.log e = l) := by
  obtain ⟨l, h1, _, h3⟩ := C27_pausing_nests m inner cs h
  refine ⟨l, h1, ?_, ?_⟩
  · intro ha
    have : l.paused = 0#32 := BitVec.eq_of_toNat_eq (by rw [h3, (C27_active_iff_matched cs).2 ha]; rfl)
    simp [RuntimeLogger.log, this, BufferLogger.log]
  · intro ha
    have : ¬ l.paused = 0#32 := by
      intro h0
      rw [h0] at h3
      exact ha ((C27_active_iff_matched cs).1 h3.symm)
    simp [RuntimeLogger.log, this]

/-- Several entries logged under one lock (`log_multi`) are logged one after the other. -/
theorem C27_log_multi (l : RuntimeLogger) (es : List Entry) :
    (logMulti RuntimeLogger.log l es).inner.entries =
      (if l.paused = 0#32 then l.inner.entries ++ es else l.inner.entries) ∧
    (logMulti RuntimeLogger.log l es).paused = l.paused := by
  induction es generalizing l with
  | nil => simp [logMulti]
  | cons e es ih =>
    have h1 : (l.log e).paused = l.paused := by unfold RuntimeLogger.log; split <;> rfl
    obtain ⟨h2, h3⟩ := ih (l.log e)
    rw [h1] at h2 h3
    refine ⟨?_, h3⟩
    simp only [logMulti, h2]
    by_cases h : l.paused = 0#32
    · simp [h, RuntimeLogger.log, BufferLogger.log]
    · simp [h, RuntimeLogger.log]

/-- The bound is needed: with 2^32 - 1 outstanding pauses the next one panics, or, in a release build, makes the logger
active again. -/
theorem C27_overflow (inner : BufferLogger) :
    RuntimeLogger.pause .debug ⟨inner, 0xffffffff#32⟩ = .error .panic ∧
    RuntimeLogger.pause .release ⟨inner, 0xffffffff#32⟩ = .ok (0#32, ⟨inner, 0#32⟩) := ⟨rfl, rfl⟩

/-- Not vacuous: two nested pauses, a surplus unpause, entries inside and outside. -/
example : (RuntimeLogger.new .new).calls .debug
    [.unpause, .log (.listPop []), .pause, .pause, .log (.listPop [1#32]), .unpause, .log (.listPop [2#32]), .unpause,
      .log (.listPop [3#32])]
    = .ok ⟨⟨[.listPop [], .listPop [3#32]]⟩, 0#32⟩ := rfl

/-! ## C43 -/

/-- What a call returns to its caller. -/
inductive BufferOut
  | none
  | plucked (es : List Entry)
  | pluckedBytes (bs : Bytes)
  | bytes (bs : Bytes)

/-- A call on a buffer logger. -/
def BufferLogger.call (m : Mode) (μ : Nat → Mem) (b : BufferLogger) : BufferCall → Except Err (BufferOut × BufferLogger)
  | .log e => .ok (.none, b.log e)
  | .clear => .ok (.none, b.clear)
  | .pluck => .ok (.plucked b.pluck.1, b.pluck.2)
  | .pluckBytes => (b.pluckBytes m μ).map (fun x => (.pluckedBytes x.1, x.2))
  | .bytes => (b.bytes m μ).map (fun x => (.bytes x, b))

/-- Calls one after the other; `μ i` is what the entries' size caches hold at call `i`. -/
def BufferLogger.calls (m : Mode) (μ : Nat → Nat → Mem) : Nat → BufferLogger → List BufferCall →
    Except Err (List BufferOut × BufferLogger)
  | _, b, [] => .ok ([], b)
  | i, b, c :: cs =>
    match b.call m (μ i) c with
    | .error e => .error e
    | .ok (out, b) =>
      match BufferLogger.calls m μ (i + 1) b cs with
      | .error e => .error e
      | .ok (outs, b) => .ok (out :: outs, b)

/-- The entries taken out of the buffer by a call, as its caller sees them: bytes are parsed. -/
def BufferOut.taken (m : Mode) : BufferOut → List Entry
  | .plucked es => es
  | .pluckedBytes bs =>
    match parseLog m bs with
    | .ok es _ => es
    | .err _ _ => []
  | _ => []

theorem buffer_calls (m m' : Mode) (μ : Nat → Nat → Mem) (cs : List BufferCall) : ∀ (i : Nat) (b : BufferLogger),
    (∀ e ∈ b.entries, Fits e) → (∀ e, BufferCall.log e ∈ cs → Fits e) →
    ∃ outs b', b.calls m μ i cs = .ok (outs, b') ∧
      outs.flatMap (BufferOut.taken m') ++ b'.entries = (if clearedNext cs then [] else b.entries) ++ survivors cs := by
  induction cs with
  | nil => intro i b _ _; exact ⟨[], b, rfl, by simp [clearedNext, survivors]⟩
  | cons c cs ih =>
    intro i b hb hc
    have hc' : ∀ e, BufferCall.log e ∈ cs → Fits e := fun e he => hc e (by simp [he])
    cases c with
    | log e =>
      obtain ⟨outs, b', h1, h2⟩ := ih (i + 1) (b.log e)
        (by
          intro x hx
          simp only [BufferLogger.log, List.mem_append, List.mem_singleton] at hx
          rcases hx with hx | rfl
          · exact hb x hx
          · exact hc x (by simp)) hc'
      refine ⟨.none :: outs, b', ?_, ?_⟩
      · simp only [BufferLogger.calls, BufferLogger.call, h1]
      · simp only [List.flatMap_cons, BufferOut.taken, List.nil_append, h2, clearedNext, survivors, BufferLogger.log]
        by_cases hcl : clearedNext cs = true <;> simp [hcl]
    | clear =>
      obtain ⟨outs, b', h1, h2⟩ := ih (i + 1) b.clear (by simp [BufferLogger.clear]) hc'
      refine ⟨.none :: outs, b', ?_, ?_⟩
      · simp only [BufferLogger.calls, BufferLogger.call, h1]
      · simp only [List.flatMap_cons, BufferOut.taken, List.nil_append, h2, clearedNext, survivors, BufferLogger.clear]
        by_cases hcl : clearedNext cs = true <;> simp [hcl]
    | pluck =>
      obtain ⟨outs, b', h1, h2⟩ := ih (i + 1) b.pluck.2 (by simp [BufferLogger.pluck]) hc'
      refine ⟨.plucked b.pluck.1 :: outs, b', ?_, ?_⟩
      · simp only [BufferLogger.calls, BufferLogger.call, h1]
      · simp only [List.flatMap_cons, BufferOut.taken, List.append_assoc, h2, clearedNext, survivors, BufferLogger.pluck]
        by_cases hcl : clearedNext cs = true <;> simp [hcl]
    | pluckBytes =>
      obtain ⟨outs, b', h1, h2⟩ := ih (i + 1) b.clear (by simp [BufferLogger.clear]) hc'
      refine ⟨.pluckedBytes (b.entries.flatMap entryBytes) :: outs, b', ?_, ?_⟩
      · have h3 : b.pluckBytes m (μ i) = .ok (b.entries.flatMap entryBytes, b.clear) := by
          unfold BufferLogger.pluckBytes
          rw [bytes_eq m _ b hb]; rfl
        simp only [BufferLogger.calls, BufferLogger.call, h3, Except.map, h1]
      · simp only [List.flatMap_cons, BufferOut.taken, parseLog_entryBytes m' _ hb, List.append_assoc, h2, clearedNext,
          survivors, BufferLogger.clear]
        by_cases hcl : clearedNext cs = true <;> simp [hcl]
    | bytes =>
      obtain ⟨outs, b', h1, h2⟩ := ih (i + 1) b hb hc'
      refine ⟨.bytes (b.entries.flatMap entryBytes) :: outs, b', ?_, ?_⟩
      · simp only [BufferLogger.calls, BufferLogger.call, bytes_eq m _ b hb, Except.map, h1]
      · simp only [List.flatMap_cons, BufferOut.taken, List.nil_append, h2, clearedNext, survivors]
        rfl

/-- C43: whatever the sequence of calls, what was plucked (as entries, or as bytes and then parsed) followed by what remains is
what was logged, in order, except for what was in the buffer when it was cleared. -/
theorem C43_no_loss_no_duplication (m m' : Mode) (μ : Nat → Nat → Mem) (cs : List BufferCall)
    (h : ∀ e, BufferCall.log e ∈ cs → Fits e) :
    ∃ outs b, BufferLogger.new.calls m μ 0 cs = .ok (outs, b) ∧
      outs.flatMap (BufferOut.taken m') ++ b.entries = survivors cs := by
  obtain ⟨outs, b, h1, h2⟩ := buffer_calls m m' μ cs 0 .new (by simp [BufferLogger.new]) h
  refine ⟨outs, b, h1, h2.trans ?_⟩
  cases clearedNext cs <;> simp [BufferLogger.new]

/-- C43: `bytes` returns all that is in the buffer and takes nothing out. -/
theorem C43_bytes_only_reads (m m' : Mode) (μ : Nat → Mem) (b : BufferLogger) (h : ∀ e ∈ b.entries, Fits e) :
    ∃ bs, b.call m μ .bytes = .ok (.bytes bs, b) ∧ parseLog m' bs = .ok b.entries [] :=
  ⟨_, by simp only [BufferLogger.call, bytes_eq m μ b h]; rfl, parseLog_entryBytes m' _ h⟩

/-- Not vacuous. -/
example : survivors [.log (.listPop []), .clear, .log (.listPop [1#32]), .bytes, .pluckBytes, .log (.listPop [2#32]), .pluck,
    .log (.listPop [3#32])] = [.listPop [1#32], .listPop [2#32], .listPop [3#32]] := rfl

end Steit
