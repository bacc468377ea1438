import Verif.Lemmas.ReaderImpls
import Verif.Lemmas.ReaderBreaks
import Verif.Props.CutLog
import Verif.Props.Robust

/-!
# Decoding and replaying from any `io::Read`: property C62

Elsewhere the input is a list of bytes. Here it is a stack of readers on a source that returns what it likes, when it likes, or fails.
-/

namespace Steit
open Spec Prog

section
variable {ρ : Type} {R : Source ρ} {rem : ρ → Bytes}

/-! ## Sources that deliver -/

/-- C62, decoding: it does not matter in what pieces a source delivers its bytes, nor what buffers the standard library uses, nor
whether the reader holds a byte it has asked for in advance. The value, the error, the bytes left over and what a failed merge leaves
in the target are those of reading the list of bytes; a reader that was read from successfully holds no byte. -/
theorem C62_decode_from_any_source (t : Ty) (ht : t.WF) (hR : Delivers R rem) (env : Env) (m : Mode) (rt : Rt) (v : t.El)
    (hv : At t rt v) (rd : Rdr ρ) (hl : (rd.left rem).length ≤ env.fuel) :
    (∃ v' rd', t.mergeR ρ R env m v rd = .ok v' rd' ∧ t.dict.merge m v (rd.left rem) = .ok v' (rem rd'.raw) ∧ rd'.next = none) ∨
    (∃ v' e, t.mergeR ρ R env m v rd = .err v' (.lib e) ∧ t.dict.merge m v (rd.left rem) = .err v' e) := by
  have h := readsAs t R rem hR env m v rd hl
  rcases C18_total_partial t ht m v rt hv (rd.left rem) with ⟨v', rest, h1⟩ | ⟨v', e, h1, h2⟩
  · rw [h1] at h
    obtain ⟨rd', h3, _, h4, h5⟩ := h
    have h5 : rd'.next = none := h5
    refine .inl ⟨v', rd', h3, ?_, h5⟩
    rw [h1, ← h4, Rdr.left, h5]
    rfl
  · rw [h1] at h
    rcases h with rfl | h
    · rcases h2 with h2 | h2 | ⟨h2, _⟩ <;> cases h2
    · exact .inr ⟨v', e, h, h1⟩

/-- C62, replaying: the same for logs. -/
theorem C62_replay_from_any_source (t : Ty) (ht : t.WF) (hs : t.isState = true) (hR : Delivers R rem) (env : Env) (m : Mode) (rt : Rt)
    (v : t.El) (hv : At t rt v) (rd : Rdr ρ) (hl : (rd.left rem).length ≤ env.fuel) :
    (∃ v' rd', replayR t.dict R env m v rd = .ok v' rd' ∧ replay t.dict m v (rd.left rem) = .ok v' [] ∧ rd'.left rem = []) ∨
    (∃ v' e, replayR t.dict R env m v rd = .err v' (.lib e) ∧ replay t.dict m v (rd.left rem) = .err v' e) := by
  have h : Alike R rem (fun _ => True) rd (replayR t.dict R env m v rd) (replay t.dict m v (rd.left rem)) := by
    unfold replayR replay
    cases t.dict.isRoot v with
    | error e => exact .inr rfl
    | ok b =>
      cases b with
      | false => exact .inr rfl
      | true =>
        refine (loop_agrees hR env _ _ (fun v rd hl => ?_) v rd hl).mono fun _ _ => trivial
        have h := deserializeNested_agrees (d := logEntryTy.dict) (readsAs logEntryTy) hR env m logEntryTy.dict.wire rd hl
        unfold replayStepR replayStep
        cases hp : logEntryTy.dict.deserializeNested m logEntryTy.dict.wire (rd.left rem) with
        | error e =>
          rw [hp] at h
          rcases h with h | h
          · exact .inl h
          · exact .inr (by rw [h])
        | ok x =>
          rw [hp] at h
          obtain ⟨rd', h1, h2, h3, h4⟩ := h
          rw [h1]
          simp only
          cases applyEntry t.dict m v (Entry.ofEl x.1) with
          | ok v' _ => exact ⟨rd', rfl, h2, h3, h4⟩
          | err v' e => exact .inr rfl
  rcases C32_replay_preserves_addresses t ht hs m rt v hv (rd.left rem) with ⟨v', h1, _⟩ | ⟨v', e, h1, _, h2⟩
  · rw [h1] at h
    obtain ⟨rd', h3, _, h4, _⟩ := h
    exact .inl ⟨v', rd', h3, h1, h4⟩
  · rw [h1] at h
    rcases h with h | h
    · exact absurd h h2
    · exact .inr ⟨v', e, h, h1⟩

/-! ## Sources that fail -/

/-- C62, decoding: a source that fails instead of coming to its end is never taken for one that has come to it. What is decoded from
it, into whatever target, is an error. (Integers and bools stop reading by themselves.) -/
theorem C62_failing_source_reported (t : Ty) (hw : t.dict.wire = .sized) (hR : NeverEnds R) (env : Env) (m : Mode) (v : t.El)
    (rd : Rdr ρ) : ∃ v' e, t.mergeR ρ R env m v rd = .err v' e := by
  cases h : t.mergeR ρ R env m v rd with
  | err v' e => exact ⟨v', e, rfl⟩
  | ok v' rd' =>
    obtain ⟨_, n, s, hn, hr⟩ := sized_ended t hw h
    exact absurd rfl (hR n s [] _ hn hr)

/-- C62, replaying: the same for logs. -/
theorem C62_failing_replay_reported (t : Ty) (hR : NeverEnds R) (env : Env) (m : Mode) (v : t.El) (rd : Rdr ρ) :
    ∃ v' e, replayR t.dict R env m v rd = .err v' e := by
  cases h : replayR t.dict R env m v rd with
  | err v' e => exact ⟨v', e, rfl⟩
  | ok v' rd' =>
    unfold replayR at h
    split at h
    · cases h
    · cases h
    · obtain ⟨_, n, s, hn, hr⟩ := untilEof_ended _ h
      exact absurd rfl (hR n s [] _ hn hr)

/-- C62, decoding: a source that breaks gives its own error or what it would have given anyway; no other error, no other value. -/
theorem C62_broken_source (t : Ty) (ht : t.WF) {R' : Source ρ} (hR : Delivers R' rem) (hb : Breaks R R') (env : Env) (m : Mode) (rt : Rt)
    (v : t.El) (hv : At t rt v) (rd : Rdr ρ) (hl : (rd.left rem).length ≤ env.fuel) :
    (∃ v', t.mergeR ρ R env m v rd = .err v' .source) ∨
    (∃ v' rd', t.mergeR ρ R env m v rd = .ok v' rd' ∧ t.dict.merge m v (rd.left rem) = .ok v' (rem rd'.raw)) ∨
    (∃ v' e, t.mergeR ρ R env m v rd = .err v' (.lib e) ∧ t.dict.merge m v (rd.left rem) = .err v' e) := by
  rcases steady t ρ R R' hb env m v rd with h | ⟨v', h⟩
  · rw [h]
    rcases C62_decode_from_any_source t ht hR env m rt v hv rd hl with ⟨v', rd', h1, h2, _⟩ | h1
    · exact .inr (.inl ⟨v', rd', h1, h2⟩)
    · exact .inr (.inr h1)
  · exact .inl ⟨v', h⟩

/-- The loop of `replay` on a source that breaks, over whole entries. -/
theorem brokenLoop {α : Type} (d : Dict α) (m : Mode) {R' : Source ρ} (hR : Delivers R' rem) (hb : Breaks R R') (env : Env) :
    ∀ (es : List Entry) (fuel : Nat) (v : α) (rd : Rdr ρ), (∀ e ∈ es, Fits e) → rd.left rem = es.flatMap entryBytes →
      (rd.left rem).length ≤ fuel → fuel ≤ env.fuel →
      (∃ k ≤ es.length, ∃ v1, applyAll d m v (es.take k) = .ok v1 ∧
        R.untilEof (replayStepR d R env m) fuel v rd = .err v1 .source) ∨
      (∃ v1 rd', applyAll d m v es = .ok v1 ∧ R.untilEof (replayStepR d R env m) fuel v rd = .ok v1 rd') ∨
      (∃ v1 e, applyAll d m v es = .error (v1, e) ∧ R.untilEof (replayStepR d R env m) fuel v rd = .err v1 (.lib e)) := by
  intro es
  induction es with
  | nil =>
    intro fuel v rd _ hl hf _
    have h0 : rd.left rem = [] := hl
    obtain ⟨rd', h1, _⟩ := eof_spec hR rd
    rw [h0] at h1
    rcases eof_same hb rd with h2 | h2
    · rw [h1] at h2
      refine .inr (.inl ⟨v, rd', rfl, ?_⟩)
      rw [Source.untilEof, h2]
      rfl
    · refine .inl ⟨0, Nat.le_refl _, v, rfl, ?_⟩
      rw [Source.untilEof, h2]
  | cons e es ih =>
    intro fuel v rd hfit hl hf hfe
    rw [List.flatMap_cons] at hl
    have hne := entryBytes_ne e
    obtain ⟨rd1, h1, h2, h3, _⟩ := eof_spec hR rd
    have hem : (rd.left rem).isEmpty = false := by
      rw [hl]
      cases h : entryBytes e with
      | nil => exact absurd h hne
      | cons _ _ => rfl
    rw [hem] at h1
    rcases eof_same hb rd with h4 | h4
    · rw [h1] at h4
      have hp : 0 < (entryBytes e).length := List.length_pos_iff.2 hne
      rw [hl, List.length_append] at hf
      cases fuel with
      | zero => omega
      | succ fuel =>
        rw [Source.untilEof, h4]
        simp only
        have hl1 : (rd1.left rem).length ≤ env.fuel := by rw [h3, hl, List.length_append]; omega
        obtain ⟨x, h5, h6⟩ := read_entry m e (es.flatMap entryBytes) (hfit e (by simp))
        have h7 := deserializeNested_agrees (d := logEntryTy.dict) (readsAs logEntryTy) hR env m logEntryTy.dict.wire rd1 hl1
        rw [h3, hl, h5] at h7
        obtain ⟨rd2, h8, _, h9, _⟩ := h7
        rcases deserializeNested_same (steady logEntryTy) logEntryTy.dict.wire logEntryTy.dict.dflt hb env m logEntryTy.dict.wire rd1
          with h10 | h10
        · rw [h8] at h10
          have hstep : replayStepR d R env m v rd1 = match applyEntry d m v e with
              | .ok v' _ => .ok v' rd2
              | .err v' e => .err v' (.lib e) := by
            unfold replayStepR
            rw [h10]
            simp only [h6]
            cases applyEntry d m v e <;> rfl
          rw [hstep]
          cases ha : applyEntry d m v e with
          | err v' err => exact .inr (.inr ⟨v', err, by simp [applyAll, ha], rfl⟩)
          | ok v' r =>
            simp only
            rcases ih fuel v' rd2 (fun e he => hfit e (by simp [he])) h9 (by rw [h9]; omega) (by omega) with
              ⟨k, hk, v1, h11, h12⟩ | ⟨v1, rd', h11, h12⟩ | ⟨v1, err, h11, h12⟩
            · exact .inl ⟨k + 1, by simpa using hk, v1, by simpa [applyAll, ha] using h11, h12⟩
            · exact .inr (.inl ⟨v1, rd', by simpa [applyAll, ha] using h11, h12⟩)
            · exact .inr (.inr ⟨v1, err, by simpa [applyAll, ha] using h11, h12⟩)
        · refine .inl ⟨0, Nat.zero_le _, v, rfl, ?_⟩
          simp only [replayStepR, h10]
    · refine .inl ⟨0, Nat.zero_le _, v, rfl, ?_⟩
      rw [Source.untilEof, h4]

/-- C62, replaying over a connection that breaks: a program makes any number of calls and its log is sent. If reading the connection
fails anywhere, the replica returns that error and holds the state after the first `k` entries, for some `k`, never a part of an entry:
the state the program had after some of its calls, if these are the entries of whole calls, and in any case one from which the other
entries lead to the final state. If it does not fail, the replica holds the final state. (Compare `C61_cut_update_resets_false`: a
connection that ends early *without* failing can make the replica misread the last entry.) -/
theorem C62_replica_over_broken_connection (t : Ty) (ht : t.WF) (hs : t.isState = true) (hp : shape t ≠ .prim)
    (hb : ¬ (shape t = .enum ∧ isBox t = true)) (m m' : Mode) (μ μ' : Nat → Mem) (id id' : Nat) (ops : List t.Op) (v r : t.El)
    (w : World) (hv : At t ⟨id, []⟩ v) (hc : Carried t v) (hr : At t ⟨id', []⟩ r) (hsame : Same t r v)
    (hw : w.loggers id = ⟨0, []⟩) (hops : CallsSync t m ops v w) :
    ∃ v' w', calls t m ops v w = (.ok v', w') ∧
      ((∀ e ∈ (w'.loggers id).entries, Fits e) →
        ∃ bytes, (BufferLogger.mk (w'.loggers id).entries).bytes m μ = .ok bytes ∧
          ∀ (R R' : Source ρ) (rem : ρ → Bytes) (env : Env) (rd : Rdr ρ), Delivers R' rem → Breaks R R' → rd.left rem = bytes →
            bytes.length ≤ env.fuel →
            (∃ r' rd', replayR t.dict R env m' r rd = .ok r' rd' ∧ Same t r' v') ∨
            ∃ k whole rest r1 r', (BufferLogger.mk ((w'.loggers id).entries.take k)).bytes m μ = .ok whole ∧
              (BufferLogger.mk ((w'.loggers id).entries.drop k)).bytes m μ' = .ok rest ∧
              replayR t.dict R env m' r rd = .err r1 .source ∧
              replay t.dict m' r whole = .ok r1 [] ∧ replay t.dict m' r1 rest = .ok r' [] ∧ Same t r' v' ∧
              ∀ j u w1, calls t m (ops.take j) v w = (.ok u, w1) → (w1.loggers id).entries.length = k → Same t r1 u) := by
  obtain ⟨v', w', es, h1, hlog, hsteps, hk⟩ := prefix_told t ht m id ops v w hv hc hw hops
  refine ⟨v', w', h1, fun hfit => ?_⟩
  rw [hlog] at hfit ⊢
  have hfit : ∀ e ∈ es, Fits e := hfit
  refine ⟨_, bytes_eq m μ ⟨es⟩ hfit, fun R R' rem env rd hR hbr hrd hfuel => ?_⟩
  have hroot := fun (x : t.El) (hx : At t ⟨id', []⟩ x) => (C31_accepted_at_root t hs hp hb m' ⟨id', []⟩ x hx rfl []).1
  have hrun : replayR t.dict R env m' r rd = R.untilEof (replayStepR t.dict R env m') env.fuel r rd := by
    unfold replayR
    rw [hroot r hr]
  have hrd : rd.left rem = es.flatMap entryBytes := hrd
  rcases brokenLoop t.dict m' hR hbr env es env.fuel r rd hfit hrd (by rw [hrd]; exact hfuel) (Nat.le_refl _) with
    ⟨k, _, r1, h2, h3⟩ | ⟨r1, rd', h2, h3⟩ | ⟨r1, e, h2, _⟩
  · obtain ⟨⟨s, hs1, hs2⟩, hcall⟩ := hk k
    obtain ⟨r2, h4, h5⟩ := follows_steps ht hs m' hs1 hr hsame
    have h6 := applyAll_of_applies h4
    rw [h2] at h6
    cases h6
    have hr1 := applies_at ht hs hr h4
    obtain ⟨r', h7, h8⟩ := follows_steps ht hs m' hs2 hr1 h5
    have hrep := replay_eq t.dict m' r (es.take k) (fun e he => hfit e (List.mem_of_mem_take he)) (hroot r hr)
    have hrep' := replay_eq t.dict m' r1 (es.drop k) (fun e he => hfit e (List.mem_of_mem_drop he)) (hroot r1 hr1)
    rw [h2] at hrep
    rw [applyAll_of_applies h7] at hrep'
    refine .inr ⟨k, _, _, r1, r', bytes_eq m μ ⟨es.take k⟩ (fun e he => hfit e (List.mem_of_mem_take he)),
      bytes_eq m μ' ⟨es.drop k⟩ (fun e he => hfit e (List.mem_of_mem_drop he)), by rw [hrun, h3], hrep, hrep', h8,
      fun j u w1 h9 h10 => ?_⟩
    obtain ⟨r2, h11, h12⟩ := follows_steps ht hs m' (hcall j u w1 h9 h10) hr hsame
    have := applyAll_of_applies h11
    rw [h2] at this
    cases this
    exact h12
  · obtain ⟨r2, h4, h5⟩ := follows_steps ht hs m' hsteps hr hsame
    have h6 := applyAll_of_applies h4
    rw [h2] at h6
    cases h6
    exact .inl ⟨r1, rd', by rw [hrun, h3], h5⟩
  · obtain ⟨r2, h4, _⟩ := follows_steps ht hs m' hsteps hr hsame
    have h6 := applyAll_of_applies h4
    rw [h2] at h6
    cases h6

end

/-! ## Cases -/

/-- A source of bytes in memory, with a list of how many bytes (less one) it will return at most in each call; one byte at a time when
that list is over. -/
def pieces : Source (List Nat × Bytes) where
  read n s := .ok (s.2.take (min n (s.1.headD 0 + 1)), (s.1.tail, s.2.drop (min n (s.1.headD 0 + 1))))

theorem pieces_delivers : Delivers pieces (fun s => s.2) := by
  intro n s
  refine ⟨_, _, rfl, (List.take_append_drop _ _).symm, by rw [List.length_take]; omega, fun hn hne => ?_⟩
  rw [ne_eq, List.take_eq_nil_iff]
  rintro (h | h)
  · omega
  · exact hne h

/-- The same source, failing when the list is over. -/
def brittle : Source (List Nat × Bytes) where
  read n s := if s.1.isEmpty then .error () else pieces.read n s

theorem brittle_breaks : Breaks brittle pieces := by
  intro n s
  show (if s.1.isEmpty then _ else _) = _ ∨ (if s.1.isEmpty then _ else _) = _
  cases s.1.isEmpty
  · exact .inl rfl
  · exact .inr rfl

/-- Not vacuous: a struct with a list, an enum, a map and a string, whatever the pieces. -/
example (sizes : List Nat) (bs : Bytes) (m : Mode) (buffer : Nat → Nat) :=
  C62_decode_from_any_source exTy exTy_wf pieces_delivers ⟨buffer, bs.length⟩ m Rt.dflt exTy.dict.dflt (anyLaw exTy exTy_wf).at_dflt
    (.new (sizes, bs)) (by simp [Rdr.left, Rdr.new])

/-- The history of six calls of `Verif/Props/Sync.lean`, sent in pieces over a connection that breaks. -/
example (m' : Mode) (μ : Nat → Mem) :=
  C62_replica_over_broken_connection (ρ := List Nat × Bytes) hTy hTy_wf rfl (by decide) (by decide) .debug m' μ μ 4 9 hOps
    (hVal [] [] (hA 0)) (hTy.dict.withRuntime ⟨9, []⟩) hWorld (hVal_at 4) ((carried_init hTy).1 ⟨4, []⟩) (hVal_at 9) rfl rfl
    (hOps_ok hWorld)

/-- What a root list holds after a replay from a source, and whether it succeeded. -/
def listAfterR {ρ : Type} (r : RRes ρ (Ty.list (.uint .w8)).El) : List (BitVec 8) × Bool :=
  match r with
  | .ok r _ => (r.items, true)
  | .err r _ => (r.items, false)

/-- Two pushes to a list, in pieces of three, one and two bytes and then single bytes; and over connections that break after 0, 2, …, 18
calls. -/
example :
    listAfterR (replayR (Ty.list (.uint .w8)).dict pieces ⟨fun _ => 31, 10⟩ .debug ⟨⟨9, []⟩, []⟩
        (.new ([2, 0, 1], [4#8, 8#8, 10#8, 1#8, 7#8, 4#8, 8#8, 10#8, 1#8, 9#8]))) = ([7#8, 9#8], true) ∧
      (List.range 10).map (fun n => listAfterR (replayR (Ty.list (.uint .w8)).dict brittle ⟨fun _ => 31, 10⟩ .debug ⟨⟨9, []⟩, []⟩
        (.new (List.replicate (2 * n) 0, [4#8, 8#8, 10#8, 1#8, 7#8, 4#8, 8#8, 10#8, 1#8, 9#8])))) =
      [([], false), ([], false), ([], false), ([7#8], false), ([7#8], false), ([7#8, 9#8], false), ([7#8, 9#8], true), ([7#8, 9#8], true),
        ([7#8, 9#8], true), ([7#8, 9#8], true)] := by
  decide +kernel

/-- Of the update of `C61_cut_update_misread_false` a connection that ends after two bytes resets the replica; one that fails after two
bytes changes nothing. -/
example :
    hAfter (match replayR hTy.dict pieces ⟨fun _ => 31, 10⟩ .debug (hVal [7#8] [] (hB [8#8])) (.new ([], [10#8, 0#8])) with
      | .ok r _ => .ok r []
      | .err r _ => .err r .panic) = ([], none, true) ∧
    hAfter (match replayR hTy.dict brittle ⟨fun _ => 31, 10⟩ .debug (hVal [7#8] [] (hB [8#8]))
        (.new ([0, 0], [10#8, 0#8, 2#8, 3#8, 2#8, 1#8, 5#8, 10#8, 2#8, 1#8, 2#8])) with
      | .ok r _ => .ok r []
      | .err r _ => .err r .panic) = ([7#8], some [8#8], false) := by
  decide +kernel

/-- A source that never comes to its end: it fails there. -/
example : NeverEnds (⟨fun n (bs : Bytes) => if bs.isEmpty then .error () else .ok (bs.take n, bs.drop n)⟩ : Source Bytes) := by
  intro n s got s' hn h
  cases s with
  | nil => cases h
  | cons b bs =>
    cases h
    cases n with
    | zero => omega
    | succ n => simp

/-! ## What is not true -/

/-- C62 does not extend to callers of the public `Reader::as_mut_read`: called between `eof` and reading on, it gives a reader that
skips the next byte, and the outer reader returns that byte after the others. -/
theorem C62_as_mut_read_after_eof_false :
    ∃ (rd rd1 rd2 : Rdr (List Nat × Bytes)), pieces.eof (.new ([], [1#8, 2#8, 3#8])) = .ok (false, rd) ∧
      rd.left (fun s => s.2) = [1#8, 2#8, 3#8] ∧ pieces.readByte (Source.asMutRead rd) = .ok (2#8, rd1) ∧
      pieces.readByte ⟨rd.next, rd1.raw⟩ = .ok (1#8, rd2) :=
  ⟨⟨some 1#8, ([], [2#8, 3#8])⟩, ⟨none, ([], [3#8])⟩, ⟨none, ([], [3#8])⟩, rfl, rfl, rfl, rfl⟩

end Steit
