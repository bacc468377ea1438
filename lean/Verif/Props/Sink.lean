import Verif.Lemmas.Sink
import Verif.Props.Reader

/-!
# Serializing to any `io::Write`: property C63

Elsewhere the output is the list of bytes written. Here it goes, call by call, to a sink that takes what it likes of what it is offered,
or fails.
-/

namespace Steit
open Spec Prog

section
variable {σ : Type} {S : Sink σ} {got : σ → Bytes}

/-- C63, values: `steit_serialize` to any sink, whatever the size caches held before. Either it succeeds, and the sink has been given
exactly the encoding of the value, in order, after what it had before; or the sink fails, the error is reported, and the sink has been
given a proper prefix of the encoding. Nothing else can happen: no panic, no other error, no byte twice, none missing. -/
theorem C63_serialize_to_any_sink (t : Ty) (ht : t.WF) (hS : Accepts S got) (m : Mode) (μ : Mem) (v : t.El) (hw : Writable t v)
    (hlen : (encode t v).length < 2 ^ 32) (s : σ) :
    (∃ μ' s', (steitSerializeW t.dict t.writes m [] v).run S μ s = (.ok (), μ', s') ∧ got s' = got s ++ encode t v) ∨
    (∃ μ' s' a b, (steitSerializeW t.dict t.writes m [] v).run S μ s = (.error .sink, μ', s') ∧ encode t v = a ++ b ∧ b ≠ [] ∧
      got s' = got s ++ a) := by
  obtain ⟨μ', h⟩ := run_unwrap _ μ _ (toBytes_eq t ht m μ v hw hlen)
  rw [← steitSerialize_collect] at h
  rcases run_spec hS _ μ s _ μ' h with ⟨s', h1, h2⟩ | ⟨μ1, s', a, b, h1, h2, h3, h4⟩
  · exact .inl ⟨μ', s', h1, h2⟩
  · exact .inr ⟨μ1, s', a, b, h1, h2, h3, h4⟩

/-- C63, values: a sink that always takes something is given the whole encoding, in however many pieces it takes it. -/
theorem C63_reliable_sink (t : Ty) (ht : t.WF) (hS : Accepts S got) (hR : Reliable S) (m : Mode) (μ : Mem) (v : t.El)
    (hw : Writable t v) (hlen : (encode t v).length < 2 ^ 32) (s : σ) :
    ∃ μ' s', (steitSerializeW t.dict t.writes m [] v).run S μ s = (.ok (), μ', s') ∧ got s' = got s ++ encode t v := by
  rcases C63_serialize_to_any_sink t ht hS m μ v hw hlen s with h | ⟨μ', s', _, _, h, _⟩
  · exact h
  · exact absurd h (run_reliable hR _ _ _ _ _)

/-- C63, values: a value serialized to any reliable sink and decoded from any source that delivers what that sink was given is the
value again. -/
theorem C63_through_any_pipe (t : Ty) (ht : t.WF) (hS : Accepts S got) (hR : Reliable S) (m m' : Mode) (μ : Mem) (v : t.El)
    (hc : Carried t v) (hlen : (encode t v).length < 2 ^ 32) (s : σ) (hs : got s = []) :
    ∃ μ' s', (steitSerializeW t.dict t.writes m [] v).run S μ s = (.ok (), μ', s') ∧
      ∀ {ρ : Type} (R : Source ρ) (rem : ρ → Bytes) (env : Env) (r : ρ), Delivers R rem → rem r = got s' →
        (got s').length ≤ env.fuel → ∃ v' rd, t.mergeR ρ R env m' t.dict.dflt (.new r) = .ok v' rd ∧ Same t v' v := by
  obtain ⟨μ', s', h1, h2⟩ := C63_reliable_sink t ht hS hR m μ v (carried_writable t v hc) hlen s
  rw [hs, List.nil_append] at h2
  refine ⟨μ', s', h1, fun {ρ} R rem env r hD hr hf => ?_⟩
  have hleft : (Rdr.new r).left rem = encode t v := by simp [Rdr.left, Rdr.new, hr, h2]
  obtain ⟨v', h3, h4⟩ := (decLaw t ht).round m' Rt.dflt v [] hc hlen (fun _ => rfl)
  rw [List.append_nil, ← hleft, ← (decLaw t ht).dflt_eq] at h3
  rcases C62_decode_from_any_source t ht hD env m' Rt.dflt t.dict.dflt (anyLaw t ht).at_dflt (.new r)
    (by rw [hleft, ← h2]; exact hf) with ⟨v2, rd, h5, h6, _⟩ | ⟨v2, e, _, h6⟩
  · rw [h3] at h6
    injection h6 with h6 _
    exact ⟨v', rd, by rw [h6]; exact h5, h4⟩
  · rw [h3] at h6
    cases h6

/-- C63, `to_bytes`: writing to a `Vec<u8>` and unwrapping, call by call, is `to_bytes` as modelled elsewhere, for every value and
whatever the caches hold. -/
theorem C63_to_bytes (t : Ty) (m : Mode) (μ : Mem) (v : t.El) :
    t.dict.toBytesFrom m μ v = match (steitSerializeW t.dict t.writes m [] v).run vecSink μ [] with
      | (.ok _, _, bytes) => .ok bytes
      | (.error _, _, _) => .error .panic := by
  have h := run_vecSink (steitSerializeW t.dict t.writes m [] v) μ []
  rw [steitSerialize_collect] at h
  unfold Dict.toBytesFrom Dict.toBytes
  rw [run_unwrap_eq]
  cases hr : (t.dict.steitSerialize m [] v).run μ with
  | mk r μ' =>
    rw [hr] at h
    cases r with
    | ok bs =>
      rw [h]
      rfl
    | error e =>
      obtain ⟨s', h⟩ := h
      rw [h]

/-- C63, logs: the entries of a log are sent one after the other to any sink. Either all are, and the sink has been given what
`BufferLogger::bytes` returns; or the sink fails, the error is reported, and the sink has been given the first `n` bytes of that, not
all. -/
theorem C63_log_to_any_sink (hS : Accepts S got) (m : Mode) (μ μ' : Nat → Mem) (es : List Entry) (hfit : ∀ e ∈ es, Fits e) (s : σ) :
    ∃ bytes, (BufferLogger.mk es).bytes m μ' = .ok bytes ∧
      ((∃ s', sendLog S m μ 0 es s = (.ok (), s') ∧ got s' = got s ++ bytes) ∨
       (∃ s' n, sendLog S m μ 0 es s = (.error .sink, s') ∧ n < bytes.length ∧ got s' = got s ++ bytes.take n)) := by
  refine ⟨_, bytes_eq m μ' ⟨es⟩ hfit, ?_⟩
  show (∃ s', sendLog S m μ 0 es s = (.ok (), s') ∧ got s' = got s ++ es.flatMap entryBytes) ∨
    ∃ s' n, sendLog S m μ 0 es s = (.error .sink, s') ∧ n < (es.flatMap entryBytes).length ∧
      got s' = got s ++ (es.flatMap entryBytes).take n
  generalize 0 = i
  induction es generalizing i s with
  | nil => exact .inl ⟨s, rfl, by simp⟩
  | cons e es ih =>
    have he : e.bytes m (μ i) = .ok (entryBytes e) := entry_bytes_eq m (μ i) e (entry_small (hfit e (by simp)))
    obtain ⟨μ1, h1⟩ := run_bind_unwrap _ _ (μ i) _ he
    rw [← send_collect] at h1
    unfold sendLog
    rw [List.flatMap_cons]
    rcases run_spec hS _ (μ i) s _ μ1 h1 with ⟨s1, h2, h3⟩ | ⟨μ2, s1, a, b, h2, h3, h4, h5⟩
    · rw [h2]
      simp only
      rcases ih (fun e he => hfit e (by simp [he])) s1 (i + 1) with ⟨s2, h4, h5⟩ | ⟨s2, n, h4, h5, h6⟩
      · exact .inl ⟨s2, h4, by rw [h5, h3, List.append_assoc]⟩
      · refine .inr ⟨s2, (entryBytes e).length + n, h4, by rw [List.length_append]; omega, ?_⟩
        rw [h6, h3, List.append_assoc, List.take_length_add_append]
    · rw [h2]
      refine .inr ⟨s1, a.length, rfl, ?_, ?_⟩
      · rw [h3]
        have := List.length_pos_iff.2 h4
        simp only [List.length_append]
        omega
      · rw [h5, h3, List.append_assoc, List.take_left']
        rfl

/-- C63, logs: a program makes any number of calls and its log is sent to a sink that may fail at any point; a C# client replays what
the sink has been given. If sending reports no error, that is the whole log. Otherwise it is its first `n` bytes, and the client shows
what the program had after the first `k` entries, for some `k`, and throws at a part of an entry. -/
theorem C63_client_behind_any_sink (t : Ty) (ht : t.WF) (hm : Mirrored t) (ρ : Bytes → Str) (hS : Accepts S got) (m : Mode)
    (μ μ' : Nat → Mem) (id : Nat) (ops : List t.Op) (v : t.El) (c : t.Cs) (w : World) (hv : At t ⟨id, []⟩ v) (hc : Carried t v)
    (hs : Shows t v c) (hw : w.loggers id = ⟨0, []⟩) (hops : CallsSync t m ops v w) (s : σ) (h0 : got s = []) :
    ∃ v' w', calls t m ops v w = (.ok v', w') ∧
      ((∀ e ∈ (w'.loggers id).entries, CsFits e) →
        ∃ bytes s' n, (BufferLogger.mk (w'.loggers id).entries).bytes m μ = .ok bytes ∧ got s' = bytes.take n ∧
          ((sendLog S m μ' 0 (w'.loggers id).entries s = (.ok (), s') ∧ n = bytes.length) ∨
           (sendLog S m μ' 0 (w'.loggers id).entries s = (.error .sink, s') ∧ n < bytes.length)) ∧
          ∃ k whole rest c1 c', (BufferLogger.mk ((w'.loggers id).entries.take k)).bytes m μ = .ok whole ∧
            (BufferLogger.mk ((w'.loggers id).entries.drop k)).bytes m μ' = .ok rest ∧
            t.csReplay ρ c whole = .ok c1 ∧ t.csReplay ρ c1 rest = .ok c' ∧ Shows t v' c' ∧
            (∀ j u w1, calls t m (ops.take j) v w = (.ok u, w1) → (w1.loggers id).entries.length = k → Shows t u c1) ∧
            ((got s' = whole ∧ t.csReplayLeft ρ n c (got s') = (c1, none)) ∨
              (got s' ≠ whole ∧ t.csReplayLeft ρ n c (got s') = (c1, some .endOfStream)))) := by
  obtain ⟨v', w', h1, h2⟩ := C61_client_of_cut_log t ht hm ρ m μ μ' id ops v c w hv hc hs hw hops
  refine ⟨v', w', h1, fun hfit => ?_⟩
  obtain ⟨bytes, h3, h4⟩ := h2 hfit
  obtain ⟨bytes', h5, h6⟩ := C63_log_to_any_sink hS m μ' μ (w'.loggers id).entries (fun e he => by have := hfit e he; unfold CsFits at this; unfold Fits; omega) s
  rw [h3] at h5
  cases h5
  rcases h6 with ⟨s', h6, h7⟩ | ⟨s', n, h6, h7, h8⟩
  · refine ⟨bytes, s', bytes.length, h3, by rw [h7, h0, List.nil_append, List.take_length], .inl ⟨h6, rfl⟩, ?_⟩
    have := h4 bytes.length
    rw [h7, h0, List.nil_append]
    rwa [List.take_length] at this
  · refine ⟨bytes, s', n, h3, by rw [h8, h0, List.nil_append], .inr ⟨h6, h7⟩, ?_⟩
    rw [h8, h0, List.nil_append]
    exact h4 n

end

/-! ## Cases -/

/-- A sink that takes at most as many bytes (plus one) in each call as the next number of a list says, and fails when that list is
over; it keeps what it has taken. -/
def narrow : Sink (List Nat × Bytes) where
  write bs s :=
    match s.1 with
    | [] => (.error (), s)
    | n :: ns => (.ok (min bs.length (n + 1)), (ns, s.2 ++ bs.take (min bs.length (n + 1))))

theorem narrow_accepts : Accepts narrow (fun s => s.2) := by
  rintro bs ⟨ns, s⟩
  cases ns with
  | nil => rfl
  | cons n ns => exact ⟨Nat.min_le_left _ _, rfl⟩

/-- A sink that takes one byte at a time. -/
def dropper : Sink Bytes where
  write bs s := (.ok (min bs.length 1), s ++ bs.take 1)

theorem dropper_accepts : Accepts dropper id := by
  intro bs s
  refine ⟨Nat.min_le_left _ _, ?_⟩
  show s ++ bs.take 1 = s ++ bs.take (min bs.length 1)
  cases bs <;> simp

theorem dropper_reliable : Reliable dropper := by
  intro bs s h
  refine ⟨_, _, rfl, ?_⟩
  have := List.length_pos_iff.2 h
  omega

theorem vecSink_accepts : Accepts vecSink id := by
  intro bs s
  refine ⟨Nat.le_refl _, ?_⟩
  show s ++ bs = s ++ bs.take bs.length
  rw [List.take_length]

/-- Not vacuous: a struct with a list, an enum, a map and a string, to a sink that fails at any point. -/
example (ns : List Nat) (m : Mode) (μ : Mem) :=
  C63_serialize_to_any_sink exTy exTy_wf narrow_accepts m μ exVal exVal_writable (by decide +kernel) (ns, [])

/-- The same value byte by byte, and back from any source. -/
example (m m' : Mode) (μ : Mem) :=
  C63_through_any_pipe exTy exTy_wf dropper_accepts dropper_reliable m m' μ exVal exVal_carried (by decide +kernel) [] rfl

/-- The history of six calls of `Verif/Props/Sync.lean`, sent to a sink that fails at any point. -/
example (ρ : Bytes → Str) (ns : List Nat) (μ : Nat → Mem) :=
  C63_client_behind_any_sink hTy hTy_wf hTy_mirrored ρ narrow_accepts .debug μ μ 4 hOps (hVal [] [] (hA 0)) hTy.csNew hWorld (hVal_at 4)
    ((carried_init hTy).1 ⟨4, []⟩) ⟨.nil, fun _ => .none, ⟨rfl, trivial⟩, trivial⟩ rfl (hOps_ok hWorld) (ns, []) rfl

/-- What arrives of a tuple, and whether that is reported as an error. -/
def arrived {σ α : Type} (got : σ → Bytes) (r : Except OutErr α × Mem × σ) : Bytes × Bool :=
  (got r.2.2, match r.1 with | .ok _ => true | .error _ => false)

/-- A number, a string and a bool; sinks that fail at once, after a few calls, and not at all. The number takes two calls, one for each
byte. -/
example :
    ([[], [0], [5, 5], [0, 0, 0, 1], [9, 9, 9, 1, 1, 9], [9, 9, 9, 9, 9]].map fun ns =>
      arrived (fun s => s.2) ((steitSerializeW (Ty.tuple (.cons (.uint .w16) (.cons .string (.cons .bool .nil)))).dict
        (Ty.tuple (.cons (.uint .w16) (.cons .string (.cons .bool .nil)))).writes .debug []
        (300#16, ⟨[97#8, 98#8, 99#8], by decide⟩, true, ())).run narrow (fun _ => 0) (ns, []))) =
    [([], false), ([172#8], false), ([172#8, 2#8], false), ([172#8, 2#8, 3#8, 97#8, 98#8], false),
      ([172#8, 2#8, 3#8, 97#8, 98#8, 99#8, 1#8], true), ([172#8, 2#8, 3#8, 97#8, 98#8, 99#8, 1#8], true)] := by
  decide +kernel

/-- Two pushes to a list, sent to sinks that fail after some calls. -/
example :
    ([0, 3, 5, 8, 10].map fun n => (sendLog narrow .debug (fun _ _ => 77) 0 [.listPush [] [7#8], .listPush [] [9#8]]
      (List.replicate n 9, [])).2.2) =
    [[], [4#8, 8#8, 10#8], [4#8, 8#8, 10#8, 1#8, 7#8], [4#8, 8#8, 10#8, 1#8, 7#8, 4#8, 8#8, 10#8],
      [4#8, 8#8, 10#8, 1#8, 7#8, 4#8, 8#8, 10#8, 1#8, 9#8]] := by
  decide +kernel

end Steit
