import Verif.Lemmas.CSharpRevisionFollow
import Verif.Props.CSharpReplay
import Verif.Props.Revision
import Verif.Props.RevisionLog

/-!
# C# clients generated from another revision of the type: property C59

The Rust program has the type `r.wr`, the classes of the client were generated from `r.rd`. `see` (`Verif/Spec/Revision.lean`) is
what the client should show; the side conditions are in `Verif/Spec/CSharpRevision.lean`.
-/

namespace Steit
open Spec Prog

/-! ## C59 -/

/-- C59: the client reads what Rust wrote, and shows what it can see of it. Fields it does not know are skipped, fields only it knows
are at their defaults, and a variant it does not know appears as the default variant. Missing, compared with the claim: types without
a working C# counterpart (`Mirrored`), data of 2 GiB or more, fields of array types that the writer does not have (`Rev.Bare`,
`C59_array_missing`). -/
theorem C59_reads_other_revision_partial (r : Rev) (hw : r.wr.WF) (hr : r.rd.WF) (hu : r.Rules) (hb : r.Bare) (hm : Mirrored r.rd)
    (hroot : Rooted r.rd) (ρ : Bytes → Str) (m : Mode) (μ : Mem) (v : r.wr.El) (hwr : Writable r.wr v) (hl : LegibleRev r v)
    (hlen : (encode r.wr v).length < 2 ^ 31) :
    ∃ bytes c, r.wr.dict.toBytesFrom m μ v = .ok bytes ∧ r.rd.csDeserializeRoot ρ bytes = .ok (c, []) ∧ Shows r.rd (see r v) c := by
  obtain ⟨c, h1, h2⟩ := readableRev ρ r hw hr hu hb hm v hl hlen
  have := h2 [] (fun _ => rfl)
  rw [List.append_nil] at this
  exact ⟨encode r.wr v, c, toBytes_eq r.wr hw m μ v hwr (by omega), (csDeserializeRoot_eq ρ r.rd hroot _).trans this, h1⟩

/-- Not vacuous: a newer program writes a field (3) and a variant (4) the client does not know, and not the field (9) only the client
has; an integer became wider in the client. -/
def csRev : Rev :=
  .struct false true true false
    (.keep 0#32 {} {} (.list (.sint .w8 .w32))
    (.add 3#32 {} (.vec .bytes)
    (.drop 9#32 { noState := true } (.option .bool)
    (.keep 2#32 {} {} (.enum false false true false (.keep 0#32 {} { noState := true } (.same .bytes) .nil)
      (.keep 1#32 true true (.keep 5#32 {} {} (.same (.list (.uint .w8))) .nil)
      (.add 4#32 true (.cons 0#32 {} (.uint .w64) .nil) .nil))) .nil))))

theorem csRev_wr : csRev.wr.WF := by
  simp only [csRev, Ty.WF, Fields.WF, Variants.WF, Fields.tags, Variants.tags, Ty.isState]
  decide

theorem csRev_rd : csRev.rd.WF := by
  simp only [csRev, Ty.WF, Fields.WF, Variants.WF, Fields.tags, Variants.tags, Ty.isState]
  decide

theorem csRev_rules : csRev.Rules := by
  simp only [csRev, Rev.Rules, RevFields.Rules, RevVariants.Rules, RevFields.tags]
  decide

theorem csRev_bare : csRev.Bare := by
  simp [csRev, Rev.Bare, RevFields.Bare, RevVariants.Bare, Bare, BareFields, RevVariants.Complete, RevVariants.tags]

theorem csRev_mirrored : Mirrored csRev.rd := by
  simp [csRev, Mirrored, MirroredFields, MirroredVariants, GoodField]

/-- A value of the writer, in the variant the client does not know. -/
def csRevVal : csRev.wr.El :=
  ⟨Rt.dflt, (⟨Rt.dflt, [5#8, 255#8]⟩, [[104#8, 105#8]], ⟨Rt.dflt, .inr (.inr (.inl ((77#64 : BitVec 64), ())))⟩, ())⟩

example (ρ : Bytes → Str) : ∃ bytes c, csRev.wr.dict.toBytesFrom .debug (fun _ => 0) csRevVal = .ok bytes ∧
    csRev.rd.csDeserializeRoot ρ bytes = .ok (c, []) ∧ Shows csRev.rd (see csRev csRevVal) c ∧
    (see csRev csRevVal).fields = (⟨Rt.dflt, [5#32, 4294967295#32]⟩, none, ⟨Rt.dflt, .inl ([], ())⟩, ()) := by
  obtain ⟨bytes, c, h1, h2, h3⟩ := C59_reads_other_revision_partial csRev csRev_wr csRev_rd csRev_rules csRev_bare csRev_mirrored
    trivial ρ .debug (fun _ => 0) csRevVal (by simp [csRev, csRevVal, Writable, WritableFields, WritableVariant]) (by
      simp [csRev, csRevVal, LegibleRev, LegibleRevFields, LegibleRevVariant]) (by decide +kernel)
  exact ⟨bytes, c, h1, h2, h3, rfl⟩

theorem csReplayRev_steps (ρ : Bytes → Str) (r : Rev) (hw : r.wr.WF) (hr : r.rd.WF) (hu : r.Rules) (hb : r.Bare)
    (hm : Mirrored r.rd) (hst : r.Steady) {es : List Entry} : ∀ {v v' : r.wr.El} {c : r.rd.Cs}, Steps (Means r.wr) v es v' →
      Shows r.rd (see r v) c → (∀ e ∈ es, CsFits e) →
      ∃ c', Eats (r.rd.csReplayStep ρ) c (es.flatMap entryBytes) c' ∧ Shows r.rd (see r v') c' := by
  induction es with
  | nil => intro v v' c h hs _; cases h; exact ⟨c, .refl c, hs⟩
  | cons e es ih =>
    intro v v' c h hs hf
    obtain ⟨u, h1, h2⟩ := h
    have hfe := hf e List.mem_cons_self
    obtain ⟨c1, h3, h4⟩ := csFollowsRev ρ r hw hr hu hb hm hst h1 hs (by unfold CsFits at hfe; omega)
    obtain ⟨c', h5, h6⟩ := ih h2 h4 (fun e he => hf e (List.mem_cons_of_mem _ he))
    exact ⟨c', (Eats.one (entryBytes_ne e) (csReplayStep_entry ρ r.rd c c1 e hfe h3)).trans h5, h6⟩

/-- C59 for logs: a Rust source at a root, and a client with another revision of the type, showing what it can see of the source's data.
The source makes any number of API calls of any kind, at any depth, also on fields and in variants the client does not know. Replaying
the bytes of the log throws no exception, and the client shows again what it can see of the source's data. (A Rust replica stops at the
first entry it does not know, `C56_stops_at_unknown`.) Missing, compared with the claim: as for C46, and fields that entries can reach
and that changed their wire type, or from `List` to `Vec` (`Rev.Steady`; `C59_retyped_misread`, `C59_list_to_vec`). -/
theorem C59_client_follows_partial (r : Rev) (hwf : r.wr.WF) (hr : r.rd.WF) (hu : r.Rules) (hb : r.Bare) (hm : Mirrored r.rd)
    (hst : r.Steady) (ρ : Bytes → Str) (m : Mode) (μ : Nat → Mem) (id : Nat) (ops : List r.wr.Op) (v : r.wr.El) (c : r.rd.Cs)
    (w : World) (hv : At r.wr ⟨id, []⟩ v) (hc : Carried r.wr v) (hs : Shows r.rd (see r v) c) (hw : w.loggers id = ⟨0, []⟩)
    (hops : CallsSync r.wr m ops v w) :
    ∃ v' w', calls r.wr m ops v w = (.ok v', w') ∧ At r.wr ⟨id, []⟩ v' ∧ Carried r.wr v' ∧ (w'.loggers id).paused = 0 ∧
      ((∀ e ∈ (w'.loggers id).entries, CsFits e) →
        ∃ bytes c', (BufferLogger.mk (w'.loggers id).entries).bytes m μ = .ok bytes ∧ r.rd.csReplay ρ c bytes = .ok c' ∧
          Shows r.rd (see r v') c') := by
  obtain ⟨v', w', es, h1, hv', hc', hl, hsteps⟩ := calls_tell r.wr hwf m ops v ⟨id, []⟩ w hv hc hops
  have hlog : w'.loggers id = ⟨0, es⟩ := by
    have := hl
    unfold Logged at this
    rw [map_under_nil, hw] at this
    simpa [appended] using this
  refine ⟨v', w', h1, hv', hc', by rw [hlog], fun hfit => ?_⟩
  rw [hlog] at hfit ⊢
  obtain ⟨c', h2, h3⟩ := csReplayRev_steps ρ r hwf hr hu hb hm hst hsteps hs hfit
  exact ⟨_, c', bytes_eq m μ ⟨es⟩ (fun e he => by have := hfit e he; unfold CsFits at this; unfold Fits; omega), h2.done, h3⟩

/-- C59 in rounds: the log is sent and drained from time to time. -/
theorem C59_in_rounds_partial (r : Rev) (hwf : r.wr.WF) (hr : r.rd.WF) (hu : r.Rules) (hb : r.Bare) (hm : Mirrored r.rd)
    (hst : r.Steady) (ρ : Bytes → Str) (m : Mode) (μ : Nat → Mem) (id : Nat) (history : List (List r.wr.Op)) :
    ∀ (v : r.wr.El) (c : r.rd.Cs) (w : World), At r.wr ⟨id, []⟩ v → Carried r.wr v → Shows r.rd (see r v) c →
      w.loggers id = ⟨0, []⟩ → CsRoundsSync r.wr m id history v w →
      ∃ v' c' w', csRevRounds r ρ m μ id history v c w = some (v', c', w') ∧ Shows r.rd (see r v') c' ∧ w'.loggers id = ⟨0, []⟩ := by
  induction history with
  | nil => intro v c w _ _ hs hw _; exact ⟨v, c, w, rfl, hs, hw⟩
  | cons ops history ih =>
    intro v c w hv hc hs hw ⟨hops, hn⟩
    obtain ⟨v', w', h1, hv', hc', hp', hf⟩ := C59_client_follows_partial r hwf hr hu hb hm hst ρ m μ id ops v c w hv hc hs hw hops
    obtain ⟨hfit, hrest⟩ := hn v' w' h1
    obtain ⟨bytes, c', h2, h3, h4⟩ := hf hfit
    obtain ⟨v2, c2, w2, h5, h6⟩ := ih v' c' (drained id w') hv' hc' h4 (by simp only [drained, if_true]; rw [hp']) hrest
    refine ⟨v2, c2, w2, ?_, h6⟩
    simp only [csRevRounds, h1, h2, h3]
    exact h5

/-- C59 for a client that joins late: it gets the bytes of the source's current state, then the log of what happens next. -/
theorem C59_joins_late_partial (r : Rev) (hwf : r.wr.WF) (hr : r.rd.WF) (hu : r.Rules) (hb : r.Bare) (hm : Mirrored r.rd)
    (hst : r.Steady) (hroot : Rooted r.rd) (ρ : Bytes → Str) (m : Mode) (μ : Mem) (μ' : Nat → Mem) (id : Nat) (ops : List r.wr.Op)
    (v : r.wr.El) (w : World) (hv : At r.wr ⟨id, []⟩ v) (hc : Carried r.wr v) (hlen : (encode r.wr v).length < 2 ^ 31)
    (hw : w.loggers id = ⟨0, []⟩) (hops : CallsSync r.wr m ops v w) :
    ∃ snapshot c v' w', r.wr.dict.toBytesFrom m μ v = .ok snapshot ∧ r.rd.csDeserializeRoot ρ snapshot = .ok (c, []) ∧
      calls r.wr m ops v w = (.ok v', w') ∧
      ((∀ e ∈ (w'.loggers id).entries, CsFits e) →
        ∃ bytes c', (BufferLogger.mk (w'.loggers id).entries).bytes m μ' = .ok bytes ∧ r.rd.csReplay ρ c bytes = .ok c' ∧
          Shows r.rd (see r v') c') := by
  obtain ⟨snapshot, c, h1, h2, h3⟩ := C59_reads_other_revision_partial r hwf hr hu hb hm hroot ρ m μ v (carried_writable r.wr v hc)
    (carried_legibleRev r hm v hc) hlen
  obtain ⟨v', w', h4, _, _, _, h5⟩ := C59_client_follows_partial r hwf hr hu hb hm hst ρ m μ' id ops v c w hv hc h3 hw hops
  exact ⟨snapshot, c, v', w', h1, h2, h4, h5⟩

/-- C24's example type, and an earlier revision of it that a client was generated from: no map (1), no second variant, narrower
integers, and a field (9) that is gone. -/
def oRev : Rev :=
  .struct true true true false
    (.keep 0#32 {} {} (.list (.same (.uint .w8)))
    (.add 1#32 {} (.map .u8 (.list (.uint .w8)))
    (.drop 9#32 {} (.list .bool)
    (.keep 2#32 {} {} (.enum true false true false (.keep 0#32 {} {} (.uint .w32 .w64) .nil)
      (.add 1#32 true (.cons 5#32 {} (.list (.uint .w8)) .nil) .nil)) .nil))))

theorem oRev_wr : oRev.wr = hTy := rfl

theorem oRev_rd : oRev.rd.WF := by
  simp only [oRev, Ty.WF, Fields.WF, Variants.WF, Fields.tags, Variants.tags, Ty.isState]
  decide

theorem oRev_rules : oRev.Rules := by
  simp only [oRev, Rev.Rules, RevFields.Rules, RevVariants.Rules, RevFields.tags]
  decide

theorem oRev_bare : oRev.Bare := by
  simp [oRev, Rev.Bare, RevFields.Bare, RevVariants.Bare, Bare, BareFields, RevVariants.Complete, RevVariants.tags]

theorem oRev_mirrored : Mirrored oRev.rd := by
  simp [oRev, Mirrored, MirroredFields, MirroredVariants, GoodField]

theorem oRev_steady : oRev.Steady := by
  simp [oRev, Rev.Steady, RevFields.Steady, RevVariants.Steady]

/-- Not vacuous: C59 applied to the history of C24's example. Of the seven entries, some are for the map the client does not have, and
some for the variant it does not know. -/
example (ρ : Bytes → Str) (μ : Nat → Mem) :
    ∃ v' w', calls hTy .debug hOps (hVal [] [] (hA 0)) hWorld = (.ok v', w') ∧
      (w'.loggers 4).entries.length = 7 ∧
      ∃ bytes c', (BufferLogger.mk (w'.loggers 4).entries).bytes .debug μ = .ok bytes ∧
        oRev.rd.csReplay ρ oRev.rd.csNew bytes = .ok c' ∧ Shows oRev.rd (see oRev v') c' := by
  obtain ⟨v', w', h1, _, _, _, h2⟩ := C59_client_follows_partial oRev hTy_wf oRev_rd oRev_rules oRev_bare oRev_mirrored oRev_steady ρ
    .debug μ 4 hOps (hVal [] [] (hA 0)) oRev.rd.csNew hWorld (hVal_at 4) ((carried_init hTy).1 ⟨4, []⟩)
    ⟨.nil, .nil, ⟨rfl, trivial⟩, trivial⟩ rfl (hOps_ok hWorld)
  have he : (w'.loggers 4).entries = ((calls hTy .debug hOps (hVal [] [] (hA 0)) hWorld).2.loggers 4).entries := by
    rw [show calls hTy .debug hOps (hVal [] [] (hA 0)) hWorld = _ from h1]
  have hfit : ∀ e ∈ (w'.loggers 4).entries, CsFits e := by
    rw [he]
    unfold CsFits
    decide +kernel
  obtain ⟨bytes, c', h3, h4, h5⟩ := h2 hfit
  exact ⟨v', w', h1, by rw [he]; decide +kernel, bytes, c', h3, h4, h5⟩

/-- A Rust replica of that revision reports an error on the same bytes. -/
example (m : Mode) : ∃ bytes x, (BufferLogger.mk ((calls hTy .debug hOps (hVal [] [] (hA 0)) hWorld).2.loggers 4).entries).bytes .debug
      (fun _ _ => 0) = .ok bytes ∧
    replay oRev.rd.dict m (oRev.rd.dict.withRuntime ⟨9, []⟩) bytes = .err x .invalidData := by
  cases m
  · exact ⟨_, _, rfl, rfl⟩
  · exact ⟨_, _, rfl, rfl⟩

/-! ## C59, where it ends -/

/-- C59 fails for a field that changed its wire type: a client that reads the data of the source skips the field, as it should, but one
that replays the log takes the bytes of the number for the new type's, so that the two differ. -/
theorem C59_retyped_misread (ρ : Bytes → Str) :
    let r : Rev := .struct true true true true (.retype 0#32 {} { noState := true } (.uint .w32) .bytes .nil)
    let v : r.wr.El := ⟨⟨4, []⟩, ((0#32 : BitVec 32), ())⟩
    r.Rules ∧ r.wr.WF ∧ r.rd.WF ∧ ∃ v' w' bytes snapshot,
      calls r.wr .release [.inl (.set (300#32 : BitVec 32))] v hWorld = (.ok v', w') ∧
      (BufferLogger.mk (w'.loggers 4).entries).bytes .release (fun _ _ => 0) = .ok bytes ∧
      r.wr.dict.toBytesFrom .release (fun _ => 0) v' = .ok snapshot ∧
      r.rd.csDeserializeRoot ρ snapshot = .ok (([], ()), []) ∧
      r.rd.csReplay ρ r.rd.csNew bytes = .ok ([172#8, 2#8], ()) := by
  refine ⟨⟨by decide, by decide, trivial⟩, ?_, ?_, ⟨⟨4, []⟩, ((300#32 : BitVec 32), ())⟩, _, _, _, rfl, rfl, rfl, rfl, rfl⟩
  · simp only [Ty.WF, Rev.wr, RevFields.wr, Fields.WF, Fields.tags, Ty.isState]
    decide
  · simp only [Ty.WF, Rev.rd, RevFields.rd, Fields.WF, Fields.tags, Ty.isState]
    decide

/-- C59 fails for an array that the writer does not have: Rust fills it with defaults, in C# it is empty. -/
theorem C59_array_missing (ρ : Bytes → Str) (n : Nat) (hn : n ≠ 0) :
    let r : Rev := .struct true true true true (.drop 0#32 {} (.array n .bool) .nil)
    ∀ v : r.wr.El, ∃ c, r.rd.csDeserializeRoot ρ (encode r.wr v) = .ok (c, []) ∧ c = (([], ()) : (Fields.cons 0#32 {} (.array n .bool) .nil).Cs) ∧
      (see r v).fields.1.1 = List.replicate n false ∧ ¬ Shows r.rd (see r v) c := by
  intro r v
  have h : (see r v).fields.1.1 = List.replicate n false := by
    show (List.replicate n false).map (strip .bool) = _
    rw [List.map_replicate]
    rfl
  refine ⟨([], ()), rfl, rfl, h, fun hs => ?_⟩
  have h1 : List.Forall₂ (Shows .bool) (see r v).fields.1.1 [] := hs.1
  rw [h] at h1
  have := h1.length_eq
  simp at this
  exact hn this

/-- C59 fails for a list that became a `Vec`: the client throws an exception on the first item pushed. -/
theorem C59_list_to_vec (ρ : Bytes → Str) :
    let r : Rev := .struct true true true true (.keep 0#32 {} { noState := true } (.listVec (.same .bool)) .nil)
    let v : r.wr.El := ⟨⟨4, []⟩, (⟨⟨4, [0#32]⟩, []⟩, ())⟩
    r.Rules ∧ r.wr.WF ∧ r.rd.WF ∧ ∃ v' w' bytes,
      calls r.wr .release [.inl (.inner (.push true))] v hWorld = (.ok v', w') ∧
      (BufferLogger.mk (w'.loggers 4).entries).bytes .release (fun _ _ => 0) = .ok bytes ∧
      Shows r.rd (see r v) r.rd.csNew ∧ r.rd.csReplay ρ r.rd.csNew bytes = .error .notSupported := by
  refine ⟨⟨by decide, trivial, trivial⟩, ?_, ?_, ⟨⟨4, []⟩, (⟨⟨4, [0#32]⟩, [true]⟩, ())⟩, _, _, rfl, rfl, ⟨.nil, trivial⟩, rfl⟩
  · simp only [Ty.WF, Rev.wr, RevFields.wr, Fields.WF, Fields.tags, Ty.isState]
    decide
  · simp only [Ty.WF, Rev.rd, RevFields.rd, Fields.WF, Fields.tags, Ty.isState]
    decide

end Steit
