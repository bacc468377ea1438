import Verif.Lemmas.RevisionFollow
import Verif.Props.Revision
import Verif.Props.CSharpReplay

/-!
# Logs between programs with different revisions of a type: property C56

The source has the type `r.wr`, the replica `r.rd` (`Verif/Spec/Revision.lean`). `see` is what the replica should hold; `knows`
(`Verif/Spec/RevisionLog.lean`) says which addresses mean something to it.
-/

namespace Steit
open Spec Prog

/-! ## C56 -/

/-- C56: a source, and a replica with another revision of the type holding what it can see of the source's data. The source makes
any number of API calls of any kind, at any depth. If all log entries are addressed to objects the replica knows, replaying the
log succeeds, and the replica holds again what it can see of the source's data. `hall` holds for `Total` revisions
(`C56_total`). -/
theorem C56_other_revision_follows_partial (r : Rev) (hw : r.wr.WF) (hr : r.rd.WF) (hrules : r.Rules) (hst : r.rd.isState = true)
    (hp : shape r.rd ≠ .prim) (hb : ¬ (shape r.rd = .enum ∧ isBox r.rd = true)) (m m' : Mode)
    (hall : ∀ u, Carried r.wr u → Seen m' r u) (μ : Nat → Mem) (id id' : Nat) (ops : List r.wr.Op) (v : r.wr.El) (x : r.rd.El)
    (w : World) (hv : At r.wr ⟨id, []⟩ v) (hc : Carried r.wr v) (hx : At r.rd ⟨id', []⟩ x) (hsee : strip r.rd x = see r v)
    (hlog : w.loggers id = ⟨0, []⟩) (hops : CallsSync r.wr m ops v w) :
    ∃ v' w', calls r.wr m ops v w = (.ok v', w') ∧ At r.wr ⟨id, []⟩ v' ∧ Carried r.wr v' ∧ (w'.loggers id).paused = 0 ∧
      ((∀ e ∈ (w'.loggers id).entries, Fits e ∧ r.knows (address e) = true) →
        ∃ bytes x', (BufferLogger.mk (w'.loggers id).entries).bytes m μ = .ok bytes ∧ replay r.rd.dict m' x bytes = .ok x' [] ∧
          strip r.rd x' = see r v' ∧ At r.rd ⟨id', []⟩ x') := by
  obtain ⟨v', w', es, h1, hv', hc', hl, hsteps⟩ := calls_tell r.wr hw m ops v ⟨id, []⟩ w hv hc hops
  have hlog' : w'.loggers id = ⟨0, es⟩ := by
    have := hl
    unfold Logged at this
    rw [map_under_nil, hlog] at this
    simpa [appended] using this
  refine ⟨v', w', h1, hv', hc', by rw [hlog'], fun hfit => ?_⟩
  rw [hlog'] at hfit ⊢
  obtain ⟨x', ha, hsx⟩ := followsRev_steps hw hr hrules hst hall hsteps (fun e he => (hfit e he).2) hc hx hsee
  have hroot := (C31_accepted_at_root r.rd hst hp hb m' ⟨id', []⟩ x hx rfl []).1
  have hrep := replay_eq r.rd.dict m' x es (fun e he => (hfit e he).1) hroot
  rw [applyAll_of_applies ha] at hrep
  exact ⟨_, x', bytes_eq m μ ⟨es⟩ (fun e he => (hfit e he).1), hrep, hsx, applies_at hr hst hx ha⟩

/-- When everything the source can hold is readable: the replica knows all variants and, if it is a debug build, the fields it
does not know are payloads. -/
theorem C56_total (r : Rev) (hrules : r.Rules) (m : Mode) (ht : r.Total m) (u : r.wr.El) (hu : Carried r.wr u) : Seen m r u :=
  seen_of_carried r hrules ht u hu

/-- C56 in rounds: the log is sent and drained from time to time. -/
theorem C56_in_rounds_partial (r : Rev) (hw : r.wr.WF) (hr : r.rd.WF) (hrules : r.Rules) (hst : r.rd.isState = true)
    (hp : shape r.rd ≠ .prim) (hb : ¬ (shape r.rd = .enum ∧ isBox r.rd = true)) (m m' : Mode)
    (hall : ∀ u, Carried r.wr u → Seen m' r u) (μ : Nat → Mem) (id id' : Nat) (history : List (List r.wr.Op)) :
    ∀ (v : r.wr.El) (x : r.rd.El) (w : World), At r.wr ⟨id, []⟩ v → Carried r.wr v → At r.rd ⟨id', []⟩ x →
      strip r.rd x = see r v → w.loggers id = ⟨0, []⟩ → RevRoundsSync r m id history v w →
      ∃ v' x' w', revRounds r m m' μ id history v x w = some (v', x', w') ∧ strip r.rd x' = see r v' ∧
        w'.loggers id = ⟨0, []⟩ := by
  induction history with
  | nil => intro v x w _ _ _ hs hlog _; exact ⟨v, x, w, rfl, hs, hlog⟩
  | cons ops history ih =>
    intro v x w hv hc hx hs hlog ⟨hops, hn⟩
    obtain ⟨v', w', h1, hv', hc', hp', hf⟩ := C56_other_revision_follows_partial r hw hr hrules hst hp hb m m' hall μ id id' ops
      v x w hv hc hx hs hlog hops
    obtain ⟨hfit, hrest⟩ := hn v' w' h1
    obtain ⟨bytes, x', h2, h3, h4, h5⟩ := hf hfit
    obtain ⟨v2, x2, w2, h6, h7⟩ := ih v' x' (drained id w') hv' hc' h5 h4 (by simp only [drained, if_true]; rw [hp']) hrest
    refine ⟨v2, x2, w2, ?_, h7⟩
    simp only [revRounds, h1, h2, h3]
    exact h6

/-- C56 for a replica that joins late: it reads the bytes of the source's current state, then follows the log of what happens
next. -/
theorem C56_joins_late_partial (r : Rev) (hw : r.wr.WF) (hr : r.rd.WF) (hrules : r.Rules) (hst : r.rd.isState = true)
    (hp : shape r.rd ≠ .prim) (hb : ¬ (shape r.rd = .enum ∧ isBox r.rd = true)) (m m' : Mode)
    (hall : ∀ u, Carried r.wr u → Seen m' r u) (μ : Mem) (μ' : Nat → Mem) (id : Nat) (ops : List r.wr.Op) (v : r.wr.El)
    (w : World) (hv : At r.wr ⟨id, []⟩ v) (hc : Carried r.wr v) (hlen : (encode r.wr v).length < 2 ^ 32)
    (hlog : w.loggers id = ⟨0, []⟩) (hops : CallsSync r.wr m ops v w) :
    ∃ snapshot x v' w', r.wr.dict.toBytesFrom m μ v = .ok snapshot ∧ r.rd.dict.deserialize m' snapshot = .ok (x, []) ∧
      calls r.wr m ops v w = (.ok v', w') ∧
      ((∀ e ∈ (w'.loggers id).entries, Fits e ∧ r.knows (address e) = true) →
        ∃ bytes x', (BufferLogger.mk (w'.loggers id).entries).bytes m μ' = .ok bytes ∧ replay r.rd.dict m' x bytes = .ok x' [] ∧
          strip r.rd x' = see r v') := by
  obtain ⟨snapshot, x, h1, h2, h3⟩ := C55_other_revision_partial r hw hr hrules m m' μ v (carried_writable r.wr v hc) (hall v hc) hlen
  have hx : At r.rd Rt.dflt x := by
    have h := C25_construction r.rd hr m' Rt.dflt Rt.dflt r.rd.dict.dflt snapshot (anyLaw r.rd hr).at_dflt
    unfold Dict.deserialize at h2
    cases hm : r.rd.dict.merge m' r.rd.dict.dflt snapshot with
    | ok y rest =>
      rw [hm] at h2
      cases h2
      exact h.2.2.2.1 x [] hm
    | err y e => rw [hm] at h2; cases h2
  obtain ⟨v', w', h4, _, _, _, h5⟩ := C56_other_revision_follows_partial r hw hr hrules hst hp hb m m' hall μ' id _ ops v x w hv
    hc hx h3 hlog hops
  refine ⟨snapshot, x, v', w', h1, h2, h4, fun hfit => ?_⟩
  obtain ⟨bytes, x', h6, h7, h8, _⟩ := h5 hfit
  exact ⟨bytes, x', h6, h7, h8⟩

/-- C24's example type, and a later revision of it: wider integers, one more field (9) and one more variant (4). -/
def hRev : Rev :=
  .struct true true true false
    (.keep 0#32 {} {} (.list (.uint .w8 .w32))
    (.keep 1#32 {} {} (.map .u8 .u16 (.same (.list (.uint .w8))))
    (.drop 9#32 {} (.list .bool)
    (.keep 2#32 {} {} (.enum true false true false (.keep 0#32 {} {} (.uint .w32 .w64) .nil)
      (.drop 4#32 true .nil
      (.keep 1#32 true true (.keep 5#32 {} {} (.list (.uint .w8 .w16)) .nil) .nil))) .nil))))

theorem hRev_wr : hRev.wr = hTy := rfl

theorem hRev_rd : hRev.rd.WF := by
  simp only [hRev, Ty.WF, Fields.WF, Variants.WF, Fields.tags, Variants.tags, Ty.isState]
  decide

theorem hRev_rules : hRev.Rules := by
  simp only [hRev, Rev.Rules, RevFields.Rules, RevVariants.Rules, RevFields.tags, KeyTy.max]
  decide

theorem hRev_total (m : Mode) : hRev.Total m := ⟨trivial, trivial, ⟨⟨trivial, trivial⟩, ⟨trivial, trivial⟩, trivial⟩, trivial⟩

/-- Not vacuous: C56 applied to the history of C24's example. -/
example (m' : Mode) (μ : Nat → Mem) :
    ∃ v' w', calls hTy .debug hOps (hVal [] [] (hA 0)) hWorld = (.ok v', w') ∧
      (w'.loggers 4).entries.length = 7 ∧
      ∃ bytes x', (BufferLogger.mk (w'.loggers 4).entries).bytes .debug μ = .ok bytes ∧
        replay hRev.rd.dict m' (hRev.rd.dict.withRuntime ⟨9, []⟩) bytes = .ok x' [] ∧ strip hRev.rd x' = see hRev v' := by
  obtain ⟨v', w', h1, _, _, _, h2⟩ := C56_other_revision_follows_partial hRev hTy_wf hRev_rd hRev_rules rfl (by decide)
    (by decide) .debug m' (C56_total hRev hRev_rules m' (hRev_total m')) μ 4 9 hOps (hVal [] [] (hA 0))
    (hRev.rd.dict.withRuntime ⟨9, []⟩) hWorld (hVal_at 4) ((carried_init hTy).1 ⟨4, []⟩) ((anyLaw hRev.rd hRev_rd).at_new _)
    rfl rfl (hOps_ok hWorld)
  have he : (w'.loggers 4).entries = ((calls hTy .debug hOps (hVal [] [] (hA 0)) hWorld).2.loggers 4).entries := by
    rw [show calls hTy .debug hOps (hVal [] [] (hA 0)) hWorld = _ from h1]
  have hfit : ∀ e ∈ (w'.loggers 4).entries, Fits e ∧ hRev.knows (address e) = true := by
    rw [he]
    unfold Fits
    decide +kernel
  obtain ⟨bytes, x', h3, h4, h5, _⟩ := h2 hfit
  exact ⟨v', w', h1, by rw [he]; decide +kernel, bytes, x', h3, h4, h5⟩

/-! ## C56, where it ends -/

/-- C56: what is addressed to a field or variant that the replica's type does not have, at any depth, is refused with an error,
and nothing changes. -/
theorem C56_unknown_refused (t : Ty) (ht : t.WF) (m : Mode) (x : t.El) (e : Entry) (h : Lost t (address e) = true) :
    applyEntry t.dict m x e = .err x .invalidData := by
  cases e <;> exact refuses m t ht _ h x _ _ _

/-- Not vacuous: field 9 is new, an object of the old type does not have it. -/
example : Lost hTy [9#32] = true ∧ Lost hTy [2#32, 4#32, 0#32] = true ∧ Lost hTy [1#32, 7#32, 3#32] = false ∧
    Lost hTy [1#32, 7#32, 3#32, 0#32] = true := by decide

/-- C56 does not hold for logs with such entries: replay stops at the first one, with an error. The replica holds what it could
see of the source just before; nothing that comes later arrives. (C# clients go on: `C46_unknown_field_ignored`.) -/
theorem C56_stops_at_unknown (r : Rev) (hw : r.wr.WF) (hr : r.rd.WF) (hrules : r.Rules) (hst : r.rd.isState = true)
    (hp : shape r.rd ≠ .prim) (hb : ¬ (shape r.rd = .enum ∧ isBox r.rd = true)) (m m' : Mode)
    (hall : ∀ u, Carried r.wr u → Seen m' r u) (μ : Nat → Mem) (id id' : Nat) (ops : List r.wr.Op) (v v' : r.wr.El) (x : r.rd.El)
    (w w' : World) (hv : At r.wr ⟨id, []⟩ v) (hc : Carried r.wr v) (hx : At r.rd ⟨id', []⟩ x) (hsee : strip r.rd x = see r v)
    (hlog : w.loggers id = ⟨0, []⟩) (hops : CallsSync r.wr m ops v w) (hrun : calls r.wr m ops v w = (.ok v', w'))
    (hknown : ∀ e ∈ (w'.loggers id).entries, Fits e ∧ r.knows (address e) = true) (e : Entry) (he : Lost r.rd (address e) = true)
    (later : List Entry) (hfit : ∀ e' ∈ e :: later, Fits e') :
    ∃ bytes x', (BufferLogger.mk ((w'.loggers id).entries ++ e :: later)).bytes m μ = .ok bytes ∧
      replay r.rd.dict m' x bytes = .err x' .invalidData ∧ strip r.rd x' = see r v' := by
  obtain ⟨v2, w2, es, h1, _, _, hl, hsteps⟩ := calls_tell r.wr hw m ops v ⟨id, []⟩ w hv hc hops
  rw [hrun] at h1
  cases h1
  have hlog' : w'.loggers id = ⟨0, es⟩ := by
    have := hl
    unfold Logged at this
    rw [map_under_nil, hlog] at this
    simpa [appended] using this
  rw [hlog'] at hknown ⊢
  obtain ⟨x', ha, hsx⟩ := followsRev_steps hw hr hrules hst hall hsteps (fun e he => (hknown e he).2) hc hx hsee
  have hroot := (C31_accepted_at_root r.rd hst hp hb m' ⟨id', []⟩ x hx rfl []).1
  have hfits : ∀ e' ∈ es ++ e :: later, Fits e' := by
    intro e' he'
    rcases List.mem_append.1 he' with he' | he'
    · exact (hknown e' he').1
    · exact hfit e' he'
  have hrep := replay_eq r.rd.dict m' x (es ++ e :: later) hfits hroot
  rw [applyAll_append, applyAll_of_applies ha] at hrep
  simp only [applyAll, C56_unknown_refused r.rd hr m' x' e he] at hrep
  exact ⟨_, x', bytes_eq m μ ⟨es ++ e :: later⟩ hfits, hrep, hsx⟩

/-- The field with this tag is marked `no_state`. -/
def Stateless : Fields → U32 → Bool
  | .nil, _ => false
  | .cons tag attrs _ fs, k => if k = tag then attrs.noState else Stateless fs k

theorem handleField_stateless {m : Mode} : (fs : Fields) → ∀ {k : U32}, Stateless fs k = true → ∀ x p kind key bs,
    (fs.dict true).handleField m k x p kind key bs = some (.ok x bs)
  | .nil, _, h, _, _, _, _, _ => nomatch h
  | .cons tag attrs t fs, k, h, x, p, kind, key, bs => by
    simp only [Stateless] at h
    by_cases hk : k = tag
    · rw [if_pos hk] at h
      simp [Fields.dict, fieldsCons, hk, h]
    · rw [if_neg hk] at h
      simp only [Fields.dict, fieldsCons, if_neg hk, handleField_stateless fs h x.2 p kind key bs, Option.map_some, Res.map]

/-- C56 does not hold for fields that the replica has marked `no_state`: entries for them, whatever they say, are accepted and
ignored. The replica differs from the source from then on, and nobody is told. -/
theorem C56_stateless_ignored (cached : Bool) (fs : Fields) (m : Mode) (x : (Ty.struct true cached fs).El) (e : Entry) (tag : U32)
    (p : List U32) (he : address e = tag :: p) (h : Stateless fs tag = true) :
    ∃ rest, applyEntry (Ty.struct true cached fs).dict m x e = .ok x rest := by
  have gen : ∀ kind key bs, structHandle (fs.dict true) m x (tag :: p) kind key bs = .ok x bs := by
    intro kind key bs
    simp only [structHandle, handleField_stateless fs h x.fields p kind key bs, Res.map]
  cases e <;> cases he <;> exact ⟨_, gen _ _ _⟩

/-- A case of it, end to end: the source sets a field that the replica has marked `no_state`, the replica replays the log
successfully and still has the old value. -/
theorem C56_false_stateless :
    let r : Rev := .struct true true true true (.keep 0#32 {} { noState := true } (.same (.uint .w8)) .nil)
    let v : r.wr.El := ⟨⟨4, []⟩, ((1#8 : BitVec 8), ())⟩
    let x : r.rd.El := ⟨⟨9, []⟩, ((1#8 : BitVec 8), ())⟩
    strip r.rd x = see r v ∧
      ∃ v' w' bytes, calls r.wr .release [.inl (.set (2#8 : BitVec 8))] v hWorld = (.ok v', w') ∧
        (BufferLogger.mk (w'.loggers 4).entries).bytes .release (fun _ _ => 0) = .ok bytes ∧
        replay r.rd.dict .release x bytes = .ok x [] ∧ v'.fields.1 = (2#8 : BitVec 8) := by
  refine ⟨rfl, ⟨⟨4, []⟩, ((2#8 : BitVec 8), ())⟩, _, _, rfl, rfl, rfl, rfl⟩

/-- C56 does not hold for a field that changed its wire type: a replica that reads the data of the source skips the field, as it should,
but one that replays the log takes the bytes of the number for the new type's and reports no error, so that the two differ. -/
theorem C56_retyped_misread :
    let r : Rev := .struct true true true true (.retype 0#32 {} {} (.uint .w32) (.list (.uint .w8)) .nil)
    let v : r.wr.El := ⟨⟨4, []⟩, ((0#32 : BitVec 32), ())⟩
    let x : r.rd.El := ⟨⟨9, []⟩, (⟨⟨9, [0#32]⟩, []⟩, ())⟩
    r.Rules ∧ r.wr.WF ∧ r.rd.WF ∧ strip r.rd x = see r v ∧ ∃ v' w' bytes snapshot,
      calls r.wr .release [.inl (.set (5#32 : BitVec 32))] v hWorld = (.ok v', w') ∧
      (BufferLogger.mk (w'.loggers 4).entries).bytes .release (fun _ _ => 0) = .ok bytes ∧
      r.wr.dict.toBytesFrom .release (fun _ => 0) v' = .ok snapshot ∧
      r.rd.dict.merge .release x snapshot = .ok x [] ∧
      replay r.rd.dict .release x bytes = .ok ⟨⟨9, []⟩, (⟨⟨9, [0#32]⟩, [(5#8 : BitVec 8)]⟩, ())⟩ [] := by
  refine ⟨⟨by decide, by decide, trivial⟩, ?_, ?_, rfl, ⟨⟨4, []⟩, ((5#32 : BitVec 32), ())⟩, _, _, _, rfl, rfl, rfl, rfl, rfl⟩
  · simp only [Ty.WF, Rev.wr, RevFields.wr, Fields.WF, Fields.tags, Ty.isState]
    decide
  · simp only [Ty.WF, Rev.rd, RevFields.rd, Fields.WF, Fields.tags, Ty.isState]
    decide

end Steit
