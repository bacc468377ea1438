import Verif.Lemmas.Replay
import Verif.Model.World

/-!
# Replay: properties C29, C30, C31, C32, C40 and the replay part of C25

`At t rt v` (`Verif/Spec/Address.lean`) says that the object and everything inside it know their addresses.
-/

namespace Steit
open Spec Prog

/-! ## Logs as chunks

Most theorems here hold for logs whose entries are arbitrary bytes, correctly length-prefixed. -/

/-- A log: every entry prefixed by its length. -/
def chunks (ps : List Bytes) : Bytes := ps.flatMap (framed 2)

/-- The entry that `LogEntry::deserialize` makes of some bytes (`steit/src/state.rs:46`). -/
def parseEntry (m : Mode) (p : Bytes) : Except Err Entry :=
  match logEntryTy.dict.merge m logEntryTy.dict.dflt p with
  | .ok v _ => .ok (Entry.ofEl v)
  | .err _ e => .error e

/-- Apply entries given by their bytes, one after the other, stopping at the first failure. -/
def applyChunks {α : Type} (d : Dict α) (m : Mode) : α → List Bytes → Except (α × Err) α
  | v, [] => .ok v
  | v, p :: ps =>
    match parseEntry m p with
    | .error e => .error (v, e)
    | .ok en =>
      match applyEntry d m v en with
      | .ok v' _ => applyChunks d m v' ps
      | .err v' e => .error (v', e)

theorem replayStep_chunk {α : Type} (d : Dict α) (m : Mode) (v : α) (p rest : Bytes) (h : p.length < 2 ^ 64) :
    replayStep d m v (framed 2 p ++ rest) =
      match parseEntry m p with
      | .error e => .err v e
      | .ok en =>
        match applyEntry d m v en with
        | .ok v' _ => .ok v' rest
        | .err v' e => .err v' e := by
  have hw : logEntryTy.dict.wire = .sized := rfl
  unfold replayStep Dict.deserializeNested Dict.mergeNested parseEntry
  rw [if_neg (by simp), hw]
  simp only [framed, if_neg (show ¬ (2 : Nat) = 0 by decide)]
  rw [withNested_frame _ _ _ _ _ h]
  cases hm : logEntryTy.dict.merge m logEntryTy.dict.dflt p with
  | ok x unread =>
    have := (anyLaw logEntryTy logEntryTy_wf).sized_all rfl _ _ _ _ _ hm
    subst this
    simp only [List.nil_append]
    cases applyEntry d m v (Entry.ofEl x) <;> rfl
  | err x e => rfl

theorem chunkLoop_eq {α : Type} (d : Dict α) (m : Mode) : ∀ (ps : List Bytes) (v : α) (fuel : Nat),
    (∀ p ∈ ps, p.length < 2 ^ 64) → (chunks ps).length ≤ fuel →
    untilEof (replayStep d m) fuel v (chunks ps) = outcome (applyChunks d m v ps)
  | [], v, fuel, _, _ => untilEof_nil _ _ _
  | p :: ps, v, fuel, h, hf => by
    have hne : framed 2 p ≠ [] := framed_ne_nil (fun h => by cases h)
    have hp : 0 < (framed 2 p).length := List.length_pos_iff.2 hne
    have hstep := replayStep_chunk d m v p (chunks ps) (h p (by simp))
    have hc : chunks (p :: ps) = framed 2 p ++ chunks ps := by simp [chunks]
    rw [hc] at hf ⊢
    have stop : ∀ v' e, replayStep d m v (framed 2 p ++ chunks ps) = .err v' e →
        untilEof (replayStep d m) fuel v (framed 2 p ++ chunks ps) = .err v' e := by
      intro v' e hs
      cases hb : framed 2 p ++ chunks ps with
      | nil => exact absurd (List.append_eq_nil_iff.1 hb).1 hne
      | cons b bs =>
        rw [hb] at hf hs
        cases fuel with
        | zero => simp at hf
        | succ fuel => simp only [untilEof, hs]
    simp only [applyChunks]
    cases hq : parseEntry m p with
    | error e =>
      rw [hq] at hstep
      exact stop v e hstep
    | ok en =>
      rw [hq] at hstep
      simp only at hstep ⊢
      cases ha : applyEntry d m v en with
      | ok v' r =>
        rw [ha] at hstep
        obtain ⟨fuel', hf', he⟩ := untilEof_step (replayStep d m) fuel v v' _ _ (by simp [hne]) hstep
          (by simp only [List.length_append]; omega) hf
        rw [he]
        exact chunkLoop_eq d m ps v' fuel' (fun x hx => h x (by simp [hx])) hf'
      | err v' err =>
        rw [ha] at hstep
        exact stop v' err hstep

theorem applyChunks_append {α : Type} (d : Dict α) (m : Mode) (v : α) (a b : List Bytes) :
    applyChunks d m v (a ++ b) = (match applyChunks d m v a with
      | .ok v' => applyChunks d m v' b
      | .error x => .error x) := by
  induction a generalizing v with
  | nil => rfl
  | cons p a ih =>
    simp only [List.cons_append, applyChunks]
    cases parseEntry m p with
    | error e => rfl
    | ok en =>
      simp only
      cases applyEntry d m v en with
      | ok v' r => exact ih v'
      | err v' err => rfl

theorem applyEntry_at {t : Ty} (ht : t.WF) (hs : t.isState = true) (m : Mode) (rt : Rt) (v : t.El) (e : Entry)
    (hv : At t rt v) : (∃ v' rest, applyEntry t.dict m v e = .ok v' rest ∧ At t rt v') ∨
    (∃ v' err, applyEntry t.dict m v e = .err v' err ∧ At t rt v' ∧ ErrOk m (payload e) err) := by
  cases e <;> exact (anyLaw t ht).handle hs m rt v _ _ _ _ hv

theorem applyChunks_at {t : Ty} (ht : t.WF) (hs : t.isState = true) (m : Mode) (rt : Rt) (ps : List Bytes) :
    ∀ v : t.El, At t rt v → (∃ v', applyChunks t.dict m v ps = .ok v' ∧ At t rt v') ∨
      (∃ v' e, applyChunks t.dict m v ps = .error (v', e) ∧ At t rt v') := by
  induction ps with
  | nil => intro v hv; exact .inl ⟨v, rfl, hv⟩
  | cons p ps ih =>
    intro v hv
    simp only [applyChunks]
    cases parseEntry m p with
    | error e => exact .inr ⟨v, e, rfl, hv⟩
    | ok en =>
      simp only
      rcases applyEntry_at ht hs m rt v en hv with ⟨v', r, h1, h2⟩ | ⟨v', e, h1, h2, _⟩
      · rw [h1]; exact ih v' h2
      · rw [h1]; exact .inr ⟨v', e, rfl, h2⟩

/-! ## C31 -/

/-- C31: on an object that is not at the root, `replay` returns `InvalidInput` and changes nothing, whatever the input.
Integers and bools have no runtime to ask. -/
theorem C31_refused_below_root (t : Ty) (hs : t.isState = true) (hp : shape t ≠ .prim) (m : Mode) (rt : Rt) (v : t.El)
    (hv : At t rt v) (hr : rt.path ≠ []) (bs : Bytes) : replay t.dict m v bs = .err v .invalidInput := by
  have h0 : rt.isRoot = false := by
    unfold Rt.isRoot
    cases h : rt.path with
    | nil => exact absurd h hr
    | cons _ _ => rfl
  have h := isRoot_at t hs rt v hv
  unfold replay
  rw [h]
  cases hsh : shape t with
  | prim => exact absurd hsh hp
  | plain => rw [h0]
  | enum =>
    simp only [h0, ite_self]

/-- C31, the other direction: at the root `replay` is not refused, except on a boxed enum. -/
theorem C31_accepted_at_root (t : Ty) (hs : t.isState = true) (hp : shape t ≠ .prim)
    (hb : ¬ (shape t = .enum ∧ isBox t = true)) (m : Mode) (rt : Rt) (v : t.El) (hv : At t rt v) (hr : rt.path = [])
    (bs : Bytes) : t.dict.isRoot v = .ok true ∧ replay t.dict m v bs = untilEof (replayStep t.dict m) bs.length v bs := by
  have h0 : rt.isRoot = true := by simp [Rt.isRoot, hr]
  have h : t.dict.isRoot v = .ok true := by
    rw [isRoot_at t hs rt v hv]
    cases hsh : shape t with
    | prim => exact absurd hsh hp
    | plain => simp only [h0]
    | enum =>
      simp only [h0]
      rw [if_neg (fun hb' => hb ⟨hsh, hb'⟩)]
  refine ⟨h, ?_⟩
  unfold replay
  rw [h]

/-- C31, a defect: `Box` does not forward `is_root`, so `replay` refuses a boxed enum even at the root. -/
theorem C31_boxed_enum_always_refused (t : Ty) (hs : t.isState = true) (he : shape t = .enum) (hb : isBox t = true)
    (m : Mode) (rt : Rt) (v : t.El) (hv : At t rt v) (bs : Bytes) : replay t.dict m v bs = .err v .invalidInput := by
  unfold replay
  rw [isRoot_at t hs rt v hv, he]
  simp only [hb, if_true]

/-- C31: integers and bools panic instead (`unreachable!` in `steit/src/impls/macros.rs:47-49`). -/
theorem C31_prim_panics (t : Ty) (hs : t.isState = true) (hp : shape t = .prim) (m : Mode) (rt : Rt) (v : t.El)
    (hv : At t rt v) (bs : Bytes) : replay t.dict m v bs = .err v .panic := by
  unfold replay
  rw [isRoot_at t hs rt v hv, hp]

/-- A small enum deriving `State`, used in examples. -/
def exEnum : Ty := .enum true true (.cons 0#32 {} (.uint .w32) .nil) (.cons 5#32 true .nil .nil)

/-- Not vacuous: a list at [3], a root enum, the same enum boxed. -/
example : replay (Ty.list .bool).dict .debug ⟨⟨1, [3#32]⟩, [true]⟩ [9#8] = .err ⟨⟨1, [3#32]⟩, [true]⟩ .invalidInput ∧
    replay exEnum.dict .debug (exEnum.dict.withRuntime ⟨1, []⟩) [] = .ok (exEnum.dict.withRuntime ⟨1, []⟩) [] ∧
    replay (Ty.box exEnum).dict .debug (exEnum.dict.withRuntime ⟨1, []⟩) [] =
      .err (exEnum.dict.withRuntime ⟨1, []⟩) .invalidInput := ⟨rfl, rfl, rfl⟩

/-! ## C29 -/

/-- C29: replaying `a` and then `b` is replaying their concatenation: same result, same failure, same final state. Entries
may be arbitrary bytes. -/
theorem C29_replay_incremental (t : Ty) (ht : t.WF) (hs : t.isState = true) (m : Mode) (rt : Rt) (v : t.El)
    (hv : At t rt v) (a b : List Bytes) (ha : ∀ p ∈ a ++ b, p.length < 2 ^ 64) :
    replay t.dict m v (chunks (a ++ b)) =
      match replay t.dict m v (chunks a) with
      | .ok v' _ => replay t.dict m v' (chunks b)
      | .err v' e => .err v' e := by
  have hroot := isRoot_at t hs rt v hv
  unfold replay
  cases hr : t.dict.isRoot v with
  | error e => rfl
  | ok r =>
    cases r with
    | false => rfl
    | true =>
      simp only
      rw [chunkLoop_eq _ _ _ _ _ ha (Nat.le_refl _), chunkLoop_eq _ _ _ _ _ (fun p hp => ha p (by simp [hp])) (Nat.le_refl _),
        applyChunks_append]
      rcases applyChunks_at ht hs m rt a v hv with ⟨v', h1, h2⟩ | ⟨v', e, h1, h2⟩
      · rw [h1]
        simp only [outcome]
        rw [isRoot_at t hs rt v' h2, ← hroot, hr]
        simp only
        rw [chunkLoop_eq _ _ _ _ _ (fun p hp => ha p (by simp [hp])) (Nat.le_refl _)]
        rfl
      · rw [h1]; rfl

/-- Replay several logs one after the other. -/
def replayLogs {α : Type} (d : Dict α) (m : Mode) : α → List (List Bytes) → Res α
  | v, [] => .ok v []
  | v, l :: ls =>
    match replay d m v (chunks l) with
    | .ok v' _ => replayLogs d m v' ls
    | .err v' e => .err v' e

/-- C29: any chunking of a log at entry boundaries. -/
theorem C29_any_chunking (t : Ty) (ht : t.WF) (hs : t.isState = true) (m : Mode) (rt : Rt) (v : t.El) (hv : At t rt v)
    (l : List Bytes) (ls : List (List Bytes)) (h : ∀ p ∈ l ++ ls.flatten, p.length < 2 ^ 64) :
    replayLogs t.dict m v (l :: ls) = replay t.dict m v (chunks (l ++ ls.flatten)) := by
  induction ls generalizing v l with
  | nil =>
    simp only [replayLogs, List.flatten_nil, List.append_nil] at h ⊢
    cases hr : replay t.dict m v (chunks l) with
    | err v' e => rfl
    | ok v' rest =>
      have : rest = [] := by
        unfold replay at hr
        split at hr
        · cases hr
        · cases hr
        · exact untilEof_ok_nil hr
      rw [this]
  | cons l' ls ih =>
    rw [List.flatten_cons] at h ⊢
    rw [C29_replay_incremental t ht hs m rt v hv l (l' ++ ls.flatten) h]
    rw [replayLogs]
    cases hr : replay t.dict m v (chunks l) with
    | err v' e => rfl
    | ok v' rest =>
      simp only
      have hv' : At t rt v' := by
        unfold replay at hr
        split at hr
        · cases hr
        · cases hr
        · rw [chunkLoop_eq _ _ _ _ _ (fun p hp => h p (by simp [hp])) (Nat.le_refl _)] at hr
          rcases applyChunks_at ht hs m rt l v hv with ⟨v'', h1, h2⟩ | ⟨v'', e, h1, h2⟩
          · rw [h1] at hr; cases hr; exact h2
          · rw [h1] at hr; cases hr
      exact ih v' hv' l' (fun p hp => h p (by simp only [List.mem_append] at hp ⊢; exact .inr hp))

/-- The log of a buffer logger is such a sequence of chunks. -/
theorem C29_logs_are_chunks (m : Mode) (μ : Nat → Mem) (b : BufferLogger) (h : ∀ e ∈ b.entries, Fits e) :
    ∃ ps, b.bytes m μ = .ok (chunks ps) ∧ (∀ p ∈ ps, p.length < 2 ^ 64) ∧ ps.length = b.entries.length := by
  refine ⟨b.entries.map (fun e => encode logEntryTy e.toEl), ?_, ?_, by simp⟩
  · rw [bytes_eq m μ b h]
    simp only [chunks, List.flatMap_map]
    rfl
  · intro p hp
    obtain ⟨e, he, rfl⟩ := List.mem_map.1 hp
    have := entry_small (h e he)
    omega

/-- Not vacuous: a push and an update of the pushed item, in two logs or in one. -/
example : ∃ v', replayLogs (Ty.list (.uint .w8)).dict .debug ⟨⟨1, []⟩, []⟩
    [[[8#8, 10#8, 1#8, 7#8]], [[0#8, 2#8, 1#8, 0#8, 10#8, 1#8, 9#8]]] = .ok v' [] ∧ v'.items = [9#8] :=
  ⟨⟨⟨1, []⟩, [9#8]⟩, by
    simp only [replayLogs, chunks, List.flatMap_cons, List.flatMap_nil, framed, leb_eq_lebF]
    rfl, rfl⟩

/-! ## C30 -/

/-- C30: if a replay on a root object fails, there is a first failing entry: all entries before it have been applied (replaying
them alone succeeds), it fails in that state, and what comes after it has no influence. If it cannot be parsed, or is no
whole-value update, it has changed nothing. -/
theorem C30_stops_at_failing_entry (t : Ty) (ht : t.WF) (hs : t.isState = true) (m : Mode) (v : t.El)
    (hroot : t.dict.isRoot v = .ok true) (ps : List Bytes) (hl : ∀ p ∈ ps, p.length < 2 ^ 64) (v' : t.El) (e : Err)
    (h : replay t.dict m v (chunks ps) = .err v' e) :
    ∃ pre p post v1, ps = pre ++ p :: post ∧ replay t.dict m v (chunks pre) = .ok v1 [] ∧
      ((parseEntry m p = .error e ∧ v' = v1) ∨
        ∃ en, parseEntry m p = .ok en ∧ applyEntry t.dict m v1 en = .err v' e ∧ (en.kind ≠ .update → v' = v1)) ∧
      ∀ post', (∀ q ∈ post', q.length < 2 ^ 64) → replay t.dict m v (chunks (pre ++ p :: post')) = .err v' e := by
  have R : ∀ qs : List Bytes, (∀ q ∈ qs, q.length < 2 ^ 64) →
      replay t.dict m v (chunks qs) = outcome (applyChunks t.dict m v qs) := by
    intro qs hq
    unfold replay
    rw [hroot]
    exact chunkLoop_eq t.dict m qs v _ hq (Nat.le_refl _)
  have key : ∀ (ps : List Bytes) (v : t.El), applyChunks t.dict m v ps = .error (v', e) →
      ∃ pre p post v1, ps = pre ++ p :: post ∧ applyChunks t.dict m v pre = .ok v1 ∧
        ((parseEntry m p = .error e ∧ v' = v1) ∨
          ∃ en, parseEntry m p = .ok en ∧ applyEntry t.dict m v1 en = .err v' e ∧ (en.kind ≠ .update → v' = v1)) ∧
        ∀ post', applyChunks t.dict m v (pre ++ p :: post') = .error (v', e) := by
    intro ps
    induction ps with
    | nil => intro v h; cases h
    | cons p ps ih =>
      intro v h
      have hcopy := h
      simp only [applyChunks] at h
      cases hq : parseEntry m p with
      | error e' =>
        rw [hq] at h
        cases h
        refine ⟨[], p, ps, v', rfl, rfl, .inl ⟨hq, rfl⟩, fun post' => ?_⟩
        simp only [List.nil_append, applyChunks, hq]
      | ok en =>
        rw [hq] at h
        simp only at h
        cases ha : applyEntry t.dict m v en with
        | err v2 e2 =>
          rw [ha] at h
          cases h
          refine ⟨[], p, ps, v, rfl, rfl, .inr ⟨en, hq, ha, fun hk => ?_⟩, fun post' => ?_⟩
          · refine handle_atomic t ht hs m v en.unpack.2.1 en.kind en.unpack.2.2.1 (en.unpack.2.2.2.getD []) v' e hk ?_
            cases en <;> exact ha
          · simp only [List.nil_append, applyChunks, hq, ha]
        | ok v2 r =>
          rw [ha] at h
          obtain ⟨pre, q, post, v1, h1, h2, h3, h4⟩ := ih v2 h
          refine ⟨p :: pre, q, post, v1, by rw [h1]; rfl, ?_, h3, fun post' => ?_⟩
          · simp only [applyChunks, hq, ha, h2]
          · simp only [List.cons_append, applyChunks, hq, ha, h4]
  rw [R ps hl] at h
  have h' : applyChunks t.dict m v ps = .error (v', e) := by
    cases hx : applyChunks t.dict m v ps with
    | ok w => rw [hx] at h; cases h
    | error x => rw [hx] at h; cases h; rfl
  obtain ⟨pre, p, post, v1, h1, h2, h3, h4⟩ := key ps v h'
  refine ⟨pre, p, post, v1, h1, ?_, h3, fun post' hp => ?_⟩
  · rw [R pre (fun q hq => hl q (by rw [h1]; simp [hq])), h2]; rfl
  · rw [R _ ?_, h4]
    · rfl
    · intro q hq
      simp only [List.mem_append, List.mem_cons] at hq
      rcases hq with hq | rfl | hq
      · exact hl q (by rw [h1]; simp [hq])
      · exact hl q (by rw [h1]; simp)
      · exact hp q hq

/-- C30: a failing update of an integer or bool changes nothing either. -/
theorem C30_prim_update_atomic (t : Ty) (hs : t.isState = true) (hp : shape t = .prim) (m : Mode) (v : t.El)
    (path : List U32) (kind : LogKind) (key : Option U32) (bs : Bytes) (v' : t.El) (e : Err)
    (h : t.dict.handle m v path kind key bs = .err v' e) : v' = v := by
  have P : ∀ {α : Type} [DecidableEq α] {size : α → Nat} {put : α → Bytes}
      {get : Mode → Bytes → Except Err (α × Bytes)} {dflt : α} {v v' : α},
      (primDict size put get dflt).handle m v path kind key bs = .err v' e → v' = v := by
    intro α _ size put get dflt v v' h
    simp only [primDict] at h
    split at h
    · split at h
      · split at h
        · cases h
        · cases h; rfl
      · cases h; rfl
    · cases h; rfl
  revert v v'
  induction t using shape.induct with
  | case1 => exact fun _ _ h => P h
  | case2 => exact fun _ _ h => P h
  | case3 => exact fun _ _ h => P h
  | case4 t ih => exact ih hs hp
  | case5 => cases hp
  | case6 t h1 h2 h3 h4 h5 =>
    cases t with
    | uint w => exact absurd rfl (h1 w)
    | sint w => exact absurd rfl (h2 w)
    | bool => exact absurd rfl h3
    | box t => exact absurd rfl (h4 t)
    | enum _ _ _ _ => cases hp
    | _ => cases hp

/-- C30, the failing entry itself need not be atomic: an update of a struct whose payload breaks off in the second field
leaves the first one updated and the rest reset to defaults. -/
theorem C30_update_not_atomic :
    ∃ (v v' : (Ty.struct true true (.cons 1#32 {} .bool (.cons 2#32 {} (.uint .w32) .nil))).El) (bs : Bytes),
      replay (Ty.struct true true (.cons 1#32 {} .bool (.cons 2#32 {} (.uint .w32) .nil))).dict .release v bs = .err v' .unexpectedEof ∧ v.fields = (false, 77#32, ()) ∧ v'.fields = (true, 0#32, ()) :=
  ⟨⟨⟨1, []⟩, (false, 77#32, ())⟩, ⟨⟨1, []⟩, (true, 0#32, ())⟩, [6#8, 0#8, 10#8, 3#8, 8#8, 1#8, 16#8],
    rfl, rfl, rfl⟩

/-! ## C25 and C32: addresses -/

/-- C25: a fresh state built with a runtime, decoded from bytes (completely or not), or re-addressed with `set_runtime`, has
every nested object at its address. -/
theorem C25_construction (t : Ty) (ht : t.WF) (m : Mode) (rt rt' : Rt) (v : t.El) (bs : Bytes) (hv : At t rt v) :
    At t rt (t.dict.withRuntime rt) ∧ At t Rt.dflt t.dict.dflt ∧ At t rt' (t.dict.setRuntime rt' v) ∧
      (∀ v' rest, t.dict.merge m v bs = .ok v' rest → At t rt v') ∧ ∀ v' e, t.dict.merge m v bs = .err v' e → At t rt v' := by
  have L := anyLaw t ht
  refine ⟨L.at_new rt, L.at_dflt, L.at_set rt rt' v hv, ?_, ?_⟩
  · intro v' rest h
    rcases L.merge m rt v bs hv with ⟨w, r, h1, h2⟩ | ⟨w, e, h1, h2, _⟩
    · rw [h1] at h; cases h; exact h2
    · rw [h1] at h; cases h
  · intro v' e h
    rcases L.merge m rt v bs hv with ⟨w, r, h1, h2⟩ | ⟨w, e, h1, h2, _⟩
    · rw [h1] at h; cases h
    · rw [h1] at h; cases h; exact h2

theorem replayLoop_at {t : Ty} (ht : t.WF) (hs : t.isState = true) (m : Mode) (rt : Rt) : ∀ (fuel : Nat) (v : t.El)
    (bs : Bytes), bs.length ≤ fuel → At t rt v →
    (∃ v', untilEof (replayStep t.dict m) fuel v bs = .ok v' [] ∧ At t rt v') ∨
    (∃ v' e, untilEof (replayStep t.dict m) fuel v bs = .err v' e ∧ At t rt v' ∧
      (e = .unexpectedEof ∨ e = .invalidData ∨ e = .panic)) := by
  intro fuel
  induction fuel with
  | zero =>
    intro v bs hl hv
    have : bs = [] := List.length_eq_zero_iff.1 (by omega)
    subst this
    exact .inl ⟨v, untilEof_nil _ _ _, hv⟩
  | succ fuel ih =>
    intro v bs hl hv
    cases bs with
    | nil => exact .inl ⟨v, untilEof_nil _ _ _, hv⟩
    | cons b bs =>
      simp only [untilEof, replayStep]
      rcases (anyLaw logEntryTy logEntryTy_wf).deser m logEntryTy.dict.wire (b :: bs) with
        ⟨x, rest, h1, _, _, h4⟩ | ⟨e, h1, h2⟩
      · rw [h1]
        simp only
        rcases applyEntry_at ht hs m rt v (Entry.ofEl x) hv with ⟨v', r, g1, g2⟩ | ⟨v', e, g1, g2, g3⟩
        · rw [g1]
          exact ih v' rest (by simp only [List.length_cons] at hl h4; omega) g2
        · rw [g1]
          refine .inr ⟨v', e, rfl, g2, ?_⟩
          rcases g3 with g3 | g3 | ⟨g3, _⟩
          · exact .inl g3
          · exact .inr (.inl g3)
          · exact .inr (.inr g3)
      · rw [h1]
        refine .inr ⟨v, e, rfl, hv, ?_⟩
        rcases h2 with h2 | h2 | ⟨h2, _⟩
        · exact .inl h2
        · exact .inr (.inl h2)
        · exact .inr (.inr h2)

/-- C32 (and C25 for replay): replaying any byte string on any well-addressed state terminates, with success or with an
error, and every object is still at its address; in particular the keys of every map stay distinct. -/
theorem C32_replay_preserves_addresses (t : Ty) (ht : t.WF) (hs : t.isState = true) (m : Mode) (rt : Rt) (v : t.El)
    (hv : At t rt v) (bs : Bytes) :
    (∃ v', replay t.dict m v bs = .ok v' [] ∧ At t rt v') ∨
    (∃ v' e, replay t.dict m v bs = .err v' e ∧ At t rt v' ∧ e ≠ .diverge) := by
  unfold replay
  cases hr : t.dict.isRoot v with
  | error e =>
    refine .inr ⟨v, e, rfl, hv, ?_⟩
    rw [isRoot_at t hs rt v hv] at hr
    cases hsh : shape t with
    | prim => rw [hsh] at hr; cases hr; decide
    | plain => rw [hsh] at hr; cases hr
    | enum => rw [hsh] at hr; simp only at hr; split at hr <;> cases hr
  | ok r =>
    cases r with
    | false => exact .inr ⟨v, .invalidInput, rfl, hv, by decide⟩
    | true =>
      rcases replayLoop_at ht hs m rt bs.length v bs (Nat.le_refl _) hv with h | ⟨v', e, h1, h2, h3⟩
      · exact .inl h
      · refine .inr ⟨v', e, h1, h2, ?_⟩
        rcases h3 with rfl | rfl | rfl <;> decide

/-- C25: replay keeps every nested object at its address. -/
theorem C25_replay (t : Ty) (ht : t.WF) (hs : t.isState = true) (m : Mode) (rt : Rt) (v v' : t.El) (hv : At t rt v)
    (bs rest : Bytes) (h : replay t.dict m v bs = .ok v' rest) : At t rt v' := by
  rcases C32_replay_preserves_addresses t ht hs m rt v hv bs with ⟨w, h1, h2⟩ | ⟨w, e, h1, _⟩
  · rw [h1] at h; cases h; exact h2
  · rw [h1] at h; cases h

/-- `MapIter::next` over all entries, `steit/src/types/map/iter.rs:22-27`: field numbers are turned back into keys with
`try_from_field_number(..).unwrap()`. -/
def mapIterKeys {α : Type} (kt : KeyTy) (v : MapV α) : Except Err (List U32) :=
  v.entries.mapM (fun e =>
    match kt.tryFromFieldNumber e.1 with
    | .ok k => .ok k
    | .error _ => .error .panic)

/-- C32 is false for the keys of maps: one log entry puts the key 300 into a `Map<u8, bool>`, after which iterating over the
map panics. -/
theorem C32_keys_can_leave_their_type :
    ∃ (bs : Bytes) (v' : (Ty.map .u8 .bool).El), replay (Ty.map .u8 .bool).dict .debug ⟨⟨1, []⟩, []⟩ bs = .ok v' [] ∧
      mapIterKeys .u8 v' = .error .panic :=
  ⟨[8#8, 0#8, 2#8, 2#8, 0xac#8, 2#8, 10#8, 1#8, 1#8], ⟨⟨1, []⟩, [(300#32, true)]⟩,
    rfl, rfl⟩

/-- Not vacuous: a replica of a nested type, and a byte string that is half nonsense. -/
example : At (Ty.list exEnum) ⟨1, []⟩ ⟨⟨1, []⟩, [⟨⟨1, [0#32, 5#32]⟩, .inr (.inl ())⟩]⟩ := by
  refine ⟨rfl, fun i x hx => ?_⟩
  cases i with
  | zero => cases hx; exact ⟨fun _ => rfl, trivial⟩
  | succ i => cases hx

/-! ## C40 -/

/-- C40: an update entry for the root carrying the bytes of `v` makes any root object of that type equal to `v`, whatever it
held before, and leaves it at its address. -/
theorem C40_whole_update_overwrites (t : Ty) (ht : t.WF) (hs : t.isState = true) (hp : shape t ≠ .prim)
    (hb : ¬ (shape t = .enum ∧ isBox t = true)) (m m' : Mode) (μ : Mem) (μ' : Mem) (rt : Rt) (r v : t.El) (hr : At t rt r)
    (hroot : rt.path = []) (hc : Carried t v) (hlen : (encode t v).length + 64 < 2 ^ 32) :
    ∃ payload bytes r', t.dict.toBytesFrom m μ v = .ok payload ∧ (Entry.update [] payload).bytes m μ' = .ok bytes ∧
      replay t.dict m' r bytes = .ok r' [] ∧ Same t r' v ∧ t.eq r' v = true ∧ At t rt r' := by
  have hfit : Fits (.update [] (encode t v)) := by unfold Fits; simp only [address, payload, List.length_nil]; omega
  obtain ⟨v', h1, h2⟩ := (decLaw t ht).round m' rt v [] hc (by omega) (fun _ => rfl)
  rw [List.append_nil] at h1
  have hroot' := (C31_accepted_at_root t hs hp hb m' rt r hr hroot []).1
  have hrep := replay_eq t.dict m' r [.update [] (encode t v)] (by simpa using hfit) hroot'
  have ha : applyEntry t.dict m' r (.update [] (encode t v)) = .ok v' [] :=
    handle_update_at t ht hs m' rt r none (encode t v) v' [] hr h1
  simp only [List.flatMap_cons, List.flatMap_nil, List.append_nil, applyAll, ha, outcome] at hrep
  refine ⟨encode t v, _, v', toBytes_eq t ht m μ v (carried_writable t v hc) (by omega),
    entry_bytes_eq m μ' _ (entry_small hfit), hrep, h2, eq_of_same h2 hc, ?_⟩
  exact C25_replay t ht hs m' rt r v' hr _ _ hrep

/-- C40 below the root: the same for the object at any address, seen through `handle`. -/
theorem C40_update_overwrites_anywhere (t : Ty) (ht : t.WF) (hs : t.isState = true) (m : Mode) (rt : Rt) (r v : t.El)
    (hr : At t rt r) (hc : Carried t v) (hlen : (encode t v).length < 2 ^ 32) :
    ∃ r', t.dict.handle m r [] .update none (encode t v) = .ok r' [] ∧ Same t r' v ∧ At t rt r' := by
  obtain ⟨v', h1, h2⟩ := (decLaw t ht).round m rt v [] hc (by omega) (fun _ => rfl)
  rw [List.append_nil] at h1
  have ha := handle_update_at t ht hs m rt r none (encode t v) v' [] hr h1
  refine ⟨v', ha, h2, ?_⟩
  rcases (anyLaw t ht).handle hs m rt r [] .update none (encode t v) hr with ⟨w, rest, g1, g2⟩ | ⟨w, e, g1, _⟩
  · rw [ha] at g1; cases g1; exact g2
  · rw [ha] at g1; cases g1

/-- Not vacuous. -/
example : exTy.WF ∧ exTy.isState = true ∧ shape exTy ≠ .prim ∧ ¬ (shape exTy = .enum ∧ isBox exTy = true) ∧
    Carried exTy exVal ∧ (encode exTy exVal).length + 64 < 2 ^ 32 :=
  ⟨exTy_wf, rfl, by decide, by decide, exVal_carried, by rw [exVal_length]; decide⟩

end Steit
