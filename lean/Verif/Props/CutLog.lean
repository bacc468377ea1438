import Verif.Lemmas.CutLog
import Verif.Lemmas.ClientStops

/-!
# Logs cut short: property C61

A program that dies while it writes its log, or a connection that breaks, leaves the first `n` bytes of a log.
-/

namespace Steit
open Spec Prog

/-! ## Any log -/

/-- C61, any log, cut anywhere: all whole entries are replayed as if nothing had happened, and at most one entry, the one that was
cut, is misread: the replay is that of the whole entries and, if the cut falls in the payload of an entry, of the part of that
payload that is left. A cut in the length of an entry, or right behind it, is reported. -/
theorem C61_at_most_one_entry_misread (t : Ty) (hs : t.isState = true) (hp : shape t ≠ .prim)
    (hb : ¬ (shape t = .enum ∧ isBox t = true)) (m : Mode) (id : Nat) (r : t.El) (hr : At t ⟨id, []⟩ r) (ps : List Bytes)
    (hl : ∀ p ∈ ps, p.length < 2 ^ 64) (n : Nat) :
    ∃ k ≤ ps.length, (chunks (ps.take k) <+: (chunks ps).take n) ∧
      ∀ r1, replay t.dict m r (chunks (ps.take k)) = .ok r1 [] →
        ((chunks ps).take n = chunks (ps.take k) ∧ replay t.dict m r ((chunks ps).take n) = .ok r1 []) ∨
        replay t.dict m r ((chunks ps).take n) = .err r1 .unexpectedEof ∨
        ∃ p q, ps[k]? = some p ∧ q <+: p ∧ q ≠ p ∧ q ≠ [] ∧
          (chunks ps).take n = chunks (ps.take k) ++ (leb p.length ++ q) ∧
          replay t.dict m r ((chunks ps).take n) = replay t.dict m r (chunks (ps.take k ++ [q])) := by
  obtain ⟨k, hk, hcut⟩ := cut_chunks ps n
  refine ⟨k, hk, ?_, fun r1 hok => ?_⟩
  · rcases hcut with h | ⟨_, short, _, _, _, _, h⟩
    · rw [h]; exact List.prefix_rfl
    · rw [h]; exact List.prefix_append _ _
  have hroot : ∀ bs, replay t.dict m r bs = untilEof (replayStep t.dict m) bs.length r bs := fun bs =>
    (C31_accepted_at_root t hs hp hb m ⟨id, []⟩ r hr rfl bs).2
  have hlk : ∀ p ∈ ps.take k, p.length < 2 ^ 64 := fun p hp => hl p (List.mem_of_mem_take hp)
  have hap : applyChunks t.dict m r (ps.take k) = .ok r1 := by
    rw [hroot, chunkLoop_eq _ _ _ _ _ hlk (Nat.le_refl _)] at hok
    cases h : applyChunks t.dict m r (ps.take k) with
    | ok x => rw [h] at hok; cases hok; rfl
    | error x => rw [h] at hok; cases hok
  rcases hcut with h | ⟨p, short, h1, h2, h3, h4, h5⟩
  · exact .inl ⟨h, by rw [h]; exact hok⟩
  · have hpl : p.length < 2 ^ 64 := hl p (List.mem_of_getElem? h1)
    obtain ⟨fuel, hf, he⟩ := chunkLoop_tail t.dict m short (ps.take k) r _ hlk (Nat.le_refl _)
    rw [hap] at he
    simp only at he
    have stop : ∀ {x bs} {v' : t.El} {e}, bs ≠ [] → bs.length ≤ x → replayStep t.dict m r1 bs = .err v' e →
        untilEof (replayStep t.dict m) x r1 bs = .err v' e := by
      intro x bs v' e hne hx hstep
      cases bs with
      | nil => exact absurd rfl hne
      | cons b bs =>
        cases x with
        | zero => simp at hx
        | succ x => simp only [untilEof, hstep]
    right
    rcases cut_frame h3 h4 with ⟨h6, h7⟩ | ⟨q, h6, h7, h8⟩
    · left
      rw [h5, hroot, he]
      exact stop h2 hf (replayStep_short t.dict m r1 h6 h7 hpl)
    · have hql : q.length ≤ p.length := h6.length_le
      have hstep : replayStep t.dict m r1 short = replayStep t.dict m r1 (framed 2 q) := by
        rw [h8]; exact replayStep_cut t.dict m r1 hql hpl
      have hone := replayStep_chunk t.dict m r1 q [] (by omega)
      rw [List.append_nil] at hone
      rw [hone] at hstep
      have hwhole : untilEof (replayStep t.dict m) fuel r1 short = outcome (applyChunks t.dict m r1 [q]) := by
        simp only [applyChunks]
        cases hpe : parseEntry m q with
        | error e =>
          rw [hpe] at hstep
          exact stop h2 hf hstep
        | ok en =>
          rw [hpe] at hstep
          simp only at hstep ⊢
          cases ha : applyEntry t.dict m r1 en with
          | err v' e => rw [ha] at hstep; exact stop h2 hf hstep
          | ok v' rest =>
            rw [ha] at hstep
            obtain ⟨fuel', _, h9⟩ := untilEof_step (replayStep t.dict m) fuel r1 v' short [] h2 hstep
              (List.length_pos_iff.2 h2) hf
            rw [h9, untilEof_nil]
            rfl
      by_cases hq : q = []
      · left
        subst hq
        rw [h5, hroot, he, hwhole]
        simp only [applyChunks, parseEntry_nil, outcome]
      · right
        refine ⟨p, q, h1, h6, h7, hq, by rw [h5, h8], ?_⟩
        rw [h5, hroot, he, hwhole, hroot, chunkLoop_eq _ _ _ _ _ ?_ (Nat.le_refl _), applyChunks_append, hap]
        intro x hx
        rcases List.mem_append.1 hx with hx | hx
        · exact hlk x hx
        · cases List.mem_singleton.1 hx; omega

/-- C61 is false when the cut falls in the payload: every log that ends with an update (of anything but the root with nothing) can
be cut so that the replica accepts what is left and ends up empty, whatever it was before: the part of the entry that is left reads
as "replace the root by nothing". For all structs, lists and maps. -/
theorem C61_cut_update_resets_false (t : Ty) (ht : t.WF) (hs : t.isState = true) (hp : shape t = .plain) (m m' : Mode) (id : Nat)
    (r r1 : t.El) (hr : At t ⟨id, []⟩ r) (es : List Entry) (path : List U32) (value : Bytes) (hne : path ≠ [] ∨ value ≠ [])
    (hfit : ∀ e ∈ es ++ [.update path value], Fits e) (μ : Nat → Mem) (whole bytes : Bytes)
    (hw : (BufferLogger.mk es).bytes m μ = .ok whole) (hok : replay t.dict m' r whole = .ok r1 [])
    (hbytes : (BufferLogger.mk (es ++ [.update path value])).bytes m μ = .ok bytes) :
    ∃ n < bytes.length, replay t.dict m' r (bytes.take n) = .ok (t.dict.withRuntime ⟨id, []⟩) [] := by
  rw [bytes_eq m μ ⟨es⟩ (fun e he => hfit e (by simp [he]))] at hw
  rw [bytes_eq m μ ⟨_⟩ hfit] at hbytes
  cases hw
  cases hbytes
  have hroot : ∀ bs, replay t.dict m' r bs = untilEof (replayStep t.dict m') bs.length r bs := fun bs =>
    (C31_accepted_at_root t hs (by rw [hp]; simp) (by rw [hp]; simp) m' ⟨id, []⟩ r hr rfl bs).2
  let ps := es.map (fun e => encode logEntryTy e.toEl)
  have hps : es.flatMap entryBytes = chunks ps := by simp only [ps, chunks, List.flatMap_map]; rfl
  have hl : ∀ p ∈ ps, p.length < 2 ^ 64 := by
    intro p hp
    obtain ⟨e, he, rfl⟩ := List.mem_map.1 hp
    have := entry_small (hfit e (by simp [he]))
    omega
  -- the payload of the last entry starts with the tag 0
  obtain ⟨tail, htail, htne⟩ : ∃ tail, encode logEntryTy (Entry.update path value).toEl = 0#8 :: tail ∧ tail ≠ [] := by
    have h0 : encode logEntryTy (Entry.update path value).toEl =
        leb 0 ++ encodeFields (.cons 0#32 {} (.vec (.uint .w32)) (.cons 1#32 {} .bytes .nil)) (path, value, ()) := rfl
    have h1 : leb 0 = [0#8] := by rw [leb_eq_lebF]; rfl
    rw [h1] at h0
    refine ⟨_, h0, ?_⟩
    have hlf : ∀ (n : Nat) (x : Bytes), leb n ++ x ≠ [] := fun n x h => leb_ne_nil _ (List.append_eq_nil_iff.1 h).1
    intro hnil
    have hnil : encodeFields (.cons 0#32 {} (.vec (.uint .w32)) (.cons 1#32 {} .bytes .nil)) (path, value, ()) = [] := hnil
    simp only [encodeFields, List.append_eq_nil_iff] at hnil
    obtain ⟨h2, h3, _⟩ := hnil
    rcases hne with hne | hne
    · cases path with
      | nil => exact hne rfl
      | cons k path =>
        rw [if_neg ?_] at h2
        · exact hlf _ _ h2
        · simp only [leftOut, encode, List.isEmpty_iff]
          intro h
          have h : leb k.toNat ++ path.flatMap (fun x => leb x.toNat) = [] := h
          exact hlf _ _ h
    · rw [if_neg ?_] at h3
      · exact absurd h3 (hlf _ _)
      · simp only [leftOut, encode, List.isEmpty_iff]
        exact hne
  have hlen : (0#8 :: tail).length < 2 ^ 64 := by
    have := entry_small (hfit (.update path value) (by simp))
    rw [htail] at this
    omega
  have htl : 0 < tail.length := List.length_pos_iff.2 htne
  have hlast : entryBytes (.update path value) = leb (0#8 :: tail).length ++ (0#8 :: tail) := by
    unfold entryBytes
    rw [htail]
    simp only [framed, if_neg (show ¬ (2 : Nat) = 0 by decide)]
  have hall : (es ++ [Entry.update path value]).flatMap entryBytes = chunks ps ++ (leb (0#8 :: tail).length ++ (0#8 :: tail)) := by
    rw [List.flatMap_append, hps, List.flatMap_cons, List.flatMap_nil, List.append_nil, hlast]
  refine ⟨(chunks ps).length + ((leb (0#8 :: tail).length).length + 1), ?_, ?_⟩
  · show _ < ((es ++ [Entry.update path value]).flatMap entryBytes).length
    rw [hall]
    simp only [List.length_append, List.length_cons]
    omega
  · show replay t.dict m' r (((es ++ [Entry.update path value]).flatMap entryBytes).take _) = _
    have hcut : (chunks ps ++ (leb (0#8 :: tail).length ++ (0#8 :: tail))).take
        ((chunks ps).length + ((leb (0#8 :: tail).length).length + 1)) = chunks ps ++ (leb (0#8 :: tail).length ++ [0#8]) := by
      rw [List.take_length_add_append, List.take_length_add_append]
      rfl
    rw [hall, hcut, hroot]
    have hap : applyChunks t.dict m' r ps = .ok r1 := by
      have hok : replay t.dict m' r (es.flatMap entryBytes) = .ok r1 [] := hok
      rw [hps, hroot, chunkLoop_eq _ _ _ _ _ hl (Nat.le_refl _)] at hok
      cases h : applyChunks t.dict m' r ps with
      | ok x => rw [h] at hok; cases hok; rfl
      | error x => rw [h] at hok; cases hok
    obtain ⟨fuel, hf, he⟩ := chunkLoop_tail t.dict m' (leb (0#8 :: tail).length ++ [0#8]) ps r _ hl (Nat.le_refl _)
    rw [hap] at he
    rw [he]
    have hr1 : At t ⟨id, []⟩ r1 := by
      rcases applyChunks_at ht hs m' ⟨id, []⟩ ps r hr with ⟨v', h1, h2⟩ | ⟨v', e, h1, h2⟩
      · rw [hap] at h1; cases h1; exact h2
      · rw [hap] at h1; cases h1
    have hstep : replayStep t.dict m' r1 (leb (0#8 :: tail).length ++ [0#8]) = .ok (t.dict.withRuntime ⟨id, []⟩) [] := by
      rw [replayStep_cut t.dict m' r1 (by simp) hlen]
      have h1 := replayStep_chunk t.dict m' r1 [0#8] [] (by simp)
      rw [List.append_nil] at h1
      have h2 : parseEntry m' [0#8] = .ok (.update [] []) := by cases m' <;> rfl
      have h3 : applyEntry t.dict m' r1 (.update [] []) = .ok (t.dict.withRuntime ⟨id, []⟩) [] :=
        handle_update_at t ht hs m' ⟨id, []⟩ r1 none [] _ [] hr1 (merge_nil t hs hp m' _)
      rw [h1, h2]
      simp only [h3]
    obtain ⟨fuel', _, h9⟩ := untilEof_step (replayStep t.dict m') fuel r1 _ _ [] (by simp) hstep (by simp) hf
    simp only
    rw [h9, untilEof_nil]

/-! ## Logs of programs -/

theorem Steps.split {α : Type} {M : α → Entry → α → Prop} {es es' : List Entry} : ∀ {v v' : α},
    Steps M v (es ++ es') v' → ∃ u, Steps M v es u ∧ Steps M u es' v' := by
  induction es with
  | nil => intro v v' h; exact ⟨v, rfl, h⟩
  | cons e es ih =>
    intro v v' h
    obtain ⟨x, h1, h2⟩ := h
    obtain ⟨u, h3, h4⟩ := ih h2
    exact ⟨u, ⟨x, h1, h3⟩, h4⟩

theorem calls_append (t : Ty) (m : Mode) : ∀ (a b : List t.Op) (v u : t.El) (w w1 : World), calls t m a v w = (.ok u, w1) →
    calls t m (a ++ b) v w = calls t m b u w1
  | [], b, v, u, w, w1, h => by cases h; rfl
  | op :: a, b, v, u, w, w1, h => by
    simp only [calls, List.cons_append] at h ⊢
    cases h1 : t.run m op v w with
    | mk x w2 =>
      cases x with
      | error e =>
        rw [Exec.bind_err h1] at h
        cases h
      | ok y =>
        rw [Exec.bind_of h1] at h ⊢
        exact calls_append t m a b y u w2 w1 h

theorem callsSync_take (t : Ty) (m : Mode) : ∀ (ops : List t.Op) (j : Nat) (v : t.El) (w : World), CallsSync t m ops v w →
    CallsSync t m (ops.take j) v w ∧ ∀ u w1, calls t m (ops.take j) v w = (.ok u, w1) → CallsSync t m (ops.drop j) u w1
  | ops, 0, v, w, h => ⟨by simp [CallsSync], fun u w1 hc => by
      have hc : calls t m [] v w = (.ok u, w1) := by simpa using hc
      cases hc
      simpa using h⟩
  | [], j + 1, v, w, h => ⟨by simp [CallsSync], fun u w1 hc => by simp [CallsSync]⟩
  | op :: ops, j + 1, v, w, ⟨ha, ho, hn⟩ => by
    refine ⟨⟨ha, ho, fun v' w' h1 => (callsSync_take t m ops j v' w' (hn v' w' h1)).1⟩, fun u w1 hc => ?_⟩
    simp only [List.take_succ_cons, calls] at hc
    cases h1 : t.run m op v w with
    | mk x w2 =>
      cases x with
      | error e =>
        rw [Exec.bind_err h1] at hc
        cases hc
      | ok y =>
        rw [Exec.bind_of h1] at hc
        exact (callsSync_take t m ops j y w2 (hn y w2 h1)).2 u w1 hc

/-- The entries of a program, and what the state is after the first `k` of them; the entries of the first calls come first. -/
theorem prefix_told (t : Ty) (ht : t.WF) (m : Mode) (id : Nat) (ops : List t.Op) (v : t.El) (w : World) (hv : At t ⟨id, []⟩ v)
    (hc : Carried t v) (hw : w.loggers id = ⟨0, []⟩) (hops : CallsSync t m ops v w) :
    ∃ v' w' es, calls t m ops v w = (.ok v', w') ∧ w'.loggers id = ⟨0, es⟩ ∧ Steps (Means t) v es v' ∧
      ∀ k, (∃ s, Steps (Means t) v (es.take k) s ∧ Steps (Means t) s (es.drop k) v') ∧
        ∀ j u w1, calls t m (ops.take j) v w = (.ok u, w1) → (w1.loggers id).entries.length = k →
          Steps (Means t) v (es.take k) u := by
  have log : ∀ {v : t.El} {w w' : World} {es0 es}, w.loggers id = ⟨0, es0⟩ → Logged ⟨id, []⟩ w w' es →
      w'.loggers id = ⟨0, es0 ++ es⟩ := by
    intro _ w w' es0 es h0 hl
    unfold Logged at hl
    rw [map_under_nil, h0] at hl
    simpa [appended] using hl
  obtain ⟨v', w', es, h1, _, _, hl, hsteps⟩ := calls_tell t ht m ops v ⟨id, []⟩ w hv hc hops
  have hlog := log (v := v) hw hl
  rw [List.nil_append] at hlog
  refine ⟨v', w', es, h1, hlog, hsteps, fun k => ⟨?_, fun j u w1 h2 hk => ?_⟩⟩
  · rw [← List.take_append_drop k es] at hsteps
    exact hsteps.split
  · obtain ⟨ha, hb⟩ := callsSync_take t m ops j v w hops
    obtain ⟨u', w1', es1, h3, hu, hcu, hl1, hs1⟩ := calls_tell t ht m _ v ⟨id, []⟩ w hv hc ha
    rw [h2] at h3
    cases h3
    obtain ⟨v2, w2, es2, h4, _, _, hl2, _⟩ := calls_tell t ht m _ u ⟨id, []⟩ w1 hu hcu (hb u w1 h2)
    have h5 := calls_append t m (ops.take j) (ops.drop j) v u w w1 h2
    rw [List.take_append_drop, h1, h4] at h5
    cases h5
    have hlog1 := log (v := v) hw hl1
    rw [List.nil_append] at hlog1
    have hlog2 := log (v := v) hlog1 hl2
    rw [hlog] at hlog2
    have he : es = es1 ++ es2 := by injection hlog2
    rw [hlog1] at hk
    have hk : es1.length = k := hk
    rw [he, ← hk, List.take_left]
    exact hs1

theorem flatMap_chunks (es : List Entry) : es.flatMap entryBytes = chunks (es.map (fun e => encode logEntryTy e.toEl)) := by
  simp only [chunks, List.flatMap_map]
  rfl

/-- C61, Rust replicas: a program makes any number of calls; of the bytes of its log only the first `n` arrive. Let `k` be the number
of whole entries among them. A replica that replays what has arrived holds the state `r1` after those `k` entries: the state the
program had after some of its calls, if the cut does not fall between two entries of one call, and in any case one from which the
missing entries lead to the final state. It reports `UnexpectedEof` or nothing. Missing: cuts that leave part of the payload of an
entry, which is then read as another entry (`C61_at_most_one_entry_misread`, `C61_cut_update_resets_false`). -/
theorem C61_replica_of_cut_log_partial (t : Ty) (ht : t.WF) (hs : t.isState = true) (hp : shape t ≠ .prim)
    (hb : ¬ (shape t = .enum ∧ isBox t = true)) (m m' : Mode) (μ μ' : Nat → Mem) (id id' : Nat) (ops : List t.Op) (v r : t.El)
    (w : World) (hv : At t ⟨id, []⟩ v) (hc : Carried t v) (hr : At t ⟨id', []⟩ r) (hsame : Same t r v)
    (hw : w.loggers id = ⟨0, []⟩) (hops : CallsSync t m ops v w) :
    ∃ v' w', calls t m ops v w = (.ok v', w') ∧
      ((∀ e ∈ (w'.loggers id).entries, Fits e) →
        ∃ bytes, (BufferLogger.mk (w'.loggers id).entries).bytes m μ = .ok bytes ∧ ∀ n,
          ∃ k whole rest r1 r', (BufferLogger.mk ((w'.loggers id).entries.take k)).bytes m μ = .ok whole ∧
            (BufferLogger.mk ((w'.loggers id).entries.drop k)).bytes m μ' = .ok rest ∧
            replay t.dict m' r whole = .ok r1 [] ∧ replay t.dict m' r1 rest = .ok r' [] ∧ Same t r' v' ∧
            (∀ j u w1, calls t m (ops.take j) v w = (.ok u, w1) → (w1.loggers id).entries.length = k → Same t r1 u) ∧
            ((bytes.take n = whole ∧ replay t.dict m' r (bytes.take n) = .ok r1 []) ∨
              replay t.dict m' r (bytes.take n) = .err r1 .unexpectedEof ∨
              ∃ e q, (w'.loggers id).entries[k]? = some e ∧ q <+: encode logEntryTy e.toEl ∧ q ≠ encode logEntryTy e.toEl ∧ q ≠ [] ∧
                bytes.take n = whole ++ (leb (encode logEntryTy e.toEl).length ++ q))) := by
  obtain ⟨v', w', es, h1, hlog, hsteps, hk⟩ := prefix_told t ht m id ops v w hv hc hw hops
  refine ⟨v', w', h1, fun hfit => ?_⟩
  rw [hlog] at hfit ⊢
  have hfit : ∀ e ∈ es, Fits e := hfit
  refine ⟨_, bytes_eq m μ ⟨es⟩ hfit, fun n => ?_⟩
  have hl : ∀ p ∈ es.map (fun e => encode logEntryTy e.toEl), p.length < 2 ^ 64 := by
    intro p hp
    obtain ⟨e, he, rfl⟩ := List.mem_map.1 hp
    have := entry_small (hfit e he)
    omega
  have hroot := fun (x : t.El) (hx : At t ⟨id', []⟩ x) => (C31_accepted_at_root t hs hp hb m' ⟨id', []⟩ x hx rfl []).1
  -- the replica after `k` entries
  have after : ∀ k, ∃ r1 r', replay t.dict m' r ((es.take k).flatMap entryBytes) = .ok r1 [] ∧
      replay t.dict m' r1 ((es.drop k).flatMap entryBytes) = .ok r' [] ∧ Same t r' v' ∧
      ∀ j u w1, calls t m (ops.take j) v w = (.ok u, w1) → (w1.loggers id).entries.length = k → Same t r1 u := by
    intro k
    obtain ⟨⟨s, hs1, hs2⟩, hcall⟩ := hk k
    obtain ⟨r1, h3, h4⟩ := follows_steps ht hs m' hs1 hr hsame
    have hr1 := applies_at ht hs hr h3
    obtain ⟨r', h5, h6⟩ := follows_steps ht hs m' hs2 hr1 h4
    have hrep := replay_eq t.dict m' r (es.take k) (fun e he => hfit e (List.mem_of_mem_take he)) (hroot r hr)
    have hrep' := replay_eq t.dict m' r1 (es.drop k) (fun e he => hfit e (List.mem_of_mem_drop he)) (hroot r1 hr1)
    rw [applyAll_of_applies h3] at hrep
    rw [applyAll_of_applies h5] at hrep'
    refine ⟨r1, r', hrep, hrep', h6, fun j u w1 h7 h8 => ?_⟩
    obtain ⟨r2, h9, h10⟩ := follows_steps ht hs m' (hcall j u w1 h7 h8) hr hsame
    have := applyAll_of_applies h3
    rw [applyAll_of_applies h9] at this
    cases this
    exact h10
  obtain ⟨k, _, _, hcut⟩ := C61_at_most_one_entry_misread t hs hp hb m' id' r hr _ hl n
  rw [← List.map_take, ← flatMap_chunks, ← flatMap_chunks] at hcut
  obtain ⟨r1, r', h2, h3, h4, h5⟩ := after k
  refine ⟨k, _, _, r1, r', bytes_eq m μ ⟨es.take k⟩ (fun e he => hfit e (List.mem_of_mem_take he)),
    bytes_eq m μ' ⟨es.drop k⟩ (fun e he => hfit e (List.mem_of_mem_drop he)), h2, h3, h4, h5, ?_⟩
  rcases hcut r1 h2 with h | h | ⟨p, q, h6, h7, h8, h9, h10, _⟩
  · exact .inl h
  · exact .inr (.inl h)
  · rw [List.getElem?_map, Option.map_eq_some_iff] at h6
    obtain ⟨e, h6, rfl⟩ := h6
    exact .inr (.inr ⟨e, q, h6, h7, h8, h9, h10⟩)

/-- C61, C# clients: the client throws `EndOfStreamException` unless the cut falls between two entries, and in any case shows the
state after the whole entries that have arrived: the one the program had after some of its calls, if the cut does not fall inside
or between the entries of one call, and one from which the missing entries lead to the final state. -/
theorem C61_client_of_cut_log (t : Ty) (ht : t.WF) (hm : Mirrored t) (ρ : Bytes → Str) (m : Mode) (μ μ' : Nat → Mem) (id : Nat)
    (ops : List t.Op) (v : t.El) (c : t.Cs) (w : World) (hv : At t ⟨id, []⟩ v) (hc : Carried t v) (hs : Shows t v c)
    (hw : w.loggers id = ⟨0, []⟩) (hops : CallsSync t m ops v w) :
    ∃ v' w', calls t m ops v w = (.ok v', w') ∧
      ((∀ e ∈ (w'.loggers id).entries, CsFits e) →
        ∃ bytes, (BufferLogger.mk (w'.loggers id).entries).bytes m μ = .ok bytes ∧ ∀ n,
          ∃ k whole rest c1 c', (BufferLogger.mk ((w'.loggers id).entries.take k)).bytes m μ = .ok whole ∧
            (BufferLogger.mk ((w'.loggers id).entries.drop k)).bytes m μ' = .ok rest ∧
            t.csReplay ρ c whole = .ok c1 ∧ t.csReplay ρ c1 rest = .ok c' ∧ Shows t v' c' ∧
            (∀ j u w1, calls t m (ops.take j) v w = (.ok u, w1) → (w1.loggers id).entries.length = k → Shows t u c1) ∧
            ((bytes.take n = whole ∧ t.csReplayLeft ρ n c (bytes.take n) = (c1, none)) ∨
              (bytes.take n ≠ whole ∧ t.csReplayLeft ρ n c (bytes.take n) = (c1, some .endOfStream)))) := by
  obtain ⟨v', w', es, h1, hlog, hsteps, hk⟩ := prefix_told t ht m id ops v w hv hc hw hops
  refine ⟨v', w', h1, fun hfit => ?_⟩
  rw [hlog] at hfit ⊢
  have hcs : ∀ e ∈ es, CsFits e := hfit
  have hfit : ∀ e ∈ es, Fits e := fun e he => by have := hcs e he; unfold CsFits at this; unfold Fits; omega
  refine ⟨_, bytes_eq m μ ⟨es⟩ hfit, fun n => ?_⟩
  obtain ⟨k, _, hcut⟩ := cut_chunks (es.map (fun e => encode logEntryTy e.toEl)) n
  rw [← List.map_take, ← flatMap_chunks, ← flatMap_chunks] at hcut
  obtain ⟨⟨s, hs1, hs2⟩, hcall⟩ := hk k
  have hck : ∀ e ∈ es.take k, CsFits e := fun e he => hcs e (List.mem_of_mem_take he)
  have hall : ∃ tail, (es.flatMap entryBytes).take n = (es.take k).flatMap entryBytes ++ tail ∧
      (tail = [] ∨ (tail ≠ [] ∧ csGetNested tail = .error .endOfStream)) := by
    rcases hcut with h | ⟨p, short, h2, h3, h4, h5, h6⟩
    · exact ⟨[], by rw [h, List.append_nil], .inl rfl⟩
    · refine ⟨short, h6, .inr ⟨h3, ?_⟩⟩
      rw [List.getElem?_map, Option.map_eq_some_iff] at h2
      obtain ⟨e, h2, rfl⟩ := h2
      have hl : (encode logEntryTy e.toEl).length < 2 ^ 31 := by
        have hce := hcs e (List.mem_of_getElem? h2)
        have := encode_entry_le e (hfit e (List.mem_of_getElem? h2))
        unfold CsFits at hce
        omega
      rcases cut_frame h4 h5 with ⟨h7, h8⟩ | ⟨q, h7, h8, h9⟩
      · exact csGetNested_short h7 h8
      · rw [h9]
        refine csGetNested_cut ?_ hl
        rcases Nat.lt_or_ge q.length (encode logEntryTy e.toEl).length with h | h
        · exact h
        · exact absurd (h7.eq_of_length (by have := h7.length_le; omega)) h8
  obtain ⟨tail, htail, hcase⟩ := hall
  obtain ⟨c1, h2, h3, h4⟩ := csLeft_steps ρ t ht hm tail hs1 hs hck
  obtain ⟨c', h5, h6⟩ := csReplay_steps ρ t ht hm hs2 h2 (fun e he => hcs e (List.mem_of_mem_drop he))
  refine ⟨k, _, _, c1, c', bytes_eq m μ ⟨es.take k⟩ (fun e he => hfit e (List.mem_of_mem_take he)),
    bytes_eq m μ' ⟨es.drop k⟩ (fun e he => hfit e (List.mem_of_mem_drop he)), h3.done, h5.done, h6, fun j u w1 h7 h8 => ?_, ?_⟩
  · obtain ⟨c2, h9, h10⟩ := csReplay_steps ρ t ht hm (hcall j u w1 h7 h8) hs hck
    have := h9.done
    rw [h3.done] at this
    cases this
    exact h10
  · have hn : ((es.flatMap entryBytes).take n).length ≤ n := by rw [List.length_take]; omega
    obtain ⟨n', hn', h9⟩ := h4 n (by rw [← htail]; exact hn)
    show ((es.flatMap entryBytes).take n = (es.take k).flatMap entryBytes ∧
        t.csReplayLeft ρ n c ((es.flatMap entryBytes).take n) = _) ∨
      ((es.flatMap entryBytes).take n ≠ (es.take k).flatMap entryBytes ∧
        t.csReplayLeft ρ n c ((es.flatMap entryBytes).take n) = _)
    rw [htail, h9]
    rcases hcase with rfl | ⟨hne, hex⟩
    · exact .inl ⟨by simp, by cases n' <;> rfl⟩
    · refine .inr ⟨by simp [hne], ?_⟩
      cases n' with
      | zero => exact absurd (List.length_eq_zero_iff.1 (by omega)) hne
      | succ n' => exact csReplayLeft_throws hex hne n'

/-- C61, C# clients and arbitrary bytes: the client stops at the first entry it cannot read or apply. It holds what the bytes before that
entry lead to, throws what that entry makes it throw, and does not look at anything after it; if it throws nothing, it has replayed
everything. -/
theorem C61_client_stops_at_first_bad_entry (ρ : Bytes → Str) (t : Ty) (c : t.Cs) (bs : Bytes) :
    (∃ c1, t.csReplayLeft ρ bs.length c bs = (c1, none) ∧ t.csReplay ρ c bs = .ok c1) ∨
      ∃ c1 e done rest, t.csReplayLeft ρ bs.length c bs = (c1, some e) ∧ t.csReplay ρ c bs = .error e ∧ bs = done ++ rest ∧
        rest ≠ [] ∧ t.csReplay ρ c done = .ok c1 ∧ t.csReplayStep ρ c1 rest = .error e := by
  obtain ⟨done, rest, h1, h2, h3⟩ := csReplayLeft_stops ρ t bs.length c bs (Nat.le_refl _)
  rcases h3 with ⟨h3, rfl⟩ | ⟨e, h3, h4, h5⟩
  · rw [List.append_nil] at h1
    subst h1
    exact .inl ⟨_, Prod.ext rfl h3, h2.done⟩
  · refine .inr ⟨_, e, done, rest, Prod.ext rfl h3, ?_, h1, h4, h2.done, h5⟩
    obtain ⟨n, hn, hu⟩ := h2 rest
    have hpos := List.length_pos_iff.2 h4
    have hlen : bs.length = n + (done.length - n + (rest.length - 1) + 1) := by rw [h1, List.length_append]; omega
    unfold Ty.csReplay
    rw [hlen, h1, hu]
    cases rest with
    | nil => exact absurd rfl h4
    | cons b rest =>
      simp only [← h1, untilEnd, Bind.bind, Except.bind, h5]

/-! ## Cases -/

/-- Bytes of each kind: a push; a push and an entry that ends too early; a push, the removal of a key (from a list), and another push,
which is not looked at. -/
example (ρ : Bytes → Str) : (Ty.list (.uint .w8)).csReplayLeft ρ 5 (Ty.list (.uint .w8)).csNew [4#8, 8#8, 10#8, 1#8, 7#8] = ([7#8], none) ∧
    (Ty.list (.uint .w8)).csReplayLeft ρ 7 (Ty.list (.uint .w8)).csNew [4#8, 8#8, 10#8, 1#8, 7#8, 5#8, 8#8] = ([7#8], some .endOfStream) ∧
    (Ty.list (.uint .w8)).csReplayLeft ρ 12 (Ty.list (.uint .w8)).csNew
      [4#8, 8#8, 10#8, 1#8, 7#8, 1#8, 12#8, 4#8, 8#8, 10#8, 1#8, 9#8] = ([7#8], some .notSupported) :=
  ⟨by rfl, by rfl, by rfl⟩

/-- Not vacuous: the history of six calls of `Verif/Props/Sync.lean`, its log cut anywhere. -/
example (m' : Mode) (μ : Nat → Mem) :=
  C61_replica_of_cut_log_partial hTy hTy_wf rfl (by decide) (by decide) .debug m' μ μ 4 9 hOps (hVal [] [] (hA 0))
    (hTy.dict.withRuntime ⟨9, []⟩) hWorld (hVal_at 4) ((carried_init hTy).1 ⟨4, []⟩) (hVal_at 9) rfl rfl (hOps_ok hWorld)

/-- The client of the same program. -/
example (ρ : Bytes → Str) (μ : Nat → Mem) :=
  C61_client_of_cut_log hTy hTy_wf hTy_mirrored ρ .debug μ μ 4 hOps
    (hVal [] [] (hA 0)) hTy.csNew hWorld (hVal_at 4) ((carried_init hTy).1 ⟨4, []⟩)
    ⟨.nil, fun _ => .none, ⟨rfl, trivial⟩, trivial⟩ rfl (hOps_ok hWorld)

/-- One push, one update of the whole struct: there is a cut that resets the struct. -/
example (μ : Nat → Mem) (m' : Mode) (r r1 : hTy.El) (whole : Bytes) (hr : At hTy ⟨4, []⟩ r)
    (hw : (BufferLogger.mk [.listPush [0#32] [7#8]]).bytes .debug μ = .ok whole) (hok : replay hTy.dict m' r whole = .ok r1 [])
    (bytes : Bytes) (hb : (BufferLogger.mk [.listPush [0#32] [7#8], .update [2#32, 0#32] [5#8]]).bytes .debug μ = .ok bytes) :
    ∃ n < bytes.length, replay hTy.dict m' r (bytes.take n) = .ok (hTy.dict.withRuntime ⟨4, []⟩) [] :=
  C61_cut_update_resets_false hTy hTy_wf rfl rfl .debug m' 4 r r1 hr [.listPush [0#32] [7#8]] [2#32, 0#32] [5#8] (.inl (by simp))
    (by unfold Fits; decide +kernel) μ whole bytes hw hok hb

/-- What a root list holds after a replay, and whether it succeeded. -/
def listAfter (r : Res (Ty.list (.uint .w8)).El) : List (BitVec 8) × Bool :=
  match r with
  | .ok r _ => (r.items, true)
  | .err r _ => (r.items, false)

/-- Two pushes to a list, cut in all possible places: with a list at the root all cuts inside an entry are reported. -/
example : (List.range 11).map (fun n => listAfter (replay (Ty.list (.uint .w8)).dict .debug ⟨⟨9, []⟩, []⟩
      (([4#8, 8#8, 10#8, 1#8, 7#8, 4#8, 8#8, 10#8, 1#8, 9#8] : Bytes).take n))) =
    [([], true), ([], false), ([], false), ([], false), ([], false), ([7#8], true), ([7#8], false), ([7#8], false), ([7#8], false),
      ([7#8], false), ([7#8, 9#8], true)] := by
  decide +kernel

/-- The list in field 0, and the one in the second variant of the enum in field 2 if that is the current one; did the replay
succeed? -/
def hAfter (r : Res hTy.El) : List (BitVec 8) × Option (List (BitVec 8)) × Bool :=
  let lists (r : hTy.El) : List (BitVec 8) × Option (List (BitVec 8)) :=
    (r.fields.1.items, match r.fields.2.2.1.val with
      | .inl _ => none
      | .inr (.inl x) => some x.1.items
      | .inr (.inr x) => nomatch x)
  match r with
  | .ok r _ => ((lists r).1, (lists r).2, true)
  | .err r _ => ((lists r).1, (lists r).2, false)

/-- C61 is false in further ways, depending on where the payload of an update is cut. The entry sets the list in field 5 of a variant,
which held `[8]`, to `[1, 2]`; field 0 is another list, `[7]`. Two bytes of the entry reset everything; five bytes are an error, but one
that has switched the variant already; seven bytes empty the list; ten bytes store a shorter list. -/
theorem C61_cut_update_misread_false (μ : Mem) :
    ∃ bytes, (Entry.update [2#32, 1#32, 5#32] [1#8, 2#8]).bytes .debug μ = .ok bytes ∧ bytes.length = 11 ∧
      ∃ r : hTy.El, At hTy ⟨4, []⟩ r ∧ hAfter (.ok r []) = ([7#8], some [8#8], true) ∧
        hAfter (replay hTy.dict .debug r (bytes.take 2)) = ([], none, true) ∧
        hAfter (replay hTy.dict .debug r (bytes.take 5)) = ([7#8], none, false) ∧
        hAfter (replay hTy.dict .debug r (bytes.take 7)) = ([7#8], some [], true) ∧
        hAfter (replay hTy.dict .debug r (bytes.take 10)) = ([7#8], some [1#8], true) ∧
        hAfter (replay hTy.dict .debug r bytes) = ([7#8], some [1#8, 2#8], true) := by
  have hfit : Fits (.update [2#32, 1#32, 5#32] [1#8, 2#8]) := by unfold Fits; decide +kernel
  have hb : entryBytes (.update [2#32, 1#32, 5#32] [1#8, 2#8]) = [10#8, 0#8, 2#8, 3#8, 2#8, 1#8, 5#8, 10#8, 2#8, 1#8, 2#8] := by
    decide +kernel
  refine ⟨_, entry_bytes_eq .debug μ _ (entry_small hfit), ?_⟩
  change (entryBytes _).length = _ ∧ _
  rw [show framed 2 (encode logEntryTy (Entry.update [2#32, 1#32, 5#32] [1#8, 2#8]).toEl) =
    entryBytes (.update [2#32, 1#32, 5#32] [1#8, 2#8]) from rfl, hb]
  refine ⟨rfl, hVal [7#8] [] (hB [8#8]), ?_, rfl, ?_, ?_, ?_, ?_, ?_⟩
  · exact ⟨fun _ => rfl, ⟨rfl, fun _ _ _ => trivial⟩, ⟨rfl, List.nodup_nil, fun _ h => nomatch h⟩, ⟨fun _ => rfl, ⟨rfl, fun _ _ _ => trivial⟩, trivial⟩, trivial⟩
  all_goals decide +kernel

end Steit
