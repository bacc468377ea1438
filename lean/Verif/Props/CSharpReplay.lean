import Verif.Lemmas.CSharpFollow
import Verif.Props.CSharp
import Verif.Props.Sync
import Verif.Props.Defects

/-!
# Replaying Rust's logs in C#: property C46

`t.csReplay` (`Verif/Model/CSharp.lean`) is `StateReplayer.Replay`; `Shows` and the side conditions of C# are in
`Verif/Spec/CSharp.lean`, those of calls in `Verif/Spec/Ops.lean`.
-/

namespace Steit
open Spec Prog

/-! ## Reading the log -/

theorem logEntryTy_mirrored : Mirrored logEntryTy := by
  simp [logEntryTy, Mirrored, MirroredFields, MirroredVariants, GoodField]

theorem eq_of_forall₂ {α : Type} {xs ys : List α} (h : List.Forall₂ (fun v c => c = v) xs ys) : ys = xs := by
  induction h with
  | nil => rfl
  | cons h1 _ ih => rw [h1, ih]

theorem ofCs_shows (e : Entry) (c : logEntryTy.Cs) (h : Shows logEntryTy e.toEl c) : Entry.ofCs c = e := by
  cases e with
  | update p b =>
    rcases c with ⟨p', b', _⟩ | c
    · obtain ⟨h1, h2, _⟩ := h
      have h1 := eq_of_forall₂ h1
      have h2 : b' = b := h2
      subst h1 h2
      rfl
    · exact nomatch h
  | listPush p b =>
    rcases c with _ | ⟨p', b', _⟩ | c
    · exact nomatch h
    · obtain ⟨h1, h2, _⟩ := h
      have h1 := eq_of_forall₂ h1
      have h2 : b' = b := h2
      subst h1 h2
      rfl
    · exact nomatch h
  | listPop p =>
    rcases c with _ | _ | ⟨p', _⟩ | c
    · exact nomatch h
    · exact nomatch h
    · obtain ⟨h1, _⟩ := h
      have h1 := eq_of_forall₂ h1
      subst h1
      rfl
    · exact nomatch h
  | mapRemove p k =>
    rcases c with _ | _ | _ | ⟨p', k', _⟩ | c
    · exact nomatch h
    · exact nomatch h
    · exact nomatch h
    · obtain ⟨h1, h2, _⟩ := h
      have h1 := eq_of_forall₂ h1
      have h2 : k' = k := h2
      subst h1 h2
      rfl
    · exact nomatch c

/-- C# reads an entry of a log Rust wrote. -/
theorem csReplayStep_entry (ρ : Bytes → Str) (t : Ty) (c c' : t.Cs) (e : Entry) (h : CsFits e)
    (he : t.csReplayEntry ρ c e = .ok c') (rest : Bytes) :
    t.csReplayStep ρ c (entryBytes e ++ rest) = .ok (c', rest) := by
  have hl := encode_entry_le e (by unfold CsFits at h; unfold Fits; omega)
  have hlen : (encode logEntryTy e.toEl).length < 2 ^ 31 := by unfold CsFits at h; omega
  obtain ⟨x, h1, h2⟩ := readable ρ logEntryTy logEntryTy_wf logEntryTy_mirrored e.toEl
    (carried_legible _ _ (carried_toEl e)) hlen
  have h2 := h2 [] (fun _ => rfl)
  rw [List.append_nil] at h2
  have hg : csGetNested (entryBytes e ++ rest) = .ok (encode logEntryTy e.toEl, rest) := csGetNested_framed _ rest hlen
  unfold Ty.csReplayStep
  simp only [hg, h2, Bind.bind, Except.bind, ofCs_shows e x h1, he]

theorem csReplay_steps (ρ : Bytes → Str) (t : Ty) (ht : t.WF) (hm : Mirrored t) {es : List Entry} :
    ∀ {v v' : t.El} {c : t.Cs}, Steps (Means t) v es v' → Shows t v c → (∀ e ∈ es, CsFits e) →
      ∃ c', Eats (t.csReplayStep ρ) c (es.flatMap entryBytes) c' ∧ Shows t v' c' := by
  induction es with
  | nil => intro v v' c h hs _; cases h; exact ⟨c, .refl c, hs⟩
  | cons e es ih =>
    intro v v' c h hs hf
    obtain ⟨u, h1, h2⟩ := h
    have hfe := hf e List.mem_cons_self
    obtain ⟨c1, h3, h4⟩ := csFollows ρ t ht hm h1 hs (by unfold CsFits at hfe; omega)
    obtain ⟨c', h5, h6⟩ := ih h2 h4 (fun e he => hf e (List.mem_cons_of_mem _ he))
    exact ⟨c', (Eats.one (entryBytes_ne e) (csReplayStep_entry ρ t c c1 e hfe h3)).trans h5, h6⟩

theorem calls_tell (t : Ty) (ht : t.WF) (m : Mode) : ∀ (ops : List t.Op) (v : t.El) (rt : Rt) (w : World),
    At t rt v → Carried t v → CallsSync t m ops v w →
    ∃ v' w' es, calls t m ops v w = (.ok v', w') ∧ At t rt v' ∧ Carried t v' ∧ Logged rt w w' es ∧ Steps (Means t) v es v'
  | [], v, rt, w, hv, hc, _ => ⟨v, w, [], rfl, hv, hc, .refl rfl, rfl⟩
  | op :: ops, v, rt, w, hv, hc, ⟨ha, ho, hn⟩ => by
    obtain ⟨v1, w1, es1, h1, hc1, hl1, hs1⟩ := tells t ht m op v rt w hv hc ha ho
    have hv1 := at_run t ht m op v rt w v1 w1 hv ha h1
    obtain ⟨v2, w2, es2, h2, hv2, hc2, hl2, hs2⟩ := calls_tell t ht m ops v1 rt w1 hv1 hc1 (hn v1 w1 h1)
    exact ⟨v2, w2, es1 ++ es2, (Exec.bind_of h1).trans h2, hv2, hc2, hl1.trans hl2, hs1.trans hs2⟩

/-! ## C46 -/

/-- C46: a Rust source at a root, and a C# client showing its data. The source makes any number of API calls of any kind, at
any depth. No call panics, and replaying the bytes of the source's log on the client throws no exception and leaves it showing
the source's data again. Missing, compared with the claim: calls outside the side conditions (`CallsSync`, as for C24; e.g.
`C46_absent_key`), types without a working C# counterpart (`Mirrored`), entries of 2 GiB or more. -/
theorem C46_client_follows_partial (t : Ty) (ht : t.WF) (hm : Mirrored t) (ρ : Bytes → Str) (m : Mode) (μ : Nat → Mem) (id : Nat)
    (ops : List t.Op) (v : t.El) (c : t.Cs) (w : World) (hv : At t ⟨id, []⟩ v) (hc : Carried t v) (hs : Shows t v c)
    (hw : w.loggers id = ⟨0, []⟩) (hops : CallsSync t m ops v w) :
    ∃ v' w', calls t m ops v w = (.ok v', w') ∧ At t ⟨id, []⟩ v' ∧ Carried t v' ∧ (w'.loggers id).paused = 0 ∧
      ((∀ e ∈ (w'.loggers id).entries, CsFits e) →
        ∃ bytes c', (BufferLogger.mk (w'.loggers id).entries).bytes m μ = .ok bytes ∧ t.csReplay ρ c bytes = .ok c' ∧
          Shows t v' c') := by
  obtain ⟨v', w', es, h1, hv', hc', hl, hsteps⟩ := calls_tell t ht m ops v ⟨id, []⟩ w hv hc hops
  have hlog : w'.loggers id = ⟨0, es⟩ := by
    have := hl
    unfold Logged at this
    rw [map_under_nil, hw] at this
    simpa [appended] using this
  refine ⟨v', w', h1, hv', hc', by rw [hlog], fun hfit => ?_⟩
  rw [hlog] at hfit ⊢
  obtain ⟨c', h2, h3⟩ := csReplay_steps ρ t ht hm hsteps hs hfit
  exact ⟨_, c', bytes_eq m μ ⟨es⟩ (fun e he => by have := hfit e he; unfold CsFits at this; unfold Fits; omega), h2.done, h3⟩

/-- C46 as stated: the client and a Rust replica replay the same bytes, and in the end the client shows the data of the replica
(and of the source). -/
theorem C46_like_rust_partial (t : Ty) (ht : t.WF) (hst : t.isState = true) (hp : shape t ≠ .prim)
    (hb : ¬ (shape t = .enum ∧ isBox t = true)) (hm : Mirrored t) (ρ : Bytes → Str) (m m' : Mode) (μ : Nat → Mem) (id id' : Nat)
    (ops : List t.Op) (v r : t.El) (c : t.Cs) (w : World) (hv : At t ⟨id, []⟩ v) (hc : Carried t v) (hr : At t ⟨id', []⟩ r)
    (hsame : Same t r v) (hs : Shows t r c) (hw : w.loggers id = ⟨0, []⟩) (hops : CallsSync t m ops v w) :
    ∃ v' w', calls t m ops v w = (.ok v', w') ∧
      ((∀ e ∈ (w'.loggers id).entries, CsFits e) →
        ∃ bytes r' c', (BufferLogger.mk (w'.loggers id).entries).bytes m μ = .ok bytes ∧
          replay t.dict m' r bytes = .ok r' [] ∧ t.csReplay ρ c bytes = .ok c' ∧ Same t r' v' ∧ Shows t r' c') := by
  obtain ⟨v', w', h1, _, _, _, h2⟩ := C46_client_follows_partial t ht hm ρ m μ id ops v c w hv hc ((shows_same hsame c).1 hs) hw hops
  obtain ⟨v2, w2, h3, _, _, _, h4⟩ := C24_replica_follows t ht hst hp hb m m' μ id id' ops v r w hv hc hr hsame hw hops
  rw [h1] at h3
  cases h3
  refine ⟨v', w', h1, fun hfit => ?_⟩
  obtain ⟨bytes, c', h5, h6, h7⟩ := h2 hfit
  obtain ⟨b, r', h8, h9, h10, _⟩ := h4 (fun e he => by have := hfit e he; unfold CsFits at this; unfold Fits; omega)
  rw [h5] at h8
  cases h8
  exact ⟨bytes, r', c', h5, h9, h6, h10, (shows_same h10 c').2 h7⟩

/-- C46 for a client that joins late: it gets the bytes of the source's current state, then the log of what happens next. -/
theorem C46_joins_late_partial (t : Ty) (ht : t.WF) (hm : Mirrored t) (hroot : Rooted t) (ρ : Bytes → Str) (m : Mode)
    (μ : Mem) (μ' : Nat → Mem) (id : Nat) (ops : List t.Op) (v : t.El) (w : World) (hv : At t ⟨id, []⟩ v) (hc : Carried t v)
    (hlen : (encode t v).length < 2 ^ 31) (hw : w.loggers id = ⟨0, []⟩) (hops : CallsSync t m ops v w) :
    ∃ snapshot c v' w', t.dict.toBytesFrom m μ v = .ok snapshot ∧ t.csDeserializeRoot ρ snapshot = .ok (c, []) ∧
      calls t m ops v w = (.ok v', w') ∧
      ((∀ e ∈ (w'.loggers id).entries, CsFits e) →
        ∃ bytes c', (BufferLogger.mk (w'.loggers id).entries).bytes m μ' = .ok bytes ∧ t.csReplay ρ c bytes = .ok c' ∧
          Shows t v' c') := by
  obtain ⟨snapshot, c, h1, h2, h3⟩ := C45_decodes_partial t ht hm hroot ρ m μ v (carried_legible t v hc) hlen
  obtain ⟨v', w', h4, _, _, _, h5⟩ := C46_client_follows_partial t ht hm ρ m μ' id ops v c w hv hc h3 hw hops
  exact ⟨snapshot, c, v', w', h1, h2, h4, h5⟩

/-- C46 in rounds: the log is sent and drained from time to time. However the history of calls is cut into rounds, everything
succeeds and in the end the client shows the data of the source. -/
theorem C46_in_rounds_partial (t : Ty) (ht : t.WF) (hm : Mirrored t) (ρ : Bytes → Str) (m : Mode) (μ : Nat → Mem) (id : Nat)
    (history : List (List t.Op)) : ∀ (v : t.El) (c : t.Cs) (w : World), At t ⟨id, []⟩ v → Carried t v → Shows t v c →
      w.loggers id = ⟨0, []⟩ → CsRoundsSync t m id history v w →
      ∃ v' c' w', csRounds t ρ m μ id history v c w = some (v', c', w') ∧ Shows t v' c' ∧ w'.loggers id = ⟨0, []⟩ := by
  induction history with
  | nil => intro v c w _ _ hs hw _; exact ⟨v, c, w, rfl, hs, hw⟩
  | cons ops history ih =>
    intro v c w hv hc hs hw ⟨hops, hn⟩
    obtain ⟨v', w', h1, hv', hc', hp', hf⟩ := C46_client_follows_partial t ht hm ρ m μ id ops v c w hv hc hs hw hops
    obtain ⟨hfit, hrest⟩ := hn v' w' h1
    obtain ⟨bytes, c', h2, h3, h4⟩ := hf hfit
    obtain ⟨v2, c2, w2, h5, h6⟩ := ih v' c' (drained id w') hv' hc' h4 (by simp only [drained, if_true]; rw [hp']) hrest
    refine ⟨v2, c2, w2, ?_, h6⟩
    simp only [csRounds, h1, h2, h3]
    exact h5

theorem hTy_mirrored : Mirrored hTy := by
  simp [hTy, hEnum, Mirrored, MirroredFields, MirroredVariants, GoodField]

/-- Not vacuous: C46 applied to the history of C24's example. -/
example (ρ : Bytes → Str) (μ : Nat → Mem) :
    ∃ v' w', calls hTy .debug hOps (hVal [] [] (hA 0)) hWorld = (.ok v', w') ∧
      (w'.loggers 4).entries.length = 7 ∧
      ∃ bytes c', (BufferLogger.mk (w'.loggers 4).entries).bytes .debug μ = .ok bytes ∧
        hTy.csReplay ρ hTy.csNew bytes = .ok c' ∧ Shows hTy v' c' ∧ c' = ([7#8], [], .inr (.inl ([], ())), ()) := by
  obtain ⟨v', w', h1, _, _, _, h2⟩ := C46_client_follows_partial hTy hTy_wf hTy_mirrored ρ .debug μ 4 hOps
    (hVal [] [] (hA 0)) hTy.csNew hWorld (hVal_at 4) ((carried_init hTy).1 ⟨4, []⟩)
    ⟨.nil, fun _ => .none, ⟨rfl, trivial⟩, trivial⟩ rfl (hOps_ok hWorld)
  have he : (w'.loggers 4).entries = ((calls hTy .debug hOps (hVal [] [] (hA 0)) hWorld).2.loggers 4).entries := by rw [h1]
  have hfit : ∀ e ∈ (w'.loggers 4).entries, CsFits e := by
    rw [he]
    unfold CsFits
    decide +kernel
  obtain ⟨bytes, c', h3, h4, h5⟩ := h2 hfit
  refine ⟨v', w', h1, by rw [he]; decide +kernel, bytes, c', h3, h4, h5, ?_⟩
  have hv : v' = hVal [7#8] [] (hB []) := by
    have : (calls hTy .debug hOps (hVal [] [] (hA 0)) hWorld).1 = .ok (hVal [7#8] [] (hB [])) := rfl
    rw [h1] at this
    cases this
    rfl
  subst hv
  obtain ⟨a, b, e, _⟩ := c'
  obtain ⟨ha, hb, hc, _⟩ := h5
  have ha' := eq_of_forall₂ ha
  have hb' : b = [] := by
    cases b with
    | nil => rfl
    | cons x b =>
      have := hb x.1
      obtain ⟨k, x⟩ := x
      simp [List.lookup] at this
      exact nomatch this
  rcases e with e | ⟨l, _⟩ | e
  · exact nomatch hc
  · have := eq_of_forall₂ hc.1
    change l = [] at this
    change a = [7#8] at ha'
    cases this
    cases ha'
    cases hb'
    rfl
  · exact nomatch e

/-! ## C46, where it ends -/

theorem csReplay_error (ρ : Bytes → Str) (t : Ty) (c : t.Cs) (bs : Bytes) (x : Exn) (hne : bs ≠ [])
    (h : t.csReplayStep ρ c bs = .error x) : t.csReplay ρ c bs = .error x := by
  unfold Ty.csReplay
  cases bs with
  | nil => exact absurd rfl hne
  | cons b bs => simp only [List.length_cons, untilEnd, h, Bind.bind, Except.bind]

theorem csReplayStep_throws (ρ : Bytes → Str) (t : Ty) (c : t.Cs) (e : Entry) (h : CsFits e) (x : Exn)
    (he : t.csReplayEntry ρ c e = .error x) (rest : Bytes) : t.csReplayStep ρ c (entryBytes e ++ rest) = .error x := by
  have hl := encode_entry_le e (by unfold CsFits at h; unfold Fits; omega)
  have hlen : (encode logEntryTy e.toEl).length < 2 ^ 31 := by unfold CsFits at h; omega
  obtain ⟨y, h1, h2⟩ := readable ρ logEntryTy logEntryTy_wf logEntryTy_mirrored e.toEl
    (carried_legible _ _ (carried_toEl e)) hlen
  have h2 := h2 [] (fun _ => rfl)
  rw [List.append_nil] at h2
  have hg : csGetNested (entryBytes e ++ rest) = .ok (encode logEntryTy e.toEl, rest) := csGetNested_framed _ rest hlen
  unfold Ty.csReplayStep
  simp only [hg, h2, Bind.bind, Except.bind, ofCs_shows e y h1, he]

/-- C46 fails when a key is removed that is not there (as C24 does, by C35): the call changes nothing on the source, but an
entry is logged, and the client throws a `KeyNotFoundException` on it, so that what follows is not replayed. -/
theorem C46_absent_key (kt : KeyTy) (t : Ty) (ρ : Bytes → Str) (m : Mode) (μ : Nat → Mem) (v : (Ty.map kt t).El)
    (c : (Ty.map kt t).Cs) (hs : Shows (.map kt t) v c) (k : U32) (hk : mapGet v k = none) (id : Nat) (hv : v.rt = ⟨id, []⟩)
    (w : World) (hw : w.loggers id = ⟨0, []⟩) (later : List Entry) (hf : ∀ e ∈ later, Fits e) :
    ∃ w' bytes, (Ty.map kt t).run m (.remove k) v w = (.ok v, w') ∧
      (BufferLogger.mk ((w'.loggers id).entries ++ later)).bytes m μ = .ok bytes ∧
      (Ty.map kt t).csReplay ρ c bytes = .error .keyNotFound := by
  obtain ⟨w', h1, h2⟩ := C35_absent_remove_logs v k hk w
  have hlog : (w'.loggers id).entries = [.mapRemove [] k] := by
    rw [hv, hw] at h2
    rw [h2]
    rfl
  refine ⟨w', (Entry.mapRemove [] k :: later).flatMap entryBytes, Exec.map_of (f := Prod.snd) h1, ?_, ?_⟩
  · rw [hlog]
    refine bytes_eq m μ _ ?_
    intro e he
    rcases List.mem_cons.1 he with rfl | he
    · show 5 * 0 + 0 + 64 < 2 ^ 32
      decide
    · exact hf e he
  · have hn : c.lookup k = none := by
      have hg := hs k
      rw [lookup_entriesGet, show entriesGet k v.entries = none from hk] at hg
      cases h : c.lookup k with
      | none => rfl
      | some y => rw [h] at hg; cases hg
    refine csReplay_error ρ _ c _ _ ?_ (csReplayStep_throws ρ _ c (.mapRemove [] k) ?_ .keyNotFound ?_ (later.flatMap entryBytes))
    · exact fun h => entryBytes_ne (.mapRemove [] k) (List.append_eq_nil_iff.1 h).1
    · show 5 * 0 + 0 + 64 < 2 ^ 31
      decide
    · show (if (c.lookup k).isNone = true then Except.error Exn.keyNotFound else _) = _
      rw [hn]
      rfl

/-- Not vacuous: an empty map and its C# counterpart. -/
example : Shows (.map .u8 .bool) (⟨⟨3, []⟩, []⟩ : (Ty.map .u8 .bool).El) [] ∧
    mapGet (⟨⟨3, []⟩, []⟩ : MapV Bool) 7#32 = none := ⟨fun _ => .none, rfl⟩

/-- C46, logs written by newer programs: on an entry of a kind the client does not know, the client throws its whole state away:
the root becomes a new, empty object. (An unknown variant is read as the default one, C45, which is `Update`, with an empty path
and an empty value.) Rust reports an error and leaves the state alone. -/
theorem C46_unknown_entry_resets_root (cached : Bool) (fs : Fields) (ρ : Bytes → Str) (m : Mode)
    (r : (Ty.struct true cached fs).El) (hroot : r.rt.path = []) (c : (Ty.struct true cached fs).Cs) (tag : U32)
    (htag : tag ≠ 0#32 ∧ tag ≠ 8#32 ∧ tag ≠ 9#32 ∧ tag ≠ 12#32) (content : Bytes)
    (hl : (leb tag.toNat ++ content).length < 2 ^ 31) :
    (Ty.struct true cached fs).csReplay ρ c (framed 2 (leb tag.toNat ++ content)) = .ok fs.csNew ∧
      replay (Ty.struct true cached fs).dict m r (framed 2 (leb tag.toNat ++ content)) = .err r .invalidData := by
  obtain ⟨h1, h2⟩ := C45_unknown_variant false true
    (.cons 0#32 {} (.vec (.uint .w32)) (.cons 1#32 {} .bytes .nil))
    (.cons 8#32 true (.cons 0#32 {} (.vec (.uint .w32)) (.cons 1#32 {} .bytes .nil))
    (.cons 9#32 true (.cons 0#32 {} (.vec (.uint .w32)) .nil)
    (.cons 12#32 true (.cons 0#32 {} (.vec (.uint .w32)) (.cons 1#32 {} (.uint .w32) .nil)) .nil))) ρ m tag htag.1
    (by simp [Variants.tags, htag.2]) content
  constructor
  · refine Eats.done (Eats.one (framed_ne_nil (fun h => by cases h)) (fun rest => ?_))
    have hg : csGetNested (framed 2 (leb tag.toNat ++ content) ++ rest) = .ok (leb tag.toNat ++ content, rest) :=
      csGetNested_framed _ rest hl
    have h1' : logEntryTy.csDeserialize ρ (leb tag.toNat ++ content) =
        .ok (.inl (Fields.csNew (.cons 0#32 {} (.vec (.uint .w32)) (.cons 1#32 {} .bytes .nil))), []) := h1
    unfold Ty.csReplayStep
    simp only [hg, h1', Bind.bind, Except.bind]
    rfl
  · have hr : (Ty.struct true cached fs).dict.isRoot r = .ok true := by
      show (Except.ok r.rt.isRoot : Except Err Bool) = _
      simp [Rt.isRoot, hroot]
    have hc := chunkLoop_eq (Ty.struct true cached fs).dict m [leb tag.toNat ++ content] r _
      (fun p hp => by rw [List.mem_singleton] at hp; subst hp; omega) (Nat.le_refl _)
    have hch : chunks [leb tag.toNat ++ content] = framed 2 (leb tag.toNat ++ content) := by
      simp [chunks]
    rw [hch] at hc
    unfold replay
    rw [hr]
    simp only [hc]
    have hp : parseEntry m (leb tag.toNat ++ content) = .error .invalidData := by
      have h2' : logEntryTy.dict.deserialize m (leb tag.toNat ++ content) = .error .invalidData := h2
      unfold Dict.deserialize at h2'
      unfold parseEntry
      cases hm : logEntryTy.dict.merge m logEntryTy.dict.dflt (leb tag.toNat ++ content) with
      | ok v rest => rw [hm] at h2'; cases h2'
      | err v e => rw [hm] at h2'; cases h2'; rfl
    simp only [applyChunks, hp, outcome]

/-- Not vacuous: an entry of kind 16. -/
example : (Ty.struct true false (.cons 0#32 {} .bool .nil)).csReplay (fun _ => ⟨[], rfl⟩) (true, ()) [2#8, 16#8, 0#8] =
    .ok (false, ()) := rfl

theorem handleField_unknown (b : Bool) (tag : U32) (m : Mode) (path : List U32) (kind : LogKind) (key : Option U32) (bs : Bytes) :
    (fs : Fields) → (v : fs.El) → tag ∉ fs.tags → (fs.dict b).handleField m tag v path kind key bs = none
  | .nil, _, _ => rfl
  | .cons tag' attrs t fs, v, h => by
    simp only [Fields.tags, List.mem_cons, not_or] at h
    have ih := handleField_unknown b tag m path kind key bs fs v.2 h.2
    simp only [Fields.dict, fieldsCons, if_neg h.1, ih, Option.map_none, ite_self]

theorem csBelow_unknown (ρ : Bytes → Str) (tag : U32) (act : CsAct) (path : List U32) :
    (fs : Fields) → (c : fs.Cs) → tag ∉ fs.tags → fs.csBelow ρ act tag path c = .ok c
  | .nil, _, _ => rfl
  | .cons tag' attrs t fs, c, h => by
    simp only [Fields.tags, List.mem_cons, not_or] at h
    have ih := csBelow_unknown ρ tag act path fs c.2 h.2
    simp only [Fields.csBelow, if_neg h.1, ih, Bind.bind, Except.bind]

/-- C46, sources with newer declarations: the client ignores what happens inside fields it does not have. Rust replicas report an
error. -/
theorem C46_unknown_field_ignored (cached : Bool) (fs : Fields) (ρ : Bytes → Str) (m : Mode)
    (r : (Ty.struct true cached fs).El) (hroot : r.rt.path = []) (c : (Ty.struct true cached fs).Cs) (e : Entry) (tag : U32)
    (path : List U32) (he : address e = tag :: path) (htag : tag ∉ fs.tags) (hf : CsFits e) :
    (Ty.struct true cached fs).csReplay ρ c (entryBytes e) = .ok c ∧
      replay (Ty.struct true cached fs).dict m r (entryBytes e) = .err r .invalidData := by
  constructor
  · refine Eats.done (Eats.one (entryBytes_ne e) (csReplayStep_entry ρ _ c c e hf ?_))
    have hb : ∀ act path, (Ty.struct true cached fs).csBelow ρ act tag path c = .ok c := by
      intro act path
      simp only [Ty.csBelow]
      exact csBelow_unknown ρ tag act path fs c htag
    have hin : Inner e := by
      intro val h
      subst h
      cases he
    rw [csReplayEntry_inner ρ hin]
    cases e with
    | update p value =>
      cases he
      cases path with
      | nil =>
        show Ty.csPerform ρ (.struct true cached fs) (.update tag value) c = _
        simp only [Ty.csPerform, Fields.csPerform, csGetWireType_none fs tag htag]
      | cons j path =>
        simp only [csEntry]
        cases hl : (tag :: j :: path).getLast? with
        | none => simp at hl
        | some last => exact hb _ _
    | listPush p item => cases he; exact hb _ _
    | listPop p => cases he; exact hb _ _
    | mapRemove p key => cases he; exact hb _ _
  · have hr : (Ty.struct true cached fs).dict.isRoot r = .ok true := by
      show (Except.ok r.rt.isRoot : Except Err Bool) = _
      simp [Rt.isRoot, hroot]
    have := replay_eq (Ty.struct true cached fs).dict m r [e] (fun x hx => by
      rw [List.mem_singleton] at hx; subst hx; unfold CsFits at hf; unfold Fits; omega) hr
    simp only [List.flatMap_cons, List.flatMap_nil, List.append_nil] at this
    rw [this]
    have hh : ∀ kind key bs, (Ty.struct true cached fs).dict.handle m r (tag :: path) kind key bs = .err r .invalidData := by
      intro kind key bs
      show structHandle (fs.dict true) m r (tag :: path) kind key bs = _
      simp only [structHandle, handleField_unknown true tag m path kind key bs fs r.fields htag]
    have ha : applyEntry (Ty.struct true cached fs).dict m r e = .err r .invalidData := by
      cases e <;> cases he <;> exact hh _ _ _
    simp only [applyAll, ha, outcome]

/-- Not vacuous: a push to a list in field 5. -/
example : address (.listPush [5#32] [1#8]) = 5#32 :: [] ∧ 5#32 ∉ (Fields.cons 0#32 {} .bool .nil).tags ∧
    CsFits (.listPush [5#32] [1#8]) := by
  unfold CsFits
  decide

theorem csVariant_known (ρ : Bytes → Str) (variant : U32) (bs : Bytes) : ∀ (vs : Variants) {r : Option vs.Cs}, variant ∈ vs.tags →
    vs.csVariant ρ variant bs = .ok r → r ≠ none
  | .nil, _, h, _ => (nomatch h)
  | .cons tag _ fs vs, r, h, hr => by
    simp only [Variants.csVariant] at hr
    split at hr
    · cases hu : untilEnd (csReplaceStep fs.csGetWireType (fun tag wire bs v => fs.csReplaceAt ρ tag wire bs v)) bs.length fs.csNew bs with
      | error e => rw [hu] at hr; cases hr
      | ok v => rw [hu] at hr; cases hr; exact fun h => (nomatch h)
    · rename_i hne
      have hm : variant ∈ vs.tags := by
        simp only [Variants.tags, List.mem_cons] at h
        exact h.resolve_left hne
      cases hu : vs.csVariant ρ variant bs with
      | error e => rw [hu] at hr; cases hr
      | ok v =>
        rw [hu] at hr
        cases hr
        have := csVariant_known ρ variant bs vs hm hu
        cases v with
        | none => exact absurd rfl this
        | some x => exact fun h => (nomatch h)

/-- C46, entries Rust never writes: on an update addressed to a variant of an enum, the client switches to that variant, just as if the
whole enum were replaced; if it does not have the variant it ignores the entry. -/
theorem C46_variant_entry (ds cached : Bool) (fs : Fields) (vs : Variants) (ρ : Bytes → Str) (v : (Ty.enum ds cached fs vs).Cs) (tag : U32)
    (value : Bytes) :
    (tag = 0#32 ∨ tag ∈ vs.tags → (Ty.enum ds cached fs vs).csReplayEntry ρ v (.update [tag] value) =
      (Ty.enum ds cached fs vs).csReplayEntry ρ v (.update [] (leb tag.toNat ++ value))) ∧
    (tag ≠ 0#32 → tag ∉ vs.tags → (Ty.enum ds cached fs vs).csReplayEntry ρ v (.update [tag] value) = .ok v) := by
  have hn : BitVec.ofNat 32 tag.toNat = tag := by rw [BitVec.ofNat_toNat, BitVec.setWidth_eq]
  have e1 : (Ty.enum ds cached fs vs).csReplayEntry ρ v (.update [tag] value) =
      (Ty.enum ds cached fs vs).csPerform ρ (.update tag value) v := rfl
  rw [e1]
  constructor
  · intro ht
    have e2 : (Ty.enum ds cached fs vs).csReplayEntry ρ v (.update [] (leb tag.toNat ++ value)) = (do
        let (v, _) ← (Ty.enum ds cached fs vs).csDeserialize ρ (leb tag.toNat ++ value)
        .ok v) := rfl
    rw [e2]
    simp only [Ty.csPerform, Ty.csDeserialize]
    rw [csReadUInt32_leb _ _ tag.isLt, hn]
    simp only [Bind.bind, Except.bind]
    by_cases h0 : tag = 0#32
    · rw [if_pos h0, if_pos h0]
      cases untilEnd (csReplaceStep fs.csGetWireType (fun tag wire bs v => fs.csReplaceAt ρ tag wire bs v)) value.length fs.csNew value <;> rfl
    · rw [if_neg h0, if_neg h0]
      cases hu : vs.csVariant ρ tag value with
      | error e => rfl
      | ok r =>
        have := csVariant_known ρ tag value vs (ht.resolve_left h0) hu
        cases r with
        | none => exact absurd rfl this
        | some x => rfl
  · intro h0 ht
    simp only [Ty.csPerform, if_neg h0, csVariant_unknown ρ vs tag ht, Bind.bind, Except.bind]

/-- Not vacuous: variant 3 of an enum with that variant, and of one without. -/
example : 3#32 ∈ (Variants.cons 3#32 true (.cons 0#32 {} .bool .nil) .nil).tags ∧
    3#32 ∉ (Variants.cons 2#32 true .nil .nil).tags := by decide

end Steit
