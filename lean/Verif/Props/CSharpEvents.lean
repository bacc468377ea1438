import Verif.Lemmas.CSharpSpoken
import Verif.Lemmas.CSharpShort
import Verif.Props.CSharpReplay

/-!
# Paths and events of the C# client: property C58

`t.csReplayObj` (`Verif/Model/CSharpEvents.lean`) is `StateReplayer.Replay` on objects with their `Path`, with the events raised. What
paths and events should say is in `Verif/Spec/Events.lean`.
-/

namespace Steit
open Spec Prog

/-! ## An example -/

theorem staysRoomy_nil {ρ : Bytes → Str} {t : Ty} {o : t.CsObj} (h : Roomy t.held o) : StaysRoomy ρ t o [] := by
  intro n o' hn
  rw [List.take_nil] at hn
  cases hn
  exact h

theorem staysRoomy_cons {ρ : Bytes → Str} {t : Ty} {o o' : t.CsObj} {e : Entry} {es : List Entry} {events : List CsEvent}
    (h : Roomy t.held o) (he : t.csReplayEntryObj ρ o e = .ok (o', events)) (h' : StaysRoomy ρ t o' es) : StaysRoomy ρ t o (e :: es) := by
  intro n o'' hn
  cases n with
  | zero => cases hn; exact h
  | succ n =>
    refine h' n o'' ?_
    simp only [List.take_succ_cons, List.foldlM_cons, he, Except.map, Bind.bind, Except.bind] at hn
    exact hn

/-- A client for the type of C24's example, in its second variant. -/
def hClient (a : List (BitVec 8)) (b : List (U32 × List (BitVec 8))) (c : List (BitVec 8)) : hTy.CsObj :=
  hTy.place [] (a, b, .inr (.inl (c, ())), ())

/-- The same, in its first variant. -/
def hClient₀ (a : List (BitVec 8)) (b : List (U32 × List (BitVec 8))) : hTy.CsObj := hTy.place [] (a, b, .inl (0#32, ()), ())

theorem hClient_roomy (a : List (BitVec 8)) (b : List (U32 × List (BitVec 8))) (c : List (BitVec 8)) (ha : a.length < 9)
    (hb : ∀ e ∈ b, e.2.length < 9) (hc : c.length < 9) : Roomy hTy.held (hClient a b c) ∧ Roomy hTy.held (hClient₀ a b) := by
  have short : ∀ (p : List U32) (l : List (BitVec 8)), l.length < 9 → (Ty.list (.uint .w8)).Short ((Ty.list (.uint .w8)).place p l) := by
    intro p l hl
    refine ⟨?_, fun x _ => trivial⟩
    have : (l.mapIdx fun i x => (Ty.uint .w8).place (p ++ [BitVec.ofNat 32 i]) x).length = l.length := List.length_mapIdx
    exact lt_of_eq_of_lt this (by omega)
  have shorts : (Ty.map .u8 (.list (.uint .w8))).Short ((Ty.map .u8 (.list (.uint .w8))).place [1#32] b) := by
    intro e he
    obtain ⟨x, hx, rfl⟩ := List.mem_map.1 he
    exact short _ _ (hb x hx)
  exact ⟨short_roomy ⟨short _ _ ha, shorts, ⟨short _ _ hc, trivial⟩, trivial⟩, short_roomy ⟨short _ _ ha, shorts, ⟨trivial, trivial⟩, trivial⟩⟩

/-- The log of C24's example. -/
def hLog : List Entry :=
  [.listPush [0#32] [7#8], .update [1#32, 3#32] [5#8], .listPush [1#32, 3#32] [9#8], .update [2#32] [1#8],
    .update [2#32, 1#32, 5#32] [1#8], .listPop [2#32, 1#32, 5#32], .mapRemove [1#32] 3#32]

theorem hLog_roomy (ρ : Bytes → Str) : StaysRoomy ρ hTy (hClient₀ [] []) hLog := by
  refine staysRoomy_cons (hClient_roomy _ _ [] (by decide) (by decide) (by decide)).2 (o' := hClient₀ [7#8] []) rfl ?_
  refine staysRoomy_cons (hClient_roomy _ _ [] (by decide) (by decide) (by decide)).2 (o' := hClient₀ [7#8] [(3#32, [5#8])]) rfl ?_
  refine staysRoomy_cons (hClient_roomy _ _ [] (by decide) (by decide) (by decide)).2 (o' := hClient₀ [7#8] [(3#32, [5#8, 9#8])]) rfl ?_
  refine staysRoomy_cons (hClient_roomy _ _ [] (by decide) (by decide) (by decide)).2 (o' := hClient [7#8] [(3#32, [5#8, 9#8])] []) rfl ?_
  refine staysRoomy_cons (hClient_roomy _ _ _ (by decide) (by decide) (by decide)).1 (o' := hClient [7#8] [(3#32, [5#8, 9#8])] [1#8]) rfl ?_
  refine staysRoomy_cons (hClient_roomy _ _ _ (by decide) (by decide) (by decide)).1 (o' := hClient [7#8] [(3#32, [5#8, 9#8])] []) rfl ?_
  refine staysRoomy_cons (hClient_roomy _ _ _ (by decide) (by decide) (by decide)).1 (o' := hClient [7#8] [] []) rfl ?_
  exact staysRoomy_nil (hClient_roomy _ _ _ (by decide) (by decide) (by decide)).1

theorem hLog_eq {v' : hTy.El} {w' : World} (h : calls hTy .debug hOps (hVal [] [] (hA 0)) hWorld = (.ok v', w')) : (w'.loggers 4).entries = hLog := by
  have : ((calls hTy .debug hOps (hVal [] [] (hA 0)) hWorld).2.loggers 4).entries = hLog := by decide +kernel
  rwa [h] at this

/-- The same as bytes. -/
def hBytes : Bytes :=
  [7#8, 8#8, 2#8, 1#8, 0#8, 10#8, 1#8, 7#8, 8#8, 0#8, 2#8, 2#8, 1#8, 3#8, 10#8, 1#8, 5#8, 8#8, 8#8, 2#8, 2#8, 1#8, 3#8,
    10#8, 1#8, 9#8, 7#8, 0#8, 2#8, 1#8, 2#8, 10#8, 1#8, 1#8, 9#8, 0#8, 2#8, 3#8, 2#8, 1#8, 5#8, 10#8, 1#8, 1#8, 6#8, 9#8,
    2#8, 3#8, 2#8, 1#8, 5#8, 6#8, 12#8, 2#8, 1#8, 1#8, 8#8, 3#8]

theorem hBytes_eq (μ : Nat → Mem) : (BufferLogger.mk hLog).bytes .debug μ = .ok hBytes := by
  rw [bytes_eq .debug μ ⟨hLog⟩ (by unfold Fits; decide +kernel)]
  decide +kernel

/-! ## Paths -/

theorem reached_placed {ρ : Bytes → Str} {t : Ty} {root : List U32} {o : t.CsObj} (h : Reached ρ t root o) : ∃ c, o = t.place root c := by
  induction h with
  | constructed => exact ⟨_, csConstruct_place t root⟩
  | @deserialized bs rest o events h =>
    rw [csDeserializeAt_place] at h
    cases hd : t.csDeserialize ρ bs with
    | error e => rw [hd] at h; cases h
    | ok r => rw [hd] at h; cases h; exact ⟨r.1, rfl⟩
  | @replayed bs o o' events _ h ih =>
    obtain ⟨c, rfl⟩ := ih
    have hd := replay_data ρ t root c bs
    rw [h] at hd
    cases hc : t.csReplay ρ c bs with
    | error e => rw [hc] at hd; cases hd
    | ok c' => rw [hc] at hd; cases hd; exact ⟨c', rfl⟩

/-- C58, paths: a root is constructed or deserialized with a path and then logs are replayed on it, any number of times and whatever
the bytes are. At any time, every object in it, at any depth, tells where it is: its `Path` is the path of the root followed by the
tags leading to it. -/
theorem C58_paths (ρ : Bytes → Str) (t : Ty) (root : List U32) (o : t.CsObj) (h : Reached ρ t root o) : Situated t root o := by
  obtain ⟨c, rfl⟩ := reached_placed h
  exact place_situated t root c

/-- Not vacuous: the list inserted in the map of that example is at path 1, 3. -/
example (ρ : Bytes → Str) : Reached ρ hTy [] (hClient₀ [7#8] [(3#32, [5#8])]) ∧
    (hTy.held [1#32, 3#32] (hClient₀ [7#8] [(3#32, [5#8])])).bind Held.path = some [1#32, 3#32] :=
  ⟨.replayed .constructed (bs := hBytes.take 17) rfl, rfl⟩

/-- C58: deserialization raises no event, and reads the same data as the client without paths and events. -/
theorem C58_deserialize_quiet (ρ : Bytes → Str) (t : Ty) (root : List U32) (bs rest : Bytes) (o : t.CsObj) (events : List CsEvent)
    (h : t.csDeserializeAt ρ root bs = .ok ((o, events), rest)) :
    events = [] ∧ ∃ c, t.csDeserialize ρ bs = .ok (c, rest) ∧ o = t.place root c := by
  rw [csDeserializeAt_place] at h
  cases hd : t.csDeserialize ρ bs with
  | error e => rw [hd] at h; cases h
  | ok r => rw [hd] at h; cases h; exact ⟨rfl, r.1, rfl, rfl⟩

/-- Not vacuous: a deserialized root, with an inner list at path 0. -/
example (ρ : Bytes → Str) : hTy.csDeserializeAt ρ [] [2#8, 1#8, 7#8] = .ok ((hClient₀ [7#8] [], []), []) := rfl

/-! ## Events -/

theorem answers_of {root tags : List U32} {event : CsEvent} (hc : event.container = root ++ tags) :
    (∀ path value tag, path.getLast? = some tag → path.dropLast = tags → Fit (.update tag value) event →
      Answers root (.update path value) event) ∧
    (∀ item, Fit (.push item) event → Answers root (.listPush tags item) event) ∧
    (Fit .pop event → Answers root (.listPop tags) event) ∧
    (∀ key, Fit (.remove key) event → Answers root (.mapRemove tags key) event) := by
  refine ⟨fun path value tag hl hd hf => ?_, fun item hf => ?_, fun hf => ?_, fun key hf => ?_⟩
  · have hp : path = tags ++ [tag] := by
      rw [← hd]
      exact (List.dropLast_append_getLast? tag hl).symm
    subst hp
    cases event <;> first | exact hf.elim | (simp only [Fit] at hf; subst hf; simp only [CsEvent.container] at hc; simp [Answers, hc])
  · cases event <;> first | exact hf.elim | exact hc
  · cases event <;> first | exact hf.elim | exact hc
  · cases event <;> first | exact hf.elim | exact ⟨hc, hf⟩

theorem entry_heard (ρ : Bytes → Str) (t : Ty) (root : List U32) (o : t.CsObj) (hp : Situated t root o) (hr : Roomy t.held o) (e : Entry)
    (he : ∀ value, e ≠ .update [] value) (o' : t.CsObj) (events : List CsEvent)
    (h : t.csReplayEntryObj ρ o e = .ok (o', events)) :
    (events = [] ∧ o' = o) ∨
      ∃ event tags, events = [event] ∧ Answers root e event ∧ Announces t.held tags o event o' := by
  have at_ : ∀ act tags, t.csAtObj ρ act tags o = .ok (o', events) → (events = [] ∧ o' = o) ∨
      ∃ event, events = [event] ∧ Fit act event ∧ event.container = root ++ tags ∧ Announces t.held tags o event o' := by
    intro act tags h
    rcases heardAll ρ t act tags o _ (fun t x hx => hr tags t x hx) h with h | ⟨event, h1, h2, h3⟩
    · exact .inl h
    · obtain ⟨x, hx, hx'⟩ := h3.container
      exact .inr ⟨event, h1, h2, hp tags x _ hx hx', h3⟩
  cases e with
  | update path value =>
    simp only [Ty.csReplayEntryObj] at h
    cases hl : path.getLast? with
    | none =>
      rw [List.getLast?_eq_none_iff] at hl
      subst hl
      exact absurd rfl (he value)
    | some tag =>
      rw [hl] at h
      refine (at_ _ _ h).imp_right fun ⟨event, h1, h2, h3, h4⟩ => ⟨event, _, h1, ?_, h4⟩
      exact (answers_of h3).1 path value tag hl rfl h2
  | listPush path item =>
    refine (at_ _ _ h).imp_right fun ⟨event, h1, h2, h3, h4⟩ => ⟨event, _, h1, ?_, h4⟩
    exact (answers_of h3).2.1 item h2
  | listPop path =>
    refine (at_ _ _ h).imp_right fun ⟨event, h1, h2, h3, h4⟩ => ⟨event, _, h1, ?_, h4⟩
    exact (answers_of h3).2.2.1 h2
  | mapRemove path key =>
    refine (at_ _ _ h).imp_right fun ⟨event, h1, h2, h3, h4⟩ => ⟨event, _, h1, ?_, h4⟩
    exact (answers_of h3).2.2.2 key h2

/-- C58, events: replaying an entry, whatever its path and its bytes are, which does not replace the root. If an event is raised, it is
the only one, it is of the kind the entry calls for, comes from the container the entry addresses, and tells what is held there
before and after; nothing else in the whole object changes. If none is raised nothing changes at all. -/
theorem C58_changes_announced (ρ : Bytes → Str) (t : Ty) (root : List U32) (o : t.CsObj) (hp : Reached ρ t root o)
    (hr : Roomy t.held o) (e : Entry) (he : ∀ value, e ≠ .update [] value) (o' : t.CsObj) (events : List CsEvent)
    (h : t.csReplayEntryObj ρ o e = .ok (o', events)) :
    (events = [] ∧ o' = o) ∨
      ∃ event tags, events = [event] ∧ Answers root e event ∧ Announces t.held tags o event o' :=
  entry_heard ρ t root o (C58_paths ρ t root o hp) hr e he o' events h

/-- Not vacuous: a push to that list, which is announced. -/
example (ρ : Bytes → Str) : Reached ρ hTy [] (hClient₀ [7#8] [(3#32, [5#8])]) ∧ Roomy hTy.held (hClient₀ [7#8] [(3#32, [5#8])]) ∧
    hTy.csReplayEntryObj ρ (hClient₀ [7#8] [(3#32, [5#8])]) (.listPush [1#32, 3#32] [9#8]) =
      .ok (hClient₀ [7#8] [(3#32, [5#8, 9#8])], [.listPush [1#32, 3#32] 1#32 (.uint .w8) (9#8 : BitVec 8)]) :=
  ⟨.replayed .constructed (bs := hBytes.take 17) rfl,
    (hClient_roomy _ _ [] (by decide) (by decide) (by decide)).2, rfl⟩

/-- For one entry: a client showing `v`, and an entry saying how `v` becomes `v'`, logged by Rust inside the root. It is
replayed, the client shows `v'`, and exactly one event announces the change. -/
theorem entry_narrated (ρ : Bytes → Str) (t : Ty) (ht : t.WF) (hm : Mirrored t) (root : List U32) {v v' : t.El} {e : Entry} {c : t.Cs}
    (h : Inside t v e v') (hs : Shows t v c) (hl : (payload e).length < 2 ^ 31) (hr : Roomy t.held (t.place root c)) :
    ∃ c' event tags, t.csReplayEntry ρ c e = .ok c' ∧ t.csReplayEntryObj ρ (t.place root c) e = .ok (t.place root c', [event]) ∧
      Shows t v' c' ∧ Plain event ∧ Answers root e event ∧ Announces t.held tags (t.place root c) event (t.place root c') := by
  obtain ⟨c', h1, h2⟩ := csFollows ρ t ht hm (.inr h) hs hl
  have hd := entry_data ρ t root c e
  rw [h1] at hd
  cases ho : t.csReplayEntryObj ρ (t.place root c) e with
  | error x => rw [ho] at hd; cases hd
  | ok r =>
    obtain ⟨o', events⟩ := r
    rw [ho] at hd
    have ho' : o' = t.place root c' := by simpa [Except.map] using hd
    subst ho'
    have hin := (inner_inside t h).1
    have loud : ∃ event ∈ events, Plain event := by
      have := speaks ρ t ht v e v' c root h hs
      rw [← csReplayEntryObj_inner ρ hin] at this
      exact this _ ho
    rcases entry_heard ρ t root _ (place_situated t root c) hr e hin _ _ ho with ⟨rfl, _⟩ | ⟨event, tags, rfl, h4, h5⟩
    · obtain ⟨_, h, _⟩ := loud
      exact nomatch h
    · obtain ⟨_, h, hplain⟩ := loud
      rw [List.mem_singleton] at h
      subst h
      exact ⟨c', _, tags, h1, rfl, h2, hplain, h4, h5⟩

theorem step_of_entry (ρ : Bytes → Str) (t : Ty) (o o' : t.CsObj) (events more : List CsEvent) (e : Entry) (h : CsFits e)
    (he : t.csReplayEntryObj ρ o e = .ok (o', more)) (rest : Bytes) :
    t.csReplayStepObj ρ (o, events) (entryBytes e ++ rest) = .ok ((o', events ++ more), rest) := by
  have hl := encode_entry_le e (by unfold CsFits at h; unfold Fits; omega)
  have hlen : (encode logEntryTy e.toEl).length < 2 ^ 31 := by unfold CsFits at h; omega
  obtain ⟨x, h1, h2⟩ := readable ρ logEntryTy logEntryTy_wf logEntryTy_mirrored e.toEl
    (carried_legible _ _ (carried_toEl e)) hlen
  have h2 := h2 [] (fun _ => rfl)
  rw [List.append_nil] at h2
  have hg : csGetNested (entryBytes e ++ rest) = .ok (encode logEntryTy e.toEl, rest) := csGetNested_framed _ rest hlen
  unfold Ty.csReplayStepObj
  simp only [hg, h2, Bind.bind, Except.bind, ofCs_shows e x h1, he]

theorem staysRoomy_tail {ρ : Bytes → Str} {t : Ty} {o o' : t.CsObj} {e : Entry} {es : List Entry} {events : List CsEvent}
    (h : StaysRoomy ρ t o (e :: es)) (he : t.csReplayEntryObj ρ o e = .ok (o', events)) : StaysRoomy ρ t o' es := by
  intro n o'' hn
  refine h (n + 1) o'' ?_
  simp only [List.take_succ_cons, List.foldlM_cons, he, Except.map, Bind.bind, Except.bind]
  exact hn

theorem steps_narrated (ρ : Bytes → Str) (t : Ty) (ht : t.WF) (hm : Mirrored t) (root : List U32) {es : List Entry} :
    ∀ {v v' : t.El} {c : t.Cs} (before : List CsEvent), Steps (Means t) v es v' → Shows t v c → (∀ e ∈ es, CsFits e) →
      StaysRoomy ρ t (t.place root c) es →
      ∃ c' events, Eats (t.csReplayStepObj ρ) (t.place root c, before) (es.flatMap entryBytes) (t.place root c', before ++ events) ∧
        Shows t v' c' ∧ Narrated t root (t.place root c) es events (t.place root c') ∧ ∀ event ∈ events, Plain event := by
  induction es with
  | nil =>
    intro v v' c before h hs _ _
    cases h
    refine ⟨c, [], ?_, hs, .nil _, fun _ h => nomatch h⟩
    rw [List.append_nil]
    exact .refl _
  | cons e es ih =>
    intro v v' c before h hs hf hr
    obtain ⟨u, h1, h2⟩ := h
    have hfe := hf e List.mem_cons_self
    have hlen : (payload e).length < 2 ^ 31 := by unfold CsFits at hfe; omega
    have hf' := fun e he => hf e (List.mem_cons_of_mem _ he)
    rcases h1 with ⟨rfl, hx⟩ | h1
    · obtain ⟨c1, h3, h4⟩ := csFollows ρ t ht hm (.inl ⟨rfl, hx⟩ : Means t v (.update [] (encode t u)) u) hs hlen
      have hd : t.csReplayEntryObj ρ (t.place root c) (.update [] (encode t u)) = .ok (t.place root c1, []) := by
        simp only [Ty.csReplayEntry, List.getLast?_nil] at h3
        simp only [Ty.csReplayEntryObj, List.getLast?_nil, csDeserializeAt_place]
        cases hd : t.csDeserialize ρ (encode t u) with
        | error x => rw [hd] at h3; cases h3
        | ok r =>
          rw [hd] at h3
          cases h3
          simp only [quiet, Bind.bind, Except.bind, place_csPath]
      obtain ⟨c', events, h5, h6, h7, h8⟩ := ih before h2 h4 hf' (staysRoomy_tail hr hd)
      refine ⟨c', events, ?_, h6, .root h7, h8⟩
      refine (Eats.one (entryBytes_ne _) (fun rest => ?_)).trans h5
      have := step_of_entry ρ t _ _ before [] _ hfe hd rest
      rwa [List.append_nil] at this
    · obtain ⟨c1, event, tags, h3, hd, h4, hplain, h8, h9⟩ := entry_narrated ρ t ht hm root h1 hs hlen (hr 0 _ rfl)
      obtain ⟨c', events, h5, h6, h7, h10⟩ := ih (before ++ [event]) h2 h4 hf' (staysRoomy_tail hr hd)
      refine ⟨c', event :: events, ?_, h6, .inner h8 h9 h7, fun x hx => ?_⟩
      rotate_left
      · rcases List.mem_cons.1 hx with rfl | hx
        · exact hplain
        · exact h10 x hx
      have := (Eats.one (entryBytes_ne e) (step_of_entry ρ t _ _ before [event] e hfe hd)).trans h5
      simpa using this

/-- The log of a history of calls, replayed. -/
theorem history_narrated (t : Ty) (ht : t.WF) (hm : Mirrored t) (ρ : Bytes → Str) (root : List U32) (m : Mode) (μ : Nat → Mem)
    (id : Nat) (ops : List t.Op) (v : t.El) (c : t.Cs) (w : World) (hv : At t ⟨id, []⟩ v) (hc : Carried t v) (hs : Shows t v c)
    (hw : w.loggers id = ⟨0, []⟩) (hops : CallsSync t m ops v w) :
    ∃ v' w', calls t m ops v w = (.ok v', w') ∧
      ((∀ e ∈ (w'.loggers id).entries, CsFits e) → StaysRoomy ρ t (t.place root c) (w'.loggers id).entries →
        ∃ bytes c' events, (BufferLogger.mk (w'.loggers id).entries).bytes m μ = .ok bytes ∧
          t.csReplayObj ρ (t.place root c) bytes = .ok (t.place root c', events) ∧ Shows t v' c' ∧
          Narrated t root (t.place root c) (w'.loggers id).entries events (t.place root c') ∧ ∀ event ∈ events, Plain event) := by
  obtain ⟨v', w', es, h1, hv', hc', hl, hsteps⟩ := calls_tell t ht m ops v ⟨id, []⟩ w hv hc hops
  have hlog : w'.loggers id = ⟨0, es⟩ := by
    have := hl
    unfold Logged at this
    rw [map_under_nil, hw] at this
    simpa [appended] using this
  refine ⟨v', w', h1, fun hfit hroom => ?_⟩
  rw [hlog] at hfit hroom ⊢
  obtain ⟨c', events, h2, h3, h4, h5⟩ := steps_narrated ρ t ht hm root [] hsteps hs hfit hroom
  exact ⟨_, c', events, bytes_eq m μ ⟨es⟩ (fun e he => by have := hfit e he; unfold CsFits at this; unfold Fits; omega), h2.done, h3, h4, h5⟩

/-- C58 as stated: a Rust source at a root, and a C# client showing its data. The source makes any number of API calls of any kind, at
any depth. Replaying the bytes of the source's log on the client raises one event for each entry, in order, each telling exactly what
changes; in the end the client shows the source's data and every object in it has the right `Path`. Missing, compared with the claim:
entries replacing the root raise no event (`C58_root_silent`); calls, types and sizes excluded in C46; lists of 2³² items or more. -/
theorem C58_narrated_partial (t : Ty) (ht : t.WF) (hm : Mirrored t) (ρ : Bytes → Str) (root : List U32) (m : Mode) (μ : Nat → Mem)
    (id : Nat) (ops : List t.Op) (v : t.El) (c : t.Cs) (w : World) (hv : At t ⟨id, []⟩ v) (hc : Carried t v) (hs : Shows t v c)
    (hw : w.loggers id = ⟨0, []⟩) (hops : CallsSync t m ops v w) :
    ∃ v' w', calls t m ops v w = (.ok v', w') ∧
      ((∀ e ∈ (w'.loggers id).entries, CsFits e) → StaysRoomy ρ t (t.place root c) (w'.loggers id).entries →
        ∃ bytes c' events, (BufferLogger.mk (w'.loggers id).entries).bytes m μ = .ok bytes ∧
          t.csReplayObj ρ (t.place root c) bytes = .ok (t.place root c', events) ∧ Shows t v' c' ∧
          Narrated t root (t.place root c) (w'.loggers id).entries events (t.place root c') ∧
          Situated t root (t.place root c')) := by
  obtain ⟨v', w', h1, h2⟩ := history_narrated t ht hm ρ root m μ id ops v c w hv hc hs hw hops
  refine ⟨v', w', h1, fun hfit hroom => ?_⟩
  obtain ⟨bytes, c', events, h3, h4, h5, h6, _⟩ := h2 hfit hroom
  exact ⟨bytes, c', events, h3, h4, h5, h6, place_situated t root c'⟩

/-- Not vacuous: the history of C24's example is told by seven events. -/
example (ρ : Bytes → Str) (μ : Nat → Mem) :
    ∃ v' w', calls hTy .debug hOps (hVal [] [] (hA 0)) hWorld = (.ok v', w') ∧
      ∃ bytes c' events, (BufferLogger.mk (w'.loggers 4).entries).bytes .debug μ = .ok bytes ∧
        hTy.csReplayObj ρ (hTy.csConstruct []) bytes = .ok (hTy.place [] c', events) ∧ Shows hTy v' c' ∧
        Narrated hTy [] (hTy.csConstruct []) (w'.loggers 4).entries events (hTy.place [] c') ∧
        events.map CsEvent.container = [[0#32], [1#32], [1#32, 3#32], [], [2#32, 1#32], [2#32, 1#32, 5#32], [1#32]] := by
  obtain ⟨v', w', h1, h2⟩ := C58_narrated_partial hTy hTy_wf hTy_mirrored ρ [] .debug μ 4 hOps
    (hVal [] [] (hA 0)) hTy.csNew hWorld (hVal_at 4) ((carried_init hTy).1 ⟨4, []⟩)
    ⟨.nil, fun _ => .none, ⟨rfl, trivial⟩, trivial⟩ rfl (hOps_ok hWorld)
  have he := hLog_eq h1
  rw [← csConstruct_place, he] at h2
  have hfit : ∀ e ∈ hLog, CsFits e := by
    unfold CsFits
    decide +kernel
  obtain ⟨bytes, c', events, h3, h4, h5, h6, _⟩ := h2 hfit (hLog_roomy ρ)
  refine ⟨v', w', h1, bytes, c', events, by rw [he]; exact h3, h4, h5, by rw [he]; exact h6, ?_⟩
  have hb : bytes = hBytes := by
    rw [hBytes_eq] at h3
    cases h3
    rfl
  have : (hTy.csReplayObj ρ (hTy.csConstruct []) hBytes).map (fun r => r.2.map CsEvent.container) =
    .ok [[0#32], [1#32], [1#32, 3#32], [], [2#32, 1#32], [2#32, 1#32, 5#32], [1#32]] := rfl
  rw [← hb, h4] at this
  simpa [Except.map] using this

/-- C58 fails for enums: whatever calls a Rust source makes, the event a generated enum declares for changes of its variant is never
raised. (Rust logs a change of variant as an update of the field or element the enum is in, which raises the event of that
container.) -/
theorem C58_variant_event_never (t : Ty) (ht : t.WF) (hm : Mirrored t) (ρ : Bytes → Str) (root : List U32) (m : Mode) (μ : Nat → Mem)
    (id : Nat) (ops : List t.Op) (v : t.El) (c : t.Cs) (w : World) (hv : At t ⟨id, []⟩ v) (hc : Carried t v) (hs : Shows t v c)
    (hw : w.loggers id = ⟨0, []⟩) (hops : CallsSync t m ops v w) :
    ∃ v' w', calls t m ops v w = (.ok v', w') ∧
      ((∀ e ∈ (w'.loggers id).entries, CsFits e) → StaysRoomy ρ t (t.place root c) (w'.loggers id).entries →
        ∃ bytes o' events, (BufferLogger.mk (w'.loggers id).entries).bytes m μ = .ok bytes ∧
          t.csReplayObj ρ (t.place root c) bytes = .ok (o', events) ∧
          ∀ container newTag newVariant oldTag oldVariant,
            CsEvent.variantUpdate container newTag newVariant oldTag oldVariant ∉ events) := by
  obtain ⟨v', w', h1, h2⟩ := history_narrated t ht hm ρ root m μ id ops v c w hv hc hs hw hops
  refine ⟨v', w', h1, fun hfit hroom => ?_⟩
  obtain ⟨bytes, c', events, h3, h4, _, _, h5⟩ := h2 hfit hroom
  exact ⟨bytes, _, events, h3, h4, fun _ _ _ _ _ h => h5 _ h⟩

/-- Not vacuous: the hypotheses are those of `C58_narrated_partial`; the enum of the example there changes its variant in the fourth
entry, which is told by its container. -/
example (ρ : Bytes → Str) :
    hTy.csReplayEntryObj ρ (hClient₀ [7#8] [(3#32, [5#8, 9#8])]) (.update [2#32] [1#8]) =
      .ok (hClient [7#8] [(3#32, [5#8, 9#8])] [], [.fieldUpdate [] 2#32 hEnum (hEnum.place [2#32] (.inr (.inl ([], ()))))
        (hEnum.place [2#32] (.inl (0#32, ())))]) := rfl

/-- C58 fails for entries replacing the root: whatever changes, no event is raised. -/
theorem C58_root_silent (ρ : Bytes → Str) (t : Ty) (o o' : t.CsObj) (value : Bytes) (events : List CsEvent)
    (h : t.csReplayEntryObj ρ o (.update [] value) = .ok (o', events)) : events = [] := by
  simp only [Ty.csReplayEntryObj, List.getLast?_nil] at h
  cases hd : t.csDeserializeAt ρ (t.csPath o) value with
  | error x => rw [hd] at h; cases h
  | ok r =>
    obtain ⟨⟨o1, ev⟩, rest⟩ := r
    rw [hd] at h
    cases h
    exact (C58_deserialize_quiet ρ t _ value rest o' events hd).1

/-- Not vacuous: replacing the root by an object holding other data. -/
example (ρ : Bytes → Str) : hTy.csReplayEntryObj ρ (hClient₀ [] []) (.update [] [2#8, 1#8, 7#8]) = .ok (hClient₀ [7#8] [], []) := rfl

end Steit
