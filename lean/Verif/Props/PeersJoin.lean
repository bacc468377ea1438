import Verif.Props.PeersKeys
import Verif.Props.Agreement
import Verif.Spec.PeersJoin

/-!
# Starting again, and joining late: property C88

Programs change one state together, as in C86 and C87. At any time one of them can forget its state and go on with a snapshot of another
one, and a replica or a C# client can start with a snapshot of one of them and be sent what is missing there.
-/

namespace Steit
open Spec Prog

variable {ι : Type} [DecidableEq ι]

section
variable {t : Ty} {b : Builds ι} {owned : Option ι → Entry → Prop} {P : t.El → Prop} {R : t.El → t.El → Prop} {base : t.El} {rt : Rt}

theorem together_carried (ht : t.WF) (hs : t.isState = true) (hbase : At t rt base) (hcb : Carried t base) {s : Option ι → Peer ι t}
    (h : Together b owned base s) (i : Option ι) : Carried t (s i).value := by
  obtain ⟨L, r, g1, -, g3, g4⟩ := h.knows i
  exact (carried_same g4).1 (said_carried ht hs (fun e he => (g1 e he).2.1) hbase hcb g3)

theorem known_set {s : Option ι → Peer ι t} {i : Option ι} {p : Peer ι t} (h : ∀ k, logOf b (setPeer s i p) k = logOf b s k) (k k' : Option ι) :
    known b (setPeer s i p) k k' = if k' = k then (logOf b s k).length else if k = i then p.seen k' else (s k).seen k' := by
  unfold known
  rw [h]
  unfold setPeer
  by_cases hk : k = i
  · subst hk; simp
  · simp [hk]

theorem together_restart (ht : t.WF) (hs : t.isState = true) (hbase : At t rt base) (hcb : Carried t base) {s : Option ι → Peer ι t}
    (h : Together b owned base s) {i j : Option ι} {μ : Mem} (hok : EventOk b owned s (.restart i j μ)) :
    ∃ s', event b s (.restart i j μ) = some s' ∧ Together b owned base s' ∧ ∀ k, logOf b s k <+: logOf b s' k := by
  obtain ⟨hown, hlen⟩ := hok
  obtain ⟨snapshot, v, h1, h2, h3, -⟩ := C11_roundtrip t ht (b.mode i) (b.mode j) μ (s i).value (together_carried ht hs hbase hcb h i) hlen
  refine ⟨setPeer s j { s j with value := t.dict.setRuntime ⟨b.logger j, []⟩ v, seen := known b s i }, by simp only [event, h1, h2], ?_⟩
  have hlogs : ∀ k, logOf b (setPeer s j { s j with value := t.dict.setRuntime ⟨b.logger j, []⟩ v, seen := known b s i }) k = logOf b s k := by
    intro k
    rw [logOf_set]
    by_cases hk : k = j
    · subst hk; rw [if_pos rfl]; rfl
    · rw [if_neg hk]
  refine ⟨⟨fun k => ?_, fun k => ?_, fun k e he => ?_, fun k => ?_, fun k k' => ?_, fun k => ?_⟩, fun k => by rw [hlogs]; exact List.prefix_rfl⟩
  · by_cases hk : k = j
    · subst hk; simpa [setPeer] using (anyLaw t ht).at_set _ ⟨b.logger k, []⟩ v (deserialize_at t ht h2)
    · simpa [setPeer, hk] using h.pos k
  · by_cases hk : k = j
    · subst hk; simpa [setPeer] using h.quiet k
    · simpa [setPeer, hk] using h.quiet k
  · rw [hlogs] at he
    exact h.mine k e he
  · rw [hlogs]
    exact h.accepted k
  · rw [hlogs]
    by_cases hk : k = j
    · subst hk; simpa [setPeer] using known_le h i k'
    · simpa [setPeer, hk] using h.behind k k'
  · by_cases hk : k = j
    · subst hk
      obtain ⟨L, r, g1, g2, g3, g4⟩ := h.knows i
      refine ⟨L, r, g1, fun k' => ?_, g3, ?_⟩
      · rw [hlogs, g2]
        congr 1
        rw [known_set hlogs]
        by_cases hk' : k' = k
        · subst hk'; rw [if_pos rfl, hown]
        · rw [if_neg hk', if_pos rfl]
      · have : Same t (t.dict.setRuntime ⟨b.logger k, []⟩ v) (s i).value := (strip_setRuntime t _ v).trans h3
        have h5 : Same t r (t.dict.setRuntime ⟨b.logger k, []⟩ v) := Eq.trans g4 (Eq.symm this)
        simpa [setPeer] using h5
    · obtain ⟨L, r, g1, g2, g3, g4⟩ := h.knows k
      refine ⟨L, r, g1, fun k' => ?_, g3, by simpa [setPeer, hk] using g4⟩
      rw [hlogs, g2]
      congr 1
      rw [known_set hlogs, if_neg hk]
      rfl

theorem together_events (ht : t.WF) (hs : t.isState = true) (hp : shape t ≠ .prim) (hb : ¬ (shape t = .enum ∧ isBox t = true))
    (c : Commutes (t.dict.handle .debug) owned P R) (hbase : At t rt base) (hcb : Carried t base) (hP : P base) :
    ∀ {xs : List (Event ι t)} {s : Option ι → Peer ι t}, Together b owned base s → EventsOk b owned s xs →
      ∃ s', events b s xs = some s' ∧ Together b owned base s' ∧ ∀ k, logOf b s k <+: logOf b s' k
  | [], s, h, _ => ⟨s, rfl, h, fun _ => List.prefix_rfl⟩
  | x :: xs, s, h, ⟨hx, hxs⟩ => by
    have : ∃ s1, event b s x = some s1 ∧ Together b owned base s1 ∧ ∀ k, logOf b s k <+: logOf b s1 k := by
      cases x with
      | restart i j μ => exact together_restart ht hs hbase hcb h hx
      | move x =>
        cases x with
        | call i op => exact together_call ht hs c hbase hcb hP h hx
        | read i j n μ => exact together_read ht hs hp hb c hbase hP h hx
    obtain ⟨s1, h1, h2, h3⟩ := this
    obtain ⟨s2, h4, h5, h6⟩ := together_events ht hs hp hb c hbase hcb hP h2 (hxs s1 h1)
    exact ⟨s2, by simp only [events, h1, Option.bind_some, h4], h5, fun k => (h3 k).trans (h6 k)⟩
end

/-- C88: as `C87_peers_agree`, where at any time a program can start again from a snapshot of another one (or of its own), if all that it has
logged is known there. In whatever order this happens: nothing fails, and any two that know the same entries have equal states. -/
theorem C88_restarts (t : Ty) (ht : t.WF) (hs : t.isState = true) (hp : shape t ≠ .prim) (hb : ¬ (shape t = .enum ∧ isBox t = true))
    (b : Builds ι) (own : ι → List U32) (keyed : ι → Prop) (ho : OwnApart own) (s : Option ι → Peer ι t)
    (hstart : PeersStart t b (HasPlaces own keyed t) s) (xs : List (Event ι t)) (hxs : EventsOk b (OwnedAt own keyed) s xs) :
    ∃ s', events b s xs = some s' ∧ ∀ i j, (∀ k, known b s' i k = known b s' j k) → t.eq (s' i).value (s' j).value = true := by
  obtain ⟨s', h1, h2, -⟩ := together_events ht hs hp hb (commutes_placed ho ht hs _ _) (hstart.pos none) (hstart.carried none)
    ⟨hstart.pos none, hstart.own none⟩ (together_start hstart) hxs
  refine ⟨s', h1, fun i j hk => ?_⟩
  obtain ⟨x, y, h3, hxy, h4, hx, hy, hcx, hcy⟩ := together_agree ht hs (commutes_placed ho ht hs _ _) (hstart.pos none) (hstart.carried none)
    ⟨hstart.pos none, hstart.own none⟩ h2 hk
  exact eq_of_jumble (jumble_trans t _ _ _ (jumble_of_same' (h2.pos i) hx h3.symm) (jumble_trans t _ _ _ hxy (jumble_of_same' hy (h2.pos j) h4)))
    ((carried_same h3).1 hcx) ((carried_same h4).1 hcy)

/-- C88, joining late: a replica reads a snapshot of program `i`; more happens; then it is sent what program `j` knows now and program `i` did
not know then, the entries of each program in their order but otherwise in any order. It accepts this, and has a state equal to that of
program `j`. -/
theorem C88_joins (t : Ty) (ht : t.WF) (hs : t.isState = true) (hp : shape t ≠ .prim) (hb : ¬ (shape t = .enum ∧ isBox t = true))
    (b : Builds ι) (own : ι → List U32) (keyed : ι → Prop) (ho : OwnApart own) (s : Option ι → Peer ι t)
    (hstart : PeersStart t b (HasPlaces own keyed t) s) (xs ys : List (Event ι t)) (hxs : EventsOk b (OwnedAt own keyed) s xs)
    (hys : ∀ s1, events b s xs = some s1 → EventsOk b (OwnedAt own keyed) s1 ys) (m m' : Mode) (μ : Mem) (μ' : Nat → Mem) :
    ∃ s1 s2, events b s xs = some s1 ∧ events b s1 ys = some s2 ∧ ∀ i, (encode t (s1 i).value).length < 2 ^ 32 →
      ∃ snapshot r, t.dict.toBytesFrom (b.mode i) μ (s1 i).value = .ok snapshot ∧ t.dict.deserialize m' snapshot = .ok (r, []) ∧
        ∀ j (L : List Entry), (∀ k, known b s1 i k ≤ known b s2 j k) → (∀ e ∈ L, ∃ k, OwnedAt own keyed k e) →
          (∀ k, entriesOf (OwnedAt own keyed) k L = ((logOf b s2 k).take (known b s2 j k)).drop (known b s1 i k)) →
          ∃ bytes r', (BufferLogger.mk L).bytes m μ' = .ok bytes ∧ replay t.dict m' r bytes = .ok r' [] ∧ t.eq r' (s2 j).value = true := by
  have c := commutes_placed (own := own) (keyed := keyed) ho ht hs ⟨b.logger none, []⟩ .debug
  have hP : At t ⟨b.logger none, []⟩ (s none).value ∧ HasPlaces own keyed t (s none).value := ⟨hstart.pos none, hstart.own none⟩
  obtain ⟨s1, h1, h2, -⟩ := together_events ht hs hp hb c hP.1 (hstart.carried none) hP (together_start hstart) hxs
  obtain ⟨s2, h3, h4, h5⟩ := together_events ht hs hp hb c hP.1 (hstart.carried none) hP h2 (hys s1 h1)
  refine ⟨s1, s2, h1, h3, fun i hlen => ?_⟩
  obtain ⟨snapshot, r, h6, h7, h8, -⟩ := C11_roundtrip t ht (b.mode i) m' μ (s1 i).value (together_carried ht hs hP.1 (hstart.carried none) h2 i) hlen
  refine ⟨snapshot, r, h6, h7, fun j L hle hL hLk => ?_⟩
  obtain ⟨z, x, y, g1, g2, hxy, g3, hx, hy, hcx, hfit, hc⟩ := together_rest ht hs c hP.1 (hstart.carried none) hP h2 h4 h5 hle hL hLk
  have hr := deserialize_at t ht h7
  obtain ⟨r', g4, g5⟩ := follows_steps ht hs m' g2 hr (h8.trans g1.symm)
  have hroot := (C31_accepted_at_root t hs hp hb m' _ r hr rfl []).1
  refine ⟨_, r', bytes_eq m μ' ⟨L⟩ hfit, (replay_applies hfit hroot).2 ⟨g4, rfl⟩, eq_of_jumble ?_ ((carried_same g5).2 hcx) hc⟩
  exact jumble_trans t _ _ _ (jumble_of_same' (applies_at ht hs hr g4) hx g5) (jumble_trans t _ _ _ hxy (jumble_of_same' hy (h4.pos j) g3))

/-- C88, joining late, C#: a client that reads a snapshot of program `i` and is then sent what is missing, as for `C88_joins`, shows the data of
program `j`. -/
theorem C88_client_joins (t : Ty) (ht : t.WF) (hs : t.isState = true) (hp : shape t ≠ .prim) (hb : ¬ (shape t = .enum ∧ isBox t = true))
    (hm : Mirrored t) (hrt : Rooted t) (b : Builds ι) (own : ι → List U32) (keyed : ι → Prop) (ho : OwnApart own) (s : Option ι → Peer ι t)
    (hstart : PeersStart t b (HasPlaces own keyed t) s) (xs ys : List (Event ι t)) (hxs : EventsOk b (OwnedAt own keyed) s xs)
    (hys : ∀ s1, events b s xs = some s1 → EventsOk b (OwnedAt own keyed) s1 ys) (ρ : Bytes → Str) (m : Mode) (μ : Mem) (μ' : Nat → Mem) :
    ∃ s1 s2, events b s xs = some s1 ∧ events b s1 ys = some s2 ∧ ∀ i, (encode t (s1 i).value).length < 2 ^ 31 →
      ∃ snapshot c, t.dict.toBytesFrom (b.mode i) μ (s1 i).value = .ok snapshot ∧ t.csDeserializeRoot ρ snapshot = .ok (c, []) ∧
        ∀ j (L : List Entry), (∀ k, known b s1 i k ≤ known b s2 j k) → (∀ e ∈ L, ∃ k, OwnedAt own keyed k e) →
          (∀ k, entriesOf (OwnedAt own keyed) k L = ((logOf b s2 k).take (known b s2 j k)).drop (known b s1 i k)) → (∀ e ∈ L, CsFits e) →
          ∃ bytes c', (BufferLogger.mk L).bytes m μ' = .ok bytes ∧ t.csReplay ρ c bytes = .ok c' ∧ Shows t (s2 j).value c' := by
  have c := commutes_placed (own := own) (keyed := keyed) ho ht hs ⟨b.logger none, []⟩ .debug
  have hP : At t ⟨b.logger none, []⟩ (s none).value ∧ HasPlaces own keyed t (s none).value := ⟨hstart.pos none, hstart.own none⟩
  obtain ⟨s1, h1, h2, -⟩ := together_events ht hs hp hb c hP.1 (hstart.carried none) hP (together_start hstart) hxs
  obtain ⟨s2, h3, h4, h5⟩ := together_events ht hs hp hb c hP.1 (hstart.carried none) hP h2 (hys s1 h1)
  refine ⟨s1, s2, h1, h3, fun i hlen => ?_⟩
  obtain ⟨snapshot, k, h6, h7, h8⟩ := C45_decodes_partial t ht hm hrt ρ (b.mode i) μ (s1 i).value
    (carried_legible t _ (together_carried ht hs hP.1 (hstart.carried none) h2 i)) hlen
  refine ⟨snapshot, k, h6, h7, fun j L hle hL hLk hfit' => ?_⟩
  obtain ⟨z, x, y, g1, g2, hxy, g3, -, -, -, hfit, -⟩ := together_rest ht hs c hP.1 (hstart.carried none) hP h2 h4 h5 hle hL hLk
  obtain ⟨c', g4, g5⟩ := csReplay_steps ρ t ht hm g2 ((shows_same g1 k).2 h8) hfit'
  exact ⟨_, c', bytes_eq m μ' ⟨L⟩ hfit, g4.done, (shows_same g3 c').1 (shows_jumble t x y c' hxy g5)⟩

/-! ## Where it ends -/

theorem event_restart {t : Ty} (ht : t.WF) {b : Builds ι} {s : Option ι → Peer ι t} {i j : Option ι} {μ : Mem} {snapshot rest : Bytes} {v : t.El}
    (hw : Writable t (s i).value) (he : encode t (s i).value = snapshot) (hlen : snapshot.length < 2 ^ 32)
    (hd : t.dict.deserialize (b.mode j) snapshot = .ok (v, rest)) :
    event b s (.restart i j μ) = some (setPeer s j { s j with value := t.dict.setRuntime ⟨b.logger j, []⟩ v, seen := known b s i }) := by
  subst he
  simp only [event, toBytes_eq t ht (b.mode i) μ (s i).value hw hlen, hd]

theorem events_cons {t : Ty} {b : Builds ι} {s s1 : Option ι → Peer ι t} {x : Event ι t} {xs : List (Event ι t)} {P : (Option ι → Peer ι t) → Prop}
    (h : event b s x = some s1) (hn : ∃ s', events b s1 xs = some s' ∧ P s') : ∃ s', events b s (x :: xs) = some s' ∧ P s' := by
  obtain ⟨s', h1, h2⟩ := hn
  exact ⟨s', by simp only [events, h, Option.bind_some, h1], h2⟩

theorem events_move {t : Ty} {b : Builds ι} {s s1 : Option ι → Peer ι t} {x : Move ι t} {xs : List (Event ι t)} {P : (Option ι → Peer ι t) → Prop}
    (h : move b s x = some s1) (hn : ∃ s', events b s1 xs = some s' ∧ P s') : ∃ s', events b s (.move x :: xs) = some s' ∧ P s' := events_cons h hn

theorem hVal_carried (xs : List (BitVec 8)) : Carried hTy (hVal xs [] (hA 0)) :=
  ⟨fun _ _ => trivial, ⟨(fun _ h => nomatch h), .nil⟩, ⟨trivial, trivial⟩, trivial⟩

/-- C88 is false of a program that starts again although it has logged what is not in the snapshot: nothing fails, everybody has read
everything, and the item the program pushed before is missing in its own state only. -/
theorem C88_unread_false (μ : Nat → Mem) (μ' : Mem) :
    ∃ s', events twoBuilds twoPeers [.move (.call (some ()) (.inl (.inner (.push (7#8 : BitVec 8))))), .restart none (some ()) μ',
        .move (.call (some ()) (.inl (.inner (.push (8#8 : BitVec 8))))), .move (.read none (some ()) 2 μ)] = some s' ∧
      (∀ i k, i ≠ k → (s' i).seen k = (logOf twoBuilds s' k).length) ∧
      (s' none).value.fields.1.items = [7#8, 8#8] ∧ (s' (some ())).value.fields.1.items = [8#8] := by
  refine events_move (move_call (v1 := hVal [7#8] [] (hA 0)) rfl) ?_
  refine events_cons (event_restart hTy_wf (carried_writable _ _ (hVal_carried [])) (snapshot := [18#8, 1#8, 0#8]) (by decide +kernel)
    (by decide) (v := hTy.dict.setRuntime Rt.dflt (hVal [] [] (hA 0))) rfl) ?_
  refine events_move (move_call (v1 := hVal [8#8] [] (hA 0)) rfl) ?_
  refine events_move (move_read (v1 := hVal [7#8, 8#8] [] (hA 0)) (es := [.listPush [0#32] [7#8], .listPush [0#32] [8#8]]) (by decide +kernel) (by unfold CsFits; decide +kernel) rfl rfl) ?_
  exact ⟨_, rfl, two_read (by decide +kernel) (by decide +kernel), rfl, rfl⟩

/-- C88 is false of a replica that is sent what is in the snapshot already: it accepts this, and has the pushed item twice. -/
theorem C88_again_false (m m' : Mode) (μ : Nat → Mem) (μ' : Mem) :
    ∃ s' snapshot r bytes r', events twoBuilds twoPeers [.move (.call (some ()) (.inl (.inner (.push (7#8 : BitVec 8)))))] = some s' ∧
      hTy.dict.toBytesFrom (twoBuilds.mode (some ())) μ' (s' (some ())).value = .ok snapshot ∧ hTy.dict.deserialize m' snapshot = .ok (r, []) ∧
      (BufferLogger.mk (logOf twoBuilds s' (some ()))).bytes m μ = .ok bytes ∧ replay hTy.dict m' r bytes = .ok r' [] ∧
      (s' (some ())).value.fields.1.items = [7#8] ∧ r'.fields.1.items = [7#8, 7#8] := by
  have hend : ∃ s', events twoBuilds twoPeers [.move (.call (some ()) (.inl (.inner (.push (7#8 : BitVec 8)))))] = some s' ∧
      (s' (some ())).value = hVal [7#8] [] (hA 0) ∧ logOf twoBuilds s' (some ()) = [.listPush [0#32] [7#8]] :=
    events_move (move_call (v1 := hVal [7#8] [] (hA 0)) rfl) ⟨_, rfl, rfl, by decide +kernel⟩
  obtain ⟨s', h1, h2, h3⟩ := hend
  have hfit : ∀ e ∈ [Entry.listPush [0#32] [7#8]], CsFits e := by unfold CsFits; decide +kernel
  have he : encode hTy (hVal [7#8] [] (hA 0)) = [2#8, 1#8, 7#8, 18#8, 1#8, 0#8] := by decide +kernel
  have h4 := toBytes_eq hTy hTy_wf (twoBuilds.mode (some ())) μ' (hVal [7#8] [] (hA 0)) (carried_writable _ _ (hVal_carried _)) (by rw [he]; decide)
  rw [he] at h4
  refine ⟨s', _, hTy.dict.setRuntime Rt.dflt (hVal [7#8] [] (hA 0)), _, hTy.dict.setRuntime Rt.dflt (hVal [7#8, 7#8] [] (hA 0)), h1, by rw [h2]; exact h4,
    by cases m' <;> rfl, by rw [h3]; exact bytes_eq m μ ⟨_⟩ fun e he => fits_of (hfit e he), ?_, by rw [h2]; rfl, rfl⟩
  exact replayed hfit rfl (by cases m' <;> rfl)

/-! ## Not vacuous -/

theorem twoPeers_list : PeersStart hTy twoBuilds (HasPlaces listOwner (fun _ => False) hTy) twoPeers :=
  { twoPeers_start with own := fun i j => .inr ⟨id, twoPeers_start.own i j⟩ }

theorem events_step {t : Ty} {b : Builds ι} {owned : Option ι → Entry → Prop} {s s1 : Option ι → Peer ι t} {x : Event ι t} {xs : List (Event ι t)}
    {P : (Option ι → Peer ι t) → Prop} (h : event b s x = some s1) (hx : EventOk b owned s x)
    (hn : EventsOk b owned s1 xs ∧ ∃ s', events b s1 xs = some s' ∧ P s') :
    EventsOk b owned s (x :: xs) ∧ ∃ s', events b s (x :: xs) = some s' ∧ P s' :=
  ⟨⟨hx, fun s' h' => by rw [h] at h'; cases h'; exact hn.1⟩, events_cons h hn.2⟩

theorem event_move {t : Ty} {b : Builds ι} {s s1 : Option ι → Peer ι t} {x : Move ι t} (h : move b s x = some s1) : event b s (.move x) = some s1 := h

theorem eventsOk_append {t : Ty} {b : Builds ι} {owned : Option ι → Entry → Prop} {ys : List (Event ι t)} {s1 s2 : Option ι → Peer ι t} :
    ∀ {xs : List (Event ι t)} {s : Option ι → Peer ι t}, EventsOk b owned s xs → events b s xs = some s1 → EventsOk b owned s1 ys →
      events b s1 ys = some s2 → EventsOk b owned s (xs ++ ys) ∧ events b s (xs ++ ys) = some s2
  | [], _, _, h1, h2, h3 => by cases h1; exact ⟨h2, h3⟩
  | x :: xs, s, h, h1, h2, h3 => by
    simp only [events] at h1
    obtain ⟨u, h4, h5⟩ := Option.bind_eq_some_iff.1 h1
    obtain ⟨h6, h7⟩ := eventsOk_append (h.2 u h4) h5 h2 h3
    exact ⟨⟨h.1, fun s' h' => by rw [h4] at h'; cases h'; exact h6⟩, by simp only [List.cons_append, events, h4, Option.bind_some, h7]⟩

theorem moveOk_call {t : Ty} {b : Builds ι} {owned : Option ι → Entry → Prop} {s : Option ι → Peer ι t} {i : Option ι} {op : t.Op} {v1 : t.El}
    (h : OpAddr t op (s i).value ∧ OpSync t op (s i).value) (hr : (t.run (b.mode i) op (s i).value (s i).world).1 = .ok v1) {es : List Entry}
    (hlog : ((t.run (b.mode i) op (s i).value (s i).world).2.loggers (b.logger i)).entries = es) (hes : ∀ e ∈ es, owned i e ∧ Fits e) :
    EventOk b owned s (.move (.call i op)) := (movesOk_call (xs := []) h.1 h.2 hr hlog hes trivial).1

/-- A program pushes to its list, the other one reads this, and the first starts again from a snapshot of the other one. -/
def joinBefore (μ : Nat → Mem) (μ' : Mem) : List (Event Unit hTy) :=
  [.move (.call (some ()) (.inl (.inner (.push (7#8 : BitVec 8))))), .move (.read none (some ()) 1 μ), .restart none (some ()) μ']

/-- Then both go on. -/
def joinAfter (μ : Nat → Mem) : List (Event Unit hTy) :=
  [.move (.call (some ()) (.inl (.inner (.push (8#8 : BitVec 8))))), .move (.call none (.inr (.inl (.inner (.insertWith 3#32 hNew))))),
    .move (.read none (some ()) 1 μ), .move (.read (some ()) none 1 μ)]

theorem pushes_ok (x : BitVec 8) (h : (leb x.toNat).length < 2 ^ 32) (v : hTy.El) :
    OpAddr hTy (.inl (.inner (.push x))) v ∧ OpSync hTy (.inl (.inner (.push x))) v := ⟨⟨Rt.dflt, trivial⟩, rfl, trivial, h⟩

theorem seven_ok (x : BitVec 8) (hx : x = 7#8 ∨ x = 8#8) : OwnedAt listOwner (fun _ => False) (some ()) (.listPush [0#32] [x]) ∧ Fits (.listPush [0#32] [x]) :=
  ⟨.inl ⟨[], rfl⟩, by unfold Fits; rcases hx with rfl | rfl <;> decide +kernel⟩

theorem join_end (μ : Nat → Mem) (μ' : Mem) : EventsOk twoBuilds (OwnedAt listOwner (fun _ => False)) twoPeers (joinBefore μ μ') ∧
    ∃ s1, events twoBuilds twoPeers (joinBefore μ μ') = some s1 ∧ EventsOk twoBuilds (OwnedAt listOwner (fun _ => False)) s1 (joinAfter μ) ∧
      ∃ s2, events twoBuilds s1 (joinAfter μ) = some s2 ∧ (s1 none).value = hVal [7#8] [] (hA 0) ∧ (∀ k, known twoBuilds s1 none k = if k = none then 0 else 1) ∧
        (∀ k, known twoBuilds s2 (some ()) k = if k = none then 1 else 2) ∧
        (∀ k, known twoBuilds s2 none k = if k = none then 1 else 2) ∧ (s2 none).value = hVal [7#8, 8#8] [hFive 3#32] (hA 0) ∧
        logOf twoBuilds s2 none = [.update [1#32, 3#32] [5#8]] ∧ logOf twoBuilds s2 (some ()) = [.listPush [0#32] [7#8], .listPush [0#32] [8#8]] := by
  have two : ∀ {P : Option Unit → Prop}, P none → P (some ()) → ∀ k, P k := fun h1 h2 k => by
    rcases k with _ | ⟨⟩
    · exact h1
    · exact h2
  refine events_step (event_move (move_call (v1 := hVal [7#8] [] (hA 0)) rfl)) (moveOk_call (pushes_ok _ (by rw [leb_eq_lebF]; decide) _)
    (v1 := hVal [7#8] [] (hA 0)) rfl (es := [.listPush [0#32] [7#8]]) (by decide +kernel) ?_) ?_
  · intro e he
    cases List.mem_singleton.1 he
    exact seven_ok _ (.inl rfl)
  refine events_step (event_move (move_read (v1 := hVal [7#8] [] (hA 0)) (es := [.listPush [0#32] [7#8]]) (by decide +kernel) (by unfold CsFits; decide +kernel) rfl rfl))
    (fun h => nomatch h) ?_
  refine events_step (event_restart hTy_wf (carried_writable _ _ (hVal_carried [7#8])) (snapshot := [2#8, 1#8, 7#8, 18#8, 1#8, 0#8]) (by decide +kernel)
    (by decide) (v := hTy.dict.setRuntime Rt.dflt (hVal [7#8] [] (hA 0))) rfl) ⟨by decide +kernel, by decide +kernel⟩ ?_
  refine ⟨trivial, _, rfl, ?_⟩
  refine events_step (event_move (move_call (v1 := hVal [7#8, 8#8] [] (hA 0)) rfl)) (moveOk_call (pushes_ok _ (by rw [leb_eq_lebF]; decide) _)
    (v1 := hVal [7#8, 8#8] [] (hA 0)) rfl (es := [.listPush [0#32] [7#8], .listPush [0#32] [8#8]]) (by decide +kernel) ?_) ?_
  · intro e he
    simp only [List.mem_cons, List.not_mem_nil, or_false] at he
    rcases he with rfl | rfl
    · exact seven_ok _ (.inl rfl)
    · exact seven_ok _ (.inr rfl)
  refine events_step (event_move (move_call (v1 := hVal [7#8] [hFive 3#32] (hA 0)) rfl)) (moveOk_call ⟨hNew_ok.1, rfl, by decide, by decide, hNew_ok.2⟩
    (v1 := hVal [7#8] [hFive 3#32] (hA 0)) rfl (es := [.update [1#32, 3#32] [5#8]]) (by decide +kernel) ?_) ?_
  · intro e he
    cases List.mem_singleton.1 he
    exact ⟨fun _ => by unfold Aside listOwner; decide, by unfold Fits; decide +kernel⟩
  refine events_step (event_move (move_read (v1 := hVal [7#8, 8#8] [hFive 3#32] (hA 0)) (es := [.listPush [0#32] [8#8]]) (by decide +kernel) (by unfold CsFits; decide +kernel) rfl rfl))
    (fun h => nomatch h) ?_
  refine events_step (event_move (move_read (v1 := hVal [7#8, 8#8] [hFive 3#32] (hA 0)) (es := [.update [1#32, 3#32] [5#8]]) (by decide +kernel) (by unfold CsFits; decide +kernel) rfl rfl))
    (fun h => nomatch h) ?_
  exact ⟨trivial, _, rfl, rfl, two (by decide +kernel) (by decide +kernel), two (by decide +kernel) (by decide +kernel),
    two (by decide +kernel) (by decide +kernel), rfl, by decide +kernel, by decide +kernel⟩

/-- The program that started again agrees with the other one in the end; a replica and a client that start with the snapshot too, and are sent
the two entries that are not in it, agree with them. -/
example (ρ : Bytes → Str) (m m' : Mode) (μ : Nat → Mem) (μ' : Mem) :
    ∃ s1 s2 snapshot r c bytes r' c', events twoBuilds twoPeers (joinBefore μ μ') = some s1 ∧ events twoBuilds s1 (joinAfter μ) = some s2 ∧
      hTy.eq (s2 none).value (s2 (some ())).value = true ∧ hTy.dict.toBytesFrom (twoBuilds.mode none) μ' (s1 none).value = .ok snapshot ∧
      hTy.dict.deserialize m' snapshot = .ok (r, []) ∧ hTy.csDeserializeRoot ρ snapshot = .ok (c, []) ∧
      (BufferLogger.mk [.update [1#32, 3#32] [5#8], .listPush [0#32] [8#8]]).bytes m μ = .ok bytes ∧
      replay hTy.dict m' r bytes = .ok r' [] ∧ hTy.eq r' (s2 (some ())).value = true ∧
      hTy.csReplay ρ c bytes = .ok c' ∧ Shows hTy (s2 (some ())).value c' ∧ (s2 none).value = hVal [7#8, 8#8] [hFive 3#32] (hA 0) := by
  obtain ⟨hxs, s1, h1, hys, s2, h2, h3, h4, h5, h5', h6, h7, h8⟩ := join_end μ μ'
  have hap : OwnApart listOwner := fun i j h => absurd (Subsingleton.elim i j) h
  have hys' : ∀ s1, events twoBuilds twoPeers (joinBefore μ μ') = some s1 → EventsOk twoBuilds (OwnedAt listOwner (fun _ => False)) s1 (joinAfter μ) := by
    intro s h
    rw [h1] at h
    cases h
    exact hys
  obtain ⟨s1', s2', g1, g2, g3⟩ := C88_joins hTy hTy_wf rfl (by decide) (by decide) twoBuilds listOwner _ hap twoPeers twoPeers_list _ _ hxs hys' m m' μ' μ
  rw [h1] at g1
  cases g1
  rw [h2] at g2
  cases g2
  obtain ⟨s1', s2', g1, g2, g4⟩ := C88_client_joins hTy hTy_wf rfl (by decide) (by decide) hTy_mirrored trivial twoBuilds listOwner _ hap twoPeers
    twoPeers_list _ _ hxs hys' ρ m μ' μ
  rw [h1] at g1
  cases g1
  rw [h2] at g2
  cases g2
  have hlen : (encode hTy (s1 none).value).length = 6 := by rw [h3]; decide +kernel
  obtain ⟨snapshot, r, g5, g6, g7⟩ := g3 none (by omega)
  obtain ⟨snapshot', c, g8, g9, g10⟩ := g4 none (by omega)
  rw [g5] at g8
  cases g8
  have o1 : OwnedAt listOwner (fun _ => False) none (.update [1#32, 3#32] [5#8]) := fun _ => by unfold Aside listOwner; decide
  have o2 : OwnedAt listOwner (fun _ => False) (some ()) (.listPush [0#32] [8#8]) := .inl ⟨[], rfl⟩
  have hL : ∀ e ∈ [Entry.update [1#32, 3#32] [5#8], .listPush [0#32] [8#8]], ∃ k, OwnedAt listOwner (fun _ => False) k e := by
    intro e he
    simp only [List.mem_cons, List.not_mem_nil, or_false] at he
    rcases he with rfl | rfl
    · exact ⟨_, o1⟩
    · exact ⟨_, o2⟩
  have hLk : ∀ k, entriesOf (OwnedAt listOwner (fun _ => False)) k [Entry.update [1#32, 3#32] [5#8], .listPush [0#32] [8#8]] =
      ((logOf twoBuilds s2 k).take (known twoBuilds s2 (some ()) k)).drop (known twoBuilds s1 none k) := by
    intro k
    rw [h4, h5]
    rcases k with _ | ⟨⟩
    · have n2 : ¬ OwnedAt listOwner (fun _ => False) none (.listPush [0#32] [8#8]) := fun h => nomatch placed_unique hap h o2
      rw [h7, entriesOf_pos o1, entriesOf_neg n2]
      rfl
    · have n1 : ¬ OwnedAt listOwner (fun _ => False) (some ()) (.update [1#32, 3#32] [5#8]) := fun h => nomatch placed_unique hap h o1
      show entriesOf _ (some ()) _ = ((logOf twoBuilds s2 (some ())).take 2).drop 1
      rw [h8, entriesOf_neg n1, entriesOf_pos o2]
      rfl
  have hle : ∀ k, known twoBuilds s1 none k ≤ known twoBuilds s2 (some ()) k := by
    intro k
    rw [h4, h5]
    split <;> omega
  obtain ⟨bytes, r', e1, e2, e3⟩ := g7 (some ()) _ hle hL hLk
  obtain ⟨bytes', c', e4, e5, e6⟩ := g10 (some ()) _ hle hL hLk (by unfold CsFits; decide +kernel)
  rw [e1] at e4
  cases e4
  have hall : EventsOk twoBuilds (OwnedAt listOwner (fun _ => False)) twoPeers (joinBefore μ μ' ++ joinAfter μ) ∧
      events twoBuilds twoPeers (joinBefore μ μ' ++ joinAfter μ) = some s2 := eventsOk_append hxs h1 hys h2
  obtain ⟨s2', f1, f2⟩ := C88_restarts hTy hTy_wf rfl (by decide) (by decide) twoBuilds listOwner _ hap twoPeers twoPeers_list _ hall.1
  rw [hall.2] at f1
  cases f1
  exact ⟨s1, s2, snapshot, r, c, bytes, r', c', h1, h2, f2 _ _ fun k => by rw [h5, h5'], g5, g6, g9, e1, e2, e3, e5, e6, h6⟩

end Steit
