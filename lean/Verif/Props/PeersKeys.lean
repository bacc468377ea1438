import Verif.Props.Peers
import Verif.Lemmas.PeersKeys

/-!
# Programs that each have a place in a map: property C87

As C86, but what a program has can be a place in a map: there need not be a value at the start, and the program inserts, changes and removes
the value. Since a map remembers in which order its keys came, the programs agree on the data, but not on this order.
-/

namespace Steit
open Spec Prog

variable {ι : Type} [DecidableEq ι]

theorem jumble_of_same' {t : Ty} {rt rt' : Rt} {v w : t.El} (hv : At t rt v) (hw : At t rt' w) (h : Same t v w) : Jumble t v w :=
  jumble_of_same t rt rt' v w hv hw h

/-- C87: as `C86_peers_agree`, where a program can also have a place in a map (`keyed`). In whatever order they make calls and replay what
the others logged: no call panics, no replay fails, and any two that know the same entries (`known`) have states that are equal (`==`). -/
theorem C87_peers_agree (t : Ty) (ht : t.WF) (hs : t.isState = true) (hp : shape t ≠ .prim) (hb : ¬ (shape t = .enum ∧ isBox t = true))
    (b : Builds ι) (own : ι → List U32) (keyed : ι → Prop) (ho : OwnApart own) (s : Option ι → Peer ι t)
    (hstart : PeersStart t b (HasPlaces own keyed t) s) (xs : List (Move ι t)) (hxs : MovesOk b (OwnedAt own keyed) s xs) :
    ∃ s', moves b s xs = some s' ∧ ∀ i j, (∀ k, known b s' i k = known b s' j k) → t.eq (s' i).value (s' j).value = true := by
  obtain ⟨s', h1, h2, -⟩ := together_moves ht hs hp hb (commutes_placed ho ht hs _ _) (hstart.pos none) (hstart.carried none)
    ⟨hstart.pos none, hstart.own none⟩ (together_start hstart) hxs
  refine ⟨s', h1, fun i j hk => ?_⟩
  obtain ⟨x, y, h3, hxy, h4, hx, hy, hcx, hcy⟩ := together_agree ht hs (commutes_placed ho ht hs _ _) (hstart.pos none) (hstart.carried none)
    ⟨hstart.pos none, hstart.own none⟩ h2 hk
  exact eq_of_jumble (jumble_trans t _ _ _ (jumble_of_same' (h2.pos i) hx h3.symm) (jumble_trans t _ _ _ hxy (jumble_of_same' hy (h2.pos j) h4)))
    ((carried_same h3).1 hcx) ((carried_same h4).1 hcy)

/-- C87: when everybody has read everything, all have equal states. -/
theorem C87_all_read (t : Ty) (ht : t.WF) (hs : t.isState = true) (hp : shape t ≠ .prim) (hb : ¬ (shape t = .enum ∧ isBox t = true))
    (b : Builds ι) (own : ι → List U32) (keyed : ι → Prop) (ho : OwnApart own) (s : Option ι → Peer ι t)
    (hstart : PeersStart t b (HasPlaces own keyed t) s) (xs : List (Move ι t)) (hxs : MovesOk b (OwnedAt own keyed) s xs) :
    ∃ s', moves b s xs = some s' ∧ ((∀ i k, i ≠ k → (s' i).seen k = (logOf b s' k).length) →
      ∀ i j, t.eq (s' i).value (s' j).value = true) := by
  obtain ⟨s', h1, h2⟩ := C87_peers_agree t ht hs hp hb b own keyed ho s hstart xs hxs
  exact ⟨s', h1, fun h i j => h2 i j fun k => by rw [all_known h, all_known h]⟩

/-- C87: a replica that changes nothing itself, and is sent the entries that program `i` knows, those of each program in their order but
otherwise in any order, has a state equal to that of program `i`. -/
theorem C87_replica (t : Ty) (ht : t.WF) (hs : t.isState = true) (hp : shape t ≠ .prim) (hb : ¬ (shape t = .enum ∧ isBox t = true))
    (b : Builds ι) (own : ι → List U32) (keyed : ι → Prop) (ho : OwnApart own) (s : Option ι → Peer ι t)
    (hstart : PeersStart t b (HasPlaces own keyed t) s) (xs : List (Move ι t)) (hxs : MovesOk b (OwnedAt own keyed) s xs)
    (m m' : Mode) (μ : Nat → Mem) (id : Nat) (r : t.El) (hr : At t ⟨id, []⟩ r) (hsame : Same t r (s none).value) :
    ∃ s', moves b s xs = some s' ∧ ∀ i (L : List Entry), (∀ e ∈ L, ∃ k, OwnedAt own keyed k e) →
      (∀ k, entriesOf (OwnedAt own keyed) k L = (logOf b s' k).take (known b s' i k)) →
      ∃ bytes r', (BufferLogger.mk L).bytes m μ = .ok bytes ∧ replay t.dict m' r bytes = .ok r' [] ∧ t.eq r' (s' i).value = true := by
  obtain ⟨s', h1, h2, -⟩ := together_moves ht hs hp hb (commutes_placed ho ht hs _ _) (hstart.pos none) (hstart.carried none)
    ⟨hstart.pos none, hstart.own none⟩ (together_start hstart) hxs
  refine ⟨s', h1, fun i L hL hLk => ?_⟩
  obtain ⟨x, y, h3, hxy, h4, hx, hy, hcx, h5, hfit, hc⟩ := together_log ht hs (commutes_placed ho ht hs _ _) (hstart.pos none)
    (hstart.carried none) ⟨hstart.pos none, hstart.own none⟩ h2 hL hLk
  obtain ⟨r', h6, h7⟩ := follows_steps ht hs m' h3 hr hsame
  have hroot := (C31_accepted_at_root t hs hp hb m' ⟨id, []⟩ r hr rfl []).1
  have hr' := applies_at ht hs hr h6
  refine ⟨_, r', bytes_eq m μ ⟨L⟩ hfit, (replay_applies hfit hroot).2 ⟨h6, rfl⟩, eq_of_jumble ?_ ((carried_same h7).2 hcx) hc⟩
  exact jumble_trans t _ _ _ (jumble_of_same' hr' hx h7) (jumble_trans t _ _ _ hxy (jumble_of_same' hy (h2.pos i) h4))

/-- C87, C#: a client that is sent the entries that program `i` knows, as for `C87_replica`, shows the data of program `i`. -/
theorem C87_client (t : Ty) (ht : t.WF) (hs : t.isState = true) (hp : shape t ≠ .prim) (hb : ¬ (shape t = .enum ∧ isBox t = true))
    (hm : Mirrored t) (b : Builds ι) (own : ι → List U32) (keyed : ι → Prop) (ho : OwnApart own) (s : Option ι → Peer ι t)
    (hstart : PeersStart t b (HasPlaces own keyed t) s) (xs : List (Move ι t)) (hxs : MovesOk b (OwnedAt own keyed) s xs)
    (ρ : Bytes → Str) (m : Mode) (μ : Nat → Mem) (c : t.Cs) (hshows : Shows t (s none).value c) :
    ∃ s', moves b s xs = some s' ∧ ∀ i (L : List Entry), (∀ e ∈ L, ∃ k, OwnedAt own keyed k e) →
      (∀ k, entriesOf (OwnedAt own keyed) k L = (logOf b s' k).take (known b s' i k)) → (∀ e ∈ L, CsFits e) →
      ∃ bytes c', (BufferLogger.mk L).bytes m μ = .ok bytes ∧ t.csReplay ρ c bytes = .ok c' ∧ Shows t (s' i).value c' := by
  obtain ⟨s', h1, h2, -⟩ := together_moves ht hs hp hb (commutes_placed ho ht hs _ _) (hstart.pos none) (hstart.carried none)
    ⟨hstart.pos none, hstart.own none⟩ (together_start hstart) hxs
  refine ⟨s', h1, fun i L hL hLk hfit' => ?_⟩
  obtain ⟨x, y, h3, hxy, h4, -, -, -, h5, hfit, hc⟩ := together_log ht hs (commutes_placed ho ht hs _ _) (hstart.pos none)
    (hstart.carried none) ⟨hstart.pos none, hstart.own none⟩ h2 hL hLk
  obtain ⟨c', h6, h7⟩ := csReplay_steps ρ t ht hm h3 hshows hfit'
  exact ⟨_, c', bytes_eq m μ ⟨L⟩ hfit, h6.done, (shows_same h4 c').1 (shows_jumble t x y c' hxy h7)⟩

/-! ## Where it ends -/

/-- The value of key 3 of the map belongs to program `some ()`. -/
def keyOwner : Unit → List U32 := fun _ => [1#32, 3#32]

theorem twoPeers_places : PeersStart hTy twoBuilds (HasPlaces keyOwner (fun _ => True) hTy) twoPeers where
  pos := fun _ => hVal_at 4
  same := fun _ _ => rfl
  carried := fun _ => (carried_init hTy).1 ⟨4, []⟩
  own := fun _ _ => .inl ⟨trivial, [1#32], 3#32, .u8, .list (.uint .w8), _, _, rfl,
    .inside (p := [1#32]) (q := []) (.field (v := hTy.dict.withRuntime ⟨4, []⟩) (.tail (.head rfl))) .self⟩
  logger := fun _ => rfl
  seen := fun _ _ => rfl

/-- Each program inserts a value, and reads what the other one logged. -/
def keyMoves (μ : Nat → Mem) : List (Move Unit hTy) :=
  [.call (some ()) (.inr (.inl (.inner (.insertWith 3#32 hNew)))), .call none (.inr (.inl (.inner (.insertWith 4#32 hNew)))), .read none (some ()) 1 μ,
    .read (some ()) none 1 μ]

/-- A list with the number 5 at key `k` of the map. -/
def hFive (k : U32) : U32 × ListV (BitVec 8) := (k, ⟨⟨4, [1#32, k]⟩, [5#8]⟩)

theorem keyMoves_ok (μ : Nat → Mem) : MovesOk twoBuilds (OwnedAt keyOwner (fun _ => True)) twoPeers (keyMoves μ) := by
  refine movesOk_call (v1 := hVal [] [hFive 3#32] (hA 0)) (es := [.update [1#32, 3#32] [5#8]]) hNew_ok.1 ⟨rfl, by decide, by decide, hNew_ok.2⟩ rfl
    (by decide +kernel) ?_ ?_
  · intro e he
    cases List.mem_singleton.1 he
    exact ⟨.inl ⟨[], rfl⟩, by unfold Fits; decide +kernel⟩
  refine movesOk_call (v1 := hVal [] [hFive 4#32] (hA 0)) (es := [.update [1#32, 4#32] [5#8]]) hNew_ok.1
    ⟨rfl, by decide, by decide, hNew_ok.2⟩ rfl (by decide +kernel) ?_ ⟨(fun h => nomatch h), fun _ _ => ⟨(fun h => nomatch h), fun _ _ => trivial⟩⟩
  intro e he
  cases List.mem_singleton.1 he
  exact ⟨fun _ => by unfold Aside keyOwner; decide, by unfold Fits; decide +kernel⟩

theorem keyMoves_end (μ : Nat → Mem) : ∃ s', moves twoBuilds twoPeers (keyMoves μ) = some s' ∧
    (∀ i k, i ≠ k → (s' i).seen k = (logOf twoBuilds s' k).length) ∧ (s' none).value.fields.2.1.entries = [hFive 4#32, hFive 3#32] ∧
    (s' (some ())).value.fields.2.1.entries = [hFive 3#32, hFive 4#32] ∧ logOf twoBuilds s' none = [.update [1#32, 4#32] [5#8]] ∧
    logOf twoBuilds s' (some ()) = [.update [1#32, 3#32] [5#8]] := by
  refine moves_cons (move_call (v1 := hVal [] [hFive 3#32] (hA 0)) rfl) ?_
  refine moves_cons (move_call (v1 := hVal [] [hFive 4#32] (hA 0)) rfl) ?_
  refine moves_cons (move_read (v1 := hVal [] [hFive 4#32, hFive 3#32] (hA 0)) (es := [.update [1#32, 3#32] [5#8]]) (by decide +kernel) (by unfold CsFits; decide +kernel) rfl rfl) ?_
  refine moves_cons (move_read (v1 := hVal [] [hFive 3#32, hFive 4#32] (hA 0)) (es := [.update [1#32, 4#32] [5#8]]) (by decide +kernel) (by unfold CsFits; decide +kernel) rfl rfl) ?_
  exact ⟨_, rfl, two_read (by decide +kernel) (by decide +kernel), rfl, rfl, by decide +kernel, by decide +kernel⟩

/-- What C87 does not say: that the programs have the keys in the same order. Each inserts a key and reads what the other one logged;
everybody has read everything, the states are equal (by C87), but not the order in which the maps have their keys. -/
theorem C87_order_false (μ : Nat → Mem) : ∃ s', moves twoBuilds twoPeers (keyMoves μ) = some s' ∧
    (∀ i k, i ≠ k → (s' i).seen k = (logOf twoBuilds s' k).length) ∧ hTy.eq (s' none).value (s' (some ())).value = true ∧
    (s' none).value.fields.2.1.entries.map (·.1) = [4#32, 3#32] ∧ (s' (some ())).value.fields.2.1.entries.map (·.1) = [3#32, 4#32] := by
  obtain ⟨s', h1, h2, h3, h4, -⟩ := keyMoves_end μ
  obtain ⟨s1, h5, h6⟩ := C87_all_read hTy hTy_wf rfl (by decide) (by decide) twoBuilds keyOwner (fun _ => True)
    (fun i j h => absurd (Subsingleton.elim i j) h) twoPeers twoPeers_places (keyMoves μ) (keyMoves_ok μ)
  rw [h1] at h5
  cases h5
  exact ⟨s', h1, h2, h6 h2 _ _, by rw [h3]; rfl, by rw [h4]; rfl⟩

/-- A closure pushing another item to the new list. -/
def hNewSix : Rt → Exec (Ty.list (.uint .w8)).El := building (.list (.uint .w8)) .debug [.push (6#8 : BitVec 8)]

/-- C87 is false of programs that insert the same key: nothing fails, everybody has read everything, and the values are different. -/
theorem C87_same_key_false (μ : Nat → Mem) :
    ∃ s', moves twoBuilds twoPeers [.call (some ()) (.inr (.inl (.inner (.insertWith 3#32 hNew)))),
        .call none (.inr (.inl (.inner (.insertWith 3#32 hNewSix)))), .read none (some ()) 1 μ, .read (some ()) none 1 μ] = some s' ∧
      (∀ i k, i ≠ k → (s' i).seen k = (logOf twoBuilds s' k).length) ∧
      (s' none).value.fields.2.1.entries.map (·.2.items) = [[5#8]] ∧ (s' (some ())).value.fields.2.1.entries.map (·.2.items) = [[6#8]] := by
  refine moves_cons (move_call (v1 := hVal [] [hFive 3#32] (hA 0)) rfl) ?_
  refine moves_cons (move_call (v1 := hVal [] [(3#32, ⟨⟨4, [1#32, 3#32]⟩, [6#8]⟩)] (hA 0)) rfl) ?_
  refine moves_cons (move_read (v1 := hVal [] [hFive 3#32] (hA 0)) (es := [.update [1#32, 3#32] [5#8]]) (by decide +kernel) (by unfold CsFits; decide +kernel) rfl rfl) ?_
  refine moves_cons (move_read (v1 := hVal [] [(3#32, ⟨⟨4, [1#32, 3#32]⟩, [6#8]⟩)] (hA 0)) (es := [.update [1#32, 3#32] [6#8]]) (by decide +kernel) (by unfold CsFits; decide +kernel) rfl rfl) ?_
  exact ⟨_, rfl, two_read (by decide +kernel) (by decide +kernel), rfl, rfl⟩

/-! ## Not vacuous -/

/-- One program inserts its value and removes it again, while the other one inserts one. -/
def removeMoves (μ : Nat → Mem) : List (Move Unit hTy) :=
  [.call (some ()) (.inr (.inl (.inner (.insertWith 3#32 hNew)))), .call (some ()) (.inr (.inl (.inner (.remove 3#32)))),
    .call none (.inr (.inl (.inner (.insertWith 4#32 hNew)))), .read (some ()) none 1 μ, .read none (some ()) 1 μ, .read none (some ()) 1 μ]

theorem removeMoves_ok (μ : Nat → Mem) : MovesOk twoBuilds (OwnedAt keyOwner (fun _ => True)) twoPeers (removeMoves μ) := by
  refine movesOk_call (v1 := hVal [] [hFive 3#32] (hA 0)) (es := [.update [1#32, 3#32] [5#8]]) hNew_ok.1 ⟨rfl, by decide, by decide, hNew_ok.2⟩ rfl
    (by decide +kernel) ?_ ?_
  · intro e he
    cases List.mem_singleton.1 he
    exact ⟨.inl ⟨[], rfl⟩, by unfold Fits; decide +kernel⟩
  refine movesOk_call (v1 := hVal [] [] (hA 0)) (es := [.update [1#32, 3#32] [5#8], .mapRemove [1#32] 3#32]) trivial
    ⟨rfl, by show 3#32 ∈ [3#32]; decide⟩ rfl (by decide +kernel) ?_ ?_
  · intro e he
    simp only [List.mem_cons, List.not_mem_nil, or_false] at he
    rcases he with rfl | rfl
    · exact ⟨.inl ⟨[], rfl⟩, by unfold Fits; decide +kernel⟩
    · exact ⟨.inr ⟨trivial, [1#32], 3#32, rfl, rfl⟩, by unfold Fits; decide +kernel⟩
  refine movesOk_call (v1 := hVal [] [hFive 4#32] (hA 0)) (es := [.update [1#32, 4#32] [5#8]]) hNew_ok.1
    ⟨rfl, by decide, by decide, hNew_ok.2⟩ rfl (by decide +kernel) ?_
    ⟨(fun h => nomatch h), fun _ _ => ⟨(fun h => nomatch h), fun _ _ => ⟨(fun h => nomatch h), fun _ _ => trivial⟩⟩⟩
  intro e he
  cases List.mem_singleton.1 he
  exact ⟨fun _ => by unfold Aside keyOwner; decide, by unfold Fits; decide +kernel⟩

/-- In the end both programs have the value of key 4 only. -/
example (μ : Nat → Mem) : ∃ s', moves twoBuilds twoPeers (removeMoves μ) = some s' ∧ (s' none).value.fields.2.1.entries = [hFive 4#32] ∧
    hTy.eq (s' none).value (s' (some ())).value = true := by
  have hend : ∃ s', moves twoBuilds twoPeers (removeMoves μ) = some s' ∧
      (∀ i k, i ≠ k → (s' i).seen k = (logOf twoBuilds s' k).length) ∧ (s' none).value.fields.2.1.entries = [hFive 4#32] := by
    refine moves_cons (move_call (v1 := hVal [] [hFive 3#32] (hA 0)) rfl) ?_
    refine moves_cons (move_call (v1 := hVal [] [] (hA 0)) rfl) ?_
    refine moves_cons (move_call (v1 := hVal [] [hFive 4#32] (hA 0)) rfl) ?_
    refine moves_cons (move_read (v1 := hVal [] [hFive 4#32] (hA 0)) (es := [.update [1#32, 4#32] [5#8]]) (by decide +kernel) (by unfold CsFits; decide +kernel) rfl rfl) ?_
    refine moves_cons (move_read (v1 := hVal [] [hFive 4#32, hFive 3#32] (hA 0)) (es := [.update [1#32, 3#32] [5#8]]) (by decide +kernel) (by unfold CsFits; decide +kernel) rfl rfl) ?_
    refine moves_cons (move_read (v1 := hVal [] [hFive 4#32] (hA 0)) (es := [.mapRemove [1#32] 3#32]) (by decide +kernel) (by unfold CsFits; decide +kernel) rfl rfl) ?_
    exact ⟨_, rfl, two_read (by decide +kernel) (by decide +kernel), rfl⟩
  obtain ⟨s', h1, h2, h3⟩ := hend
  obtain ⟨s1, h5, h6⟩ := C87_all_read hTy hTy_wf rfl (by decide) (by decide) twoBuilds keyOwner (fun _ => True)
    (fun i j h => absurd (Subsingleton.elim i j) h) twoPeers twoPeers_places (removeMoves μ) (removeMoves_ok μ)
  rw [h1] at h5
  cases h5
  exact ⟨s', h1, h3, h6 h2 _ _⟩

/-- A replica and a client that are sent the entries in an order in which neither program knows them. -/
example (ρ : Bytes → Str) (m : Mode) (μ : Nat → Mem) :
    ∃ s' bytes r' c', moves twoBuilds twoPeers (keyMoves μ) = some s' ∧
      (BufferLogger.mk [.update [1#32, 4#32] [5#8], .update [1#32, 3#32] [5#8]]).bytes .debug μ = .ok bytes ∧
      replay hTy.dict m (hTy.dict.withRuntime ⟨9, []⟩) bytes = .ok r' [] ∧ hTy.eq r' (s' (some ())).value = true ∧
      hTy.csReplay ρ hTy.csNew bytes = .ok c' ∧ Shows hTy (s' (some ())).value c' := by
  obtain ⟨s', h1, h2, -, -, h3, h4⟩ := keyMoves_end μ
  have hap : OwnApart keyOwner := fun i j h => absurd (Subsingleton.elim i j) h
  obtain ⟨s1, h5, h6⟩ := C87_replica hTy hTy_wf rfl (by decide) (by decide) twoBuilds keyOwner (fun _ => True) hap twoPeers twoPeers_places (keyMoves μ)
    (keyMoves_ok μ) .debug m μ 9 (hTy.dict.withRuntime ⟨9, []⟩) (hVal_at 9) rfl
  rw [h1] at h5
  cases h5
  obtain ⟨s1, h5, h7⟩ := C87_client hTy hTy_wf rfl (by decide) (by decide) hTy_mirrored twoBuilds keyOwner (fun _ => True) hap twoPeers twoPeers_places
    (keyMoves μ) (keyMoves_ok μ) ρ .debug μ hTy.csNew ⟨.nil, fun _ => .none, ⟨rfl, trivial⟩, trivial⟩
  rw [h1] at h5
  cases h5
  have o1 : OwnedAt keyOwner (fun _ => True) none (.update [1#32, 4#32] [5#8]) := fun _ => by unfold Aside keyOwner; decide
  have o2 : OwnedAt keyOwner (fun _ => True) (some ()) (.update [1#32, 3#32] [5#8]) := .inl ⟨[], rfl⟩
  have hL : ∀ e ∈ [Entry.update [1#32, 4#32] [5#8], .update [1#32, 3#32] [5#8]], ∃ k, OwnedAt keyOwner (fun _ => True) k e := by
    intro e he
    simp only [List.mem_cons, List.not_mem_nil, or_false] at he
    rcases he with rfl | rfl
    · exact ⟨_, o1⟩
    · exact ⟨_, o2⟩
  have hk : ∀ k, known twoBuilds s' (some ()) k = (logOf twoBuilds s' k).length := all_known h2 _
  have hLk : ∀ k, entriesOf (OwnedAt keyOwner (fun _ => True)) k [Entry.update [1#32, 4#32] [5#8], .update [1#32, 3#32] [5#8]] =
      (logOf twoBuilds s' k).take (known twoBuilds s' (some ()) k) := by
    intro k
    rw [hk, List.take_length]
    rcases k with _ | ⟨⟩
    · have n2 : ¬ OwnedAt keyOwner (fun _ => True) none (.update [1#32, 3#32] [5#8]) := fun h => nomatch placed_unique hap h o2
      rw [h3, entriesOf_pos o1, entriesOf_neg n2]
      rfl
    · have n1 : ¬ OwnedAt keyOwner (fun _ => True) (some ()) (.update [1#32, 4#32] [5#8]) := fun h => nomatch placed_unique hap h o1
      show entriesOf _ (some ()) _ = logOf twoBuilds s' (some ())
      rw [h4, entriesOf_neg n1, entriesOf_pos o2]
      rfl
  obtain ⟨bytes, r', g1, g2, g3⟩ := h6 (some ()) _ hL hLk
  obtain ⟨bytes', c', g4, g5, g6⟩ := h7 (some ()) _ hL hLk (by unfold CsFits; decide +kernel)
  rw [g1] at g4
  cases g4
  exact ⟨s', bytes, r', c', h1, g1, g2, g3, g5, g6⟩

end Steit
