import Verif.Props.CSharpReplay
import Verif.Lemmas.PeersTogether

/-!
# Programs that change one state together: property C86

Any number of programs have the same state. Each of them changes an object of its own, or what belongs to nobody else, sends its log to the
others from time to time, and replays what it is sent.
-/

namespace Steit
open Spec Prog

variable {ι : Type} [DecidableEq ι]

/-- The programs at the start: the same data everywhere, with what the programs have (`has`), and nothing logged. -/
structure PeersStart (t : Ty) (b : Builds ι) (has : t.El → Prop) (s : Option ι → Peer ι t) : Prop where
  pos : ∀ i, At t ⟨b.logger i, []⟩ (s i).value
  same : ∀ i j, Same t (s i).value (s j).value
  carried : ∀ i, Carried t (s i).value
  own : ∀ i, has (s i).value
  logger : ∀ i, (s i).world.loggers (b.logger i) = ⟨0, []⟩
  seen : ∀ i k, (s i).seen k = 0

theorem together_start {t : Ty} {b : Builds ι} {has : t.El → Prop} {owned : Option ι → Entry → Prop} {s : Option ι → Peer ι t} (h : PeersStart t b has s) :
    Together b owned (s none).value s := by
  have hl : ∀ i, logOf b s i = [] := fun i => by unfold logOf; rw [h.logger i]
  refine ⟨h.pos, fun i => by rw [h.logger i], fun i e he => ?_, fun i => ⟨_, by rw [hl]; rfl⟩, fun i k => by rw [h.seen]; exact Nat.zero_le _, fun i => ?_⟩
  · rw [hl] at he; cases he
  · exact ⟨[], _, (fun _ h => nomatch h), fun k => by rw [hl, List.take_nil]; rfl, rfl, h.same none i⟩

theorem together_moves {t : Ty} (ht : t.WF) (hs : t.isState = true) (hp : shape t ≠ .prim) (hb : ¬ (shape t = .enum ∧ isBox t = true))
    {b : Builds ι} {owned : Option ι → Entry → Prop} {P : t.El → Prop} {R : t.El → t.El → Prop} (c : Commutes (t.dict.handle .debug) owned P R)
    {base : t.El} {rt : Rt} (hbase : At t rt base) (hcb : Carried t base) (hP : P base) :
    ∀ {xs : List (Move ι t)} {s : Option ι → Peer ι t}, Together b owned base s → MovesOk b owned s xs →
      ∃ s', moves b s xs = some s' ∧ Together b owned base s' ∧ ∀ k, logOf b s k <+: logOf b s' k
  | [], s, h, _ => ⟨s, rfl, h, fun _ => List.prefix_rfl⟩
  | x :: xs, s, h, ⟨hx, hxs⟩ => by
    have : ∃ s1, move b s x = some s1 ∧ Together b owned base s1 ∧ ∀ k, logOf b s k <+: logOf b s1 k := by
      cases x with
      | call i op => exact together_call ht hs c hbase hcb hP h hx
      | read i j n μ => exact together_read ht hs hp hb c hbase hP h hx
    obtain ⟨s1, h1, h2, h3⟩ := this
    obtain ⟨s2, h4, h5, h6⟩ := together_moves ht hs hp hb c hbase hcb hP h2 (hxs s1 h1)
    exact ⟨s2, by simp only [moves, h1, Option.bind_some, h4], h5, fun k => (h3 k).trans (h6 k)⟩

/-- What any two programs know: the same entries give the same states, up to `R`. -/
theorem together_agree {t : Ty} (ht : t.WF) (hs : t.isState = true) {b : Builds ι} {owned : Option ι → Entry → Prop} {P : t.El → Prop}
    {R : t.El → t.El → Prop} (c : Commutes (t.dict.handle .debug) owned P R) {base : t.El} {rt : Rt} (hbase : At t rt base)
    (hcb : Carried t base) (hP : P base) {s : Option ι → Peer ι t} (h : Together b owned base s) {i j : Option ι}
    (hk : ∀ k, known b s i k = known b s j k) :
    ∃ x y, Same t x (s i).value ∧ R x y ∧ Same t y (s j).value ∧ At t rt x ∧ At t rt y ∧ Carried t x ∧ Carried t y := by
  obtain ⟨L, r, g1, g2, g3, g4⟩ := h.knows i
  obtain ⟨L', r', g1', g2', g3', g4'⟩ := h.knows j
  exact ⟨r, r', g4, c.same_parts (fun e he => (g1 e he).1) (fun e he => (g1' e he).1) hP (fun k => by rw [g2, g2', hk]) g3 g3', g4',
    applies_at ht hs hbase g3, applies_at ht hs hbase g3', said_carried ht hs (fun e he => (g1 e he).2.1) hbase hcb g3,
    said_carried ht hs (fun e he => (g1' e he).2.1) hbase hcb g3'⟩

theorem all_known {t : Ty} {b : Builds ι} {s : Option ι → Peer ι t} (h : ∀ i k, i ≠ k → (s i).seen k = (logOf b s k).length) (i k : Option ι) :
    known b s i k = (logOf b s k).length := by
  unfold known
  by_cases hk : k = i
  · subst hk; simp
  · rw [if_neg hk, h i k (Ne.symm hk)]

/-- C86: any number of programs, each with the whole state and a logger of its own. Program `some i` changes nothing but the object at
`own i`, program `none` nothing but what is not in or around one of these. In whatever order they make calls and replay (in parts of any
size) what the others logged: no call panics, no replay fails, and any two that know the same entries (`known`) have equal states. -/
theorem C86_peers_agree (t : Ty) (ht : t.WF) (hs : t.isState = true) (hp : shape t ≠ .prim) (hb : ¬ (shape t = .enum ∧ isBox t = true))
    (b : Builds ι) (own : ι → List U32) (ho : OwnApart own) (s : Option ι → Peer ι t) (hstart : PeersStart t b (HasOwn own t) s) (xs : List (Move ι t))
    (hxs : MovesOk b (Owned own) s xs) :
    ∃ s', moves b s xs = some s' ∧ ∀ i j, (∀ k, known b s' i k = known b s' j k) → t.eq (s' i).value (s' j).value = true := by
  obtain ⟨s', h1, h2, -⟩ := together_moves ht hs hp hb (commutes_owned ho ht hs _ _) (hstart.pos none) (hstart.carried none)
    ⟨hstart.pos none, hstart.own none⟩ (together_start hstart) hxs
  refine ⟨s', h1, fun i j hk => ?_⟩
  obtain ⟨x, y, h3, rfl, h4, -, -, hc, -⟩ := together_agree ht hs (commutes_owned ho ht hs _ _) (hstart.pos none) (hstart.carried none)
    ⟨hstart.pos none, hstart.own none⟩ h2 hk
  exact eq_of_same (h3.symm.trans h4) ((carried_same h4).1 hc)

/-- C86: when everybody has read everything, all have the same state. -/
theorem C86_all_read (t : Ty) (ht : t.WF) (hs : t.isState = true) (hp : shape t ≠ .prim) (hb : ¬ (shape t = .enum ∧ isBox t = true))
    (b : Builds ι) (own : ι → List U32) (ho : OwnApart own) (s : Option ι → Peer ι t) (hstart : PeersStart t b (HasOwn own t) s) (xs : List (Move ι t))
    (hxs : MovesOk b (Owned own) s xs) :
    ∃ s', moves b s xs = some s' ∧ ((∀ i k, i ≠ k → (s' i).seen k = (logOf b s' k).length) →
      ∀ i j, t.eq (s' i).value (s' j).value = true) := by
  obtain ⟨s', h1, h2⟩ := C86_peers_agree t ht hs hp hb b own ho s hstart xs hxs
  refine ⟨s', h1, fun h i j => h2 i j fun k => ?_⟩
  rw [all_known h, all_known h]

/-- C86: any two that know the same entries write the same bytes, in any build modes. (Not so in C87: `C87_order_false`.) -/
theorem C86_same_bytes (t : Ty) (ht : t.WF) (hs : t.isState = true) (hp : shape t ≠ .prim) (hb : ¬ (shape t = .enum ∧ isBox t = true))
    (b : Builds ι) (own : ι → List U32) (ho : OwnApart own) (s : Option ι → Peer ι t) (hstart : PeersStart t b (HasOwn own t) s) (xs : List (Move ι t))
    (hxs : MovesOk b (Owned own) s xs) (μ μ' : Mem) :
    ∃ s', moves b s xs = some s' ∧ ∀ i j, (∀ k, known b s' i k = known b s' j k) → (encode t (s' i).value).length < 2 ^ 32 →
      ∃ bytes, t.dict.toBytesFrom (b.mode i) μ (s' i).value = .ok bytes ∧ t.dict.toBytesFrom (b.mode j) μ' (s' j).value = .ok bytes := by
  obtain ⟨s', h1, h2, -⟩ := together_moves ht hs hp hb (commutes_owned ho ht hs _ _) (hstart.pos none) (hstart.carried none)
    ⟨hstart.pos none, hstart.own none⟩ (together_start hstart) hxs
  refine ⟨s', h1, fun i j hk hlen => ?_⟩
  obtain ⟨x, y, h3, rfl, h4, -, -, hc, -⟩ := together_agree ht hs (commutes_owned ho ht hs _ _) (hstart.pos none) (hstart.carried none)
    ⟨hstart.pos none, hstart.own none⟩ h2 hk
  have he : encode t (s' i).value = encode t (s' j).value := encode_same (h3.symm.trans h4)
  refine ⟨_, toBytes_eq t ht (b.mode i) μ _ (carried_writable t _ ((carried_same h3).1 hc)) hlen, ?_⟩
  rw [he]
  exact toBytes_eq t ht (b.mode j) μ' _ (carried_writable t _ ((carried_same h4).1 hc)) (he ▸ hlen)

/-- C86: a replica that changes nothing itself, and is sent the entries that program `i` knows, those of each program in their order but
otherwise in any order, has the state of program `i`. -/
theorem C86_replica (t : Ty) (ht : t.WF) (hs : t.isState = true) (hp : shape t ≠ .prim) (hb : ¬ (shape t = .enum ∧ isBox t = true))
    (b : Builds ι) (own : ι → List U32) (ho : OwnApart own) (s : Option ι → Peer ι t) (hstart : PeersStart t b (HasOwn own t) s) (xs : List (Move ι t))
    (hxs : MovesOk b (Owned own) s xs) (m m' : Mode) (μ : Nat → Mem) (id : Nat) (r : t.El) (hr : At t ⟨id, []⟩ r) (hsame : Same t r (s none).value) :
    ∃ s', moves b s xs = some s' ∧ ∀ i (L : List Entry), (∀ e ∈ L, ∃ k, Owned own k e) →
      (∀ k, entriesOf (Owned own) k L = (logOf b s' k).take (known b s' i k)) →
      ∃ bytes r', (BufferLogger.mk L).bytes m μ = .ok bytes ∧ replay t.dict m' r bytes = .ok r' [] ∧ t.eq r' (s' i).value = true := by
  obtain ⟨s', h1, h2, -⟩ := together_moves ht hs hp hb (commutes_owned ho ht hs _ _) (hstart.pos none) (hstart.carried none)
    ⟨hstart.pos none, hstart.own none⟩ (together_start hstart) hxs
  refine ⟨s', h1, fun i L hL hLk => ?_⟩
  obtain ⟨x, y, h3, rfl, h4, -, -, -, h5, hfit, hc⟩ := together_log ht hs (commutes_owned ho ht hs _ _) (hstart.pos none)
    (hstart.carried none) ⟨hstart.pos none, hstart.own none⟩ h2 hL hLk
  obtain ⟨r', h6, h7⟩ := follows_steps ht hs m' h3 hr hsame
  have hroot := (C31_accepted_at_root t hs hp hb m' ⟨id, []⟩ r hr rfl []).1
  exact ⟨_, r', bytes_eq m μ ⟨L⟩ hfit, (replay_applies hfit hroot).2 ⟨h6, rfl⟩, eq_of_same ((show Same t r' x from h7).trans h4) hc⟩

/-- C86, C#: a client that is sent the entries that program `i` knows, as for `C86_replica`, shows the data of program `i`. -/
theorem C86_client (t : Ty) (ht : t.WF) (hs : t.isState = true) (hp : shape t ≠ .prim) (hb : ¬ (shape t = .enum ∧ isBox t = true))
    (hm : Mirrored t) (b : Builds ι) (own : ι → List U32) (ho : OwnApart own) (s : Option ι → Peer ι t) (hstart : PeersStart t b (HasOwn own t) s)
    (xs : List (Move ι t)) (hxs : MovesOk b (Owned own) s xs) (ρ : Bytes → Str) (m : Mode) (μ : Nat → Mem) (c : t.Cs)
    (hshows : Shows t (s none).value c) :
    ∃ s', moves b s xs = some s' ∧ ∀ i (L : List Entry), (∀ e ∈ L, ∃ k, Owned own k e) →
      (∀ k, entriesOf (Owned own) k L = (logOf b s' k).take (known b s' i k)) → (∀ e ∈ L, CsFits e) →
      ∃ bytes c', (BufferLogger.mk L).bytes m μ = .ok bytes ∧ t.csReplay ρ c bytes = .ok c' ∧ Shows t (s' i).value c' := by
  obtain ⟨s', h1, h2, -⟩ := together_moves ht hs hp hb (commutes_owned ho ht hs _ _) (hstart.pos none) (hstart.carried none)
    ⟨hstart.pos none, hstart.own none⟩ (together_start hstart) hxs
  refine ⟨s', h1, fun i L hL hLk hfit' => ?_⟩
  obtain ⟨x, y, h3, rfl, h4, -, -, -, h5, hfit, hc⟩ := together_log ht hs (commutes_owned ho ht hs _ _) (hstart.pos none)
    (hstart.carried none) ⟨hstart.pos none, hstart.own none⟩ h2 hL hLk
  obtain ⟨c', h6, h7⟩ := csReplay_steps ρ t ht hm h3 hshows hfit'
  exact ⟨_, c', bytes_eq m μ ⟨L⟩ hfit, h6.done, (shows_same h4 c').1 h7⟩

/-! ## Where it ends -/

theorem move_call {t : Ty} {b : Builds ι} {s : Option ι → Peer ι t} {i : Option ι} {op : t.Op} {v1 : t.El}
    (h : (t.run (b.mode i) op (s i).value (s i).world).1 = .ok v1) :
    move b s (.call i op) = some (setPeer s i { s i with value := v1, world := (t.run (b.mode i) op (s i).value (s i).world).2 }) := by
  have h' : t.run (b.mode i) op (s i).value (s i).world = (.ok v1, (t.run (b.mode i) op (s i).value (s i).world).2) := Prod.ext h rfl
  simp only [move]
  rw [h']

theorem move_read {t : Ty} {b : Builds ι} {s : Option ι → Peer ι t} {i j : Option ι} {n : Nat} {μ : Nat → Mem} {v1 : t.El} {es : List Entry}
    (he : sent b s i j n = es) (hfit : ∀ e ∈ es, CsFits e) (hroot : t.dict.isRoot (s i).value = .ok true)
    (h : outcome (applyAll t.dict (b.mode i) (s i).value es) = .ok v1 []) :
    move b s (.read i j n μ) = some (setPeer s i { s i with
      value := v1, seen := fun k => if k = j then (s i).seen k + es.length else (s i).seen k }) := by
  subst he
  have h1 := bytes_eq (b.mode j) μ ⟨sent b s i j n⟩ (fun e he => fits_of (hfit e he))
  have h2 := replayed hfit hroot h
  simp only [move, h1, h2]

theorem moves_cons {t : Ty} {b : Builds ι} {s s1 : Option ι → Peer ι t} {x : Move ι t} {xs : List (Move ι t)} {P : (Option ι → Peer ι t) → Prop}
    (h : move b s x = some s1) (hn : ∃ s', moves b s1 xs = some s' ∧ P s') : ∃ s', moves b s (x :: xs) = some s' ∧ P s' := by
  obtain ⟨s', h1, h2⟩ := hn
  exact ⟨s', by simp only [moves, h, Option.bind_some, h1], h2⟩

/-- Two programs, with the same state and nothing logged. -/
def twoPeers : Option Unit → Peer Unit hTy := fun _ => ⟨hVal [] [] (hA 0), hWorld, fun _ => 0⟩

/-- A debug build and a release build. -/
def twoBuilds : Builds Unit := ⟨fun i => if i = none then .debug else .release, fun _ => 4⟩

theorem two_read {P : Option Unit → Option Unit → Prop} (h1 : P none (some ())) (h2 : P (some ()) none) : ∀ i k, i ≠ k → P i k := by
  rintro (_ | ⟨⟩) (_ | ⟨⟩) h
  · exact absurd rfl h
  · exact h1
  · exact h2
  · exact absurd rfl h

/-- C86 is false of programs that change the same object: both push an item to the same list, and read what the other one logged. Nothing
fails, everybody has read everything, and the lists are different. -/
theorem C86_same_object_false (μ : Nat → Mem) :
    ∃ s', moves twoBuilds twoPeers [.call (some ()) (.inl (.inner (.push (7#8 : BitVec 8)))), .call none (.inl (.inner (.push (8#8 : BitVec 8)))),
        .read none (some ()) 1 μ, .read (some ()) none 1 μ] = some s' ∧
      (∀ i k, i ≠ k → (s' i).seen k = (logOf twoBuilds s' k).length) ∧
      (s' none).value.fields.1.items = [8#8, 7#8] ∧ (s' (some ())).value.fields.1.items = [7#8, 8#8] := by
  refine moves_cons (move_call (v1 := hVal [7#8] [] (hA 0)) rfl) ?_
  refine moves_cons (move_call (v1 := hVal [8#8] [] (hA 0)) rfl) ?_
  refine moves_cons (move_read (v1 := hVal [8#8, 7#8] [] (hA 0)) (es := [.listPush [0#32] [7#8]]) (by decide +kernel) (by unfold CsFits; decide +kernel) rfl rfl) ?_
  refine moves_cons (move_read (v1 := hVal [7#8, 8#8] [] (hA 0)) (es := [.listPush [0#32] [8#8]]) (by decide +kernel) (by unfold CsFits; decide +kernel) rfl rfl) ?_
  exact ⟨_, rfl, two_read (by decide +kernel) (by decide +kernel), rfl, rfl⟩

/-- C86 is false if one program replaces what is around, or is, the object of another: the list is replaced while the other program pushes an
item to it. -/
theorem C86_replaced_false (μ : Nat → Mem) :
    ∃ s', moves twoBuilds twoPeers [.call (some ()) (.inl (.inner (.push (7#8 : BitVec 8)))), .call none (.inl (.set ⟨Rt.dflt, [1#8]⟩)),
        .read none (some ()) 1 μ, .read (some ()) none 1 μ] = some s' ∧
      (∀ i k, i ≠ k → (s' i).seen k = (logOf twoBuilds s' k).length) ∧
      (s' none).value.fields.1.items = [1#8, 7#8] ∧ (s' (some ())).value.fields.1.items = [1#8] := by
  refine moves_cons (move_call (v1 := hVal [7#8] [] (hA 0)) rfl) ?_
  refine moves_cons (move_call (v1 := hVal [1#8] [] (hA 0)) rfl) ?_
  refine moves_cons (move_read (v1 := hVal [1#8, 7#8] [] (hA 0)) (es := [.listPush [0#32] [7#8]]) (by decide +kernel) (by unfold CsFits; decide +kernel) rfl rfl) ?_
  refine moves_cons (move_read (v1 := hVal [1#8] [] (hA 0)) (es := [.update [0#32] [1#8]]) (by decide +kernel) (by unfold CsFits; decide +kernel) rfl rfl) ?_
  exact ⟨_, rfl, two_read (by decide +kernel) (by decide +kernel), rfl, rfl⟩

/-! ## Not vacuous -/

/-- The list belongs to program `some ()`. -/
def listOwner : Unit → List U32 := fun _ => [0#32]

theorem twoPeers_start : PeersStart hTy twoBuilds (HasOwn listOwner hTy) twoPeers where
  pos := fun _ => hVal_at 4
  same := fun _ _ => rfl
  carried := fun _ => (carried_init hTy).1 ⟨4, []⟩
  own := fun _ _ => ⟨.list (.uint .w8), _, _, .inside (p := [0#32]) (q := []) (.field (v := hTy.dict.withRuntime ⟨4, []⟩) (.head rfl)) .self⟩
  logger := fun _ => rfl
  seen := fun _ _ => rfl

/-- One program pushes to the list, the other one inserts a value into the map; each reads what the other one logged. -/
def twoMoves (μ : Nat → Mem) : List (Move Unit hTy) :=
  [.call (some ()) (.inl (.inner (.push (7#8 : BitVec 8)))), .call none (.inr (.inl (.inner (.insertWith 3#32 hNew)))), .read none (some ()) 1 μ,
    .read (some ()) none 9 μ]

theorem movesOk_call {t : Ty} {b : Builds ι} {owned : Option ι → Entry → Prop} {s : Option ι → Peer ι t} {i : Option ι} {op : t.Op} {v1 : t.El}
    {xs : List (Move ι t)} (ha : OpAddr t op (s i).value) (ho : OpSync t op (s i).value)
    (h : (t.run (b.mode i) op (s i).value (s i).world).1 = .ok v1) {es : List Entry}
    (hlog : ((t.run (b.mode i) op (s i).value (s i).world).2.loggers (b.logger i)).entries = es) (hes : ∀ e ∈ es, owned i e ∧ Fits e)
    (hxs : MovesOk b owned (setPeer s i { s i with value := v1, world := (t.run (b.mode i) op (s i).value (s i).world).2 }) xs) :
    MovesOk b owned s (.call i op :: xs) := by
  refine ⟨⟨ha, ho, fun v w hr => ?_⟩, fun s' hs' => ?_⟩
  · rw [hr] at hlog
    simp only at hlog
    rw [hlog]
    exact hes
  · rw [move_call h] at hs'
    cases hs'
    exact hxs

theorem twoMoves_ok (μ : Nat → Mem) : MovesOk twoBuilds (Owned listOwner) twoPeers (twoMoves μ) := by
  have s8 : Sendable (.uint .w8) (7#8 : BitVec 8) := by
    refine ⟨trivial, ?_⟩
    show (leb 7).length < _
    rw [leb_eq_lebF]; decide
  refine movesOk_call (v1 := hVal [7#8] [] (hA 0)) (es := [.listPush [0#32] [7#8]]) ⟨Rt.dflt, trivial⟩ ⟨rfl, s8⟩ rfl (by decide +kernel) ?_ ?_
  · intro e he
    cases List.mem_singleton.1 he
    exact ⟨⟨[], rfl⟩, by unfold Fits; decide +kernel⟩
  refine movesOk_call (v1 := hVal [] [(3#32, ⟨⟨4, [1#32, 3#32]⟩, [5#8]⟩)] (hA 0)) (es := [.update [1#32, 3#32] [5#8]]) hNew_ok.1
    ⟨rfl, by decide, by decide, hNew_ok.2⟩ rfl (by decide +kernel) ?_ ⟨(fun h => nomatch h), fun _ _ => ⟨(fun h => nomatch h), fun _ _ => trivial⟩⟩
  intro e he
  cases List.mem_singleton.1 he
  exact ⟨fun _ => by unfold Aside listOwner; decide, by unfold Fits; decide +kernel⟩

theorem twoMoves_end (μ : Nat → Mem) : ∃ s', moves twoBuilds twoPeers (twoMoves μ) = some s' ∧
    (∀ i k, i ≠ k → (s' i).seen k = (logOf twoBuilds s' k).length) ∧ (s' none).value.fields.1.items = [7#8] ∧
    (s' none).value.fields.2.1.entries.map (·.1) = [3#32] ∧ logOf twoBuilds s' none = [.update [1#32, 3#32] [5#8]] ∧
    logOf twoBuilds s' (some ()) = [.listPush [0#32] [7#8]] ∧ (encode hTy (s' none).value).length < 2 ^ 32 := by
  refine moves_cons (move_call (v1 := hVal [7#8] [] (hA 0)) rfl) ?_
  refine moves_cons (move_call (v1 := hVal [] [(3#32, ⟨⟨4, [1#32, 3#32]⟩, [5#8]⟩)] (hA 0)) rfl) ?_
  refine moves_cons (move_read (v1 := hVal [7#8] [(3#32, ⟨⟨4, [1#32, 3#32]⟩, [5#8]⟩)] (hA 0)) (es := [.listPush [0#32] [7#8]]) (by decide +kernel) (by unfold CsFits; decide +kernel) rfl rfl) ?_
  refine moves_cons (move_read (v1 := hVal [7#8] [(3#32, ⟨⟨4, [1#32, 3#32]⟩, [5#8]⟩)] (hA 0)) (es := [.update [1#32, 3#32] [5#8]]) (by decide +kernel) (by unfold CsFits; decide +kernel) rfl rfl) ?_
  exact ⟨_, rfl, two_read (by decide +kernel) (by decide +kernel), rfl, rfl, by decide +kernel, by decide +kernel,
    show (encode hTy (hVal [7#8] [(3#32, ⟨⟨4, [1#32, 3#32]⟩, [5#8]⟩)] (hA 0))).length < 2 ^ 32 by decide +kernel⟩

/-- In the end both programs have the item and the value. -/
example (μ : Nat → Mem) : ∃ s', moves twoBuilds twoPeers (twoMoves μ) = some s' ∧ (s' none).value.fields.1.items = [7#8] ∧
    (s' none).value.fields.2.1.entries.map (·.1) = [3#32] ∧ hTy.eq (s' none).value (s' (some ())).value = true := by
  obtain ⟨s', h1, h2, h3, h4, -⟩ := twoMoves_end μ
  obtain ⟨s1, h5, h6⟩ := C86_all_read hTy hTy_wf rfl (by decide) (by decide) twoBuilds listOwner (fun i j h => absurd (Subsingleton.elim i j) h)
    twoPeers twoPeers_start (twoMoves μ) (twoMoves_ok μ)
  rw [h1] at h5
  cases h5
  exact ⟨s', h1, h3, h4, h6 h2 none (some ())⟩

/-- Both write the same bytes. -/
example (μ : Nat → Mem) (μ' μ'' : Mem) : ∃ s' bytes, moves twoBuilds twoPeers (twoMoves μ) = some s' ∧
    hTy.dict.toBytesFrom .debug μ' (s' none).value = .ok bytes ∧ hTy.dict.toBytesFrom .release μ'' (s' (some ())).value = .ok bytes := by
  obtain ⟨s', h1, h2, -, -, -, -, hlen⟩ := twoMoves_end μ
  obtain ⟨s1, h7, h8⟩ := C86_same_bytes hTy hTy_wf rfl (by decide) (by decide) twoBuilds listOwner (fun i j h => absurd (Subsingleton.elim i j) h)
    twoPeers twoPeers_start (twoMoves μ) (twoMoves_ok μ) μ' μ''
  rw [h1] at h7
  cases h7
  obtain ⟨bytes, h9, h10⟩ := h8 none (some ()) (fun k => by rw [all_known h2, all_known h2]) hlen
  exact ⟨s', bytes, h1, h9, h10⟩

/-- A replica and a client that are sent the entries in the other order. -/
example (ρ : Bytes → Str) (m : Mode) (μ : Nat → Mem) :
    ∃ s' bytes r' c', moves twoBuilds twoPeers (twoMoves μ) = some s' ∧
      (BufferLogger.mk [.update [1#32, 3#32] [5#8], .listPush [0#32] [7#8]]).bytes .debug μ = .ok bytes ∧
      replay hTy.dict m (hTy.dict.withRuntime ⟨9, []⟩) bytes = .ok r' [] ∧ hTy.eq r' (s' (some ())).value = true ∧
      hTy.csReplay ρ hTy.csNew bytes = .ok c' ∧ Shows hTy (s' (some ())).value c' := by
  obtain ⟨s', h1, h2, -, -, h3, h4, -⟩ := twoMoves_end μ
  have hap : OwnApart listOwner := fun i j h => absurd (Subsingleton.elim i j) h
  obtain ⟨s1, h5, h6⟩ := C86_replica hTy hTy_wf rfl (by decide) (by decide) twoBuilds listOwner hap twoPeers twoPeers_start (twoMoves μ)
    (twoMoves_ok μ) .debug m μ 9 (hTy.dict.withRuntime ⟨9, []⟩) (hVal_at 9) rfl
  rw [h1] at h5
  cases h5
  obtain ⟨s1, h5, h7⟩ := C86_client hTy hTy_wf rfl (by decide) (by decide) hTy_mirrored twoBuilds listOwner hap twoPeers twoPeers_start
    (twoMoves μ) (twoMoves_ok μ) ρ .debug μ hTy.csNew ⟨.nil, fun _ => .none, ⟨rfl, trivial⟩, trivial⟩
  rw [h1] at h5
  cases h5
  have o1 : Owned listOwner none (.update [1#32, 3#32] [5#8]) := fun _ => by unfold Aside listOwner; decide
  have o2 : Owned listOwner (some ()) (.listPush [0#32] [7#8]) := ⟨[], rfl⟩
  have hL : ∀ e ∈ [Entry.update [1#32, 3#32] [5#8], .listPush [0#32] [7#8]], ∃ k, Owned listOwner k e := by
    intro e he
    simp only [List.mem_cons, List.not_mem_nil, or_false] at he
    rcases he with rfl | rfl
    · exact ⟨_, o1⟩
    · exact ⟨_, o2⟩
  have hk : ∀ k, known twoBuilds s' (some ()) k = 1 := by
    intro k
    rcases k with _ | ⟨⟩
    · have := h2 (some ()) none (fun h => nomatch h)
      rw [h3] at this
      simpa [known] using this
    · simp [known, h4]
  have hLk : ∀ k, entriesOf (Owned listOwner) k [Entry.update [1#32, 3#32] [5#8], .listPush [0#32] [7#8]] =
      (logOf twoBuilds s' k).take (known twoBuilds s' (some ()) k) := by
    intro k
    rw [hk]
    rcases k with _ | ⟨⟩
    · have n2 : ¬ Owned listOwner none (.listPush [0#32] [7#8]) := fun h => nomatch owned_unique hap h o2
      rw [h3, entriesOf_pos o1, entriesOf_neg n2]
      rfl
    · have n1 : ¬ Owned listOwner (some ()) (.update [1#32, 3#32] [5#8]) := fun h => nomatch owned_unique hap h o1
      show entriesOf (Owned listOwner) (some ()) _ = (logOf twoBuilds s' (some ())).take 1
      rw [h4, entriesOf_neg n1, entriesOf_pos o2]
      rfl
  obtain ⟨bytes, r', g1, g2, g3⟩ := h6 (some ()) _ hL hLk
  obtain ⟨bytes', c', g4, g5, g6⟩ := h7 (some ()) _ hL hLk (by unfold CsFits; decide +kernel)
  rw [g1] at g4
  cases g4
  exact ⟨s', bytes, r', c', h1, g1, g2, g3, g5, g6⟩

end Steit
