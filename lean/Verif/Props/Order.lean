import Verif.Lemmas.ShuffleTy
import Verif.Lemmas.ShuffleVeil
import Verif.Props.Agreement
import Verif.Props.Opaque

/-!
# The order in which hash maps iterate: property C82

The model keeps the entries of a `HashMap` in a list, and a new entry comes last. The standard library promises no order. `Shuffle`
(`Verif/Spec/Order.lean`) relates values that differ in the order of their hash maps only. The theorems below say what does not depend
on the order, where values may be reordered at any time.
-/

namespace Steit
open Spec Prog

/-! ## Equality and writing -/

/-- C82: values that differ in the order of hash maps are `==`. -/
theorem C82_equal (t : Ty) (v w : t.El) (hv : Keyed t v) (h : Shuffle t v w) : t.eq v w = true :=
  (eq_iff t v w hv (shuffle_keyed t v w h hv)).2 (equal_of_shuffle t v w h)

/-- C82: if one of them can be written so can the other, and the number of bytes is the same. -/
theorem C82_written (t : Ty) (ht : t.WF) (m m' : Mode) (μ μ' : Mem) (v w : t.El) (h : Shuffle t v w) (hw : Writable t v)
    (hlen : (encode t v).length < 2 ^ 32) :
    ∃ bytes bytes', t.dict.toBytesFrom m μ v = .ok bytes ∧ t.dict.toBytesFrom m' μ' w = .ok bytes' ∧ bytes.length = bytes'.length :=
  ⟨_, _, toBytes_eq t ht m μ v hw hlen,
    toBytes_eq t ht m' μ' w (shuffle_writable t v w h hw) (by rw [← shuffle_length t v w h]; exact hlen), shuffle_length t v w h⟩

/-- The same two entries in two orders. -/
def exOrder : Ty := .hashMap (.uint .w8) (.uint .w8)

/-- The bytes are not the same: equal values are written differently, and a program that passes on a value with a `HashMap` in it
need not send the bytes it received. -/
theorem C82_false_bytes : ∀ m, let v : exOrder.El := [(1#8, 5#8), (2#8, 6#8)]
    let w : exOrder.El := [(2#8, 6#8), (1#8, 5#8)]
    exOrder.WF ∧ Carried exOrder v ∧ Shuffle exOrder v w ∧ exOrder.eq v w = true ∧
    exOrder.dict.toBytesFrom m (fun _ => 0) v = .ok [1#8, 5#8, 2#8, 6#8] ∧
    exOrder.dict.toBytesFrom m (fun _ => 0) w = .ok [2#8, 6#8, 1#8, 5#8] := by
  intro m
  refine ⟨⟨trivial, trivial⟩, ⟨?_, by decide⟩, ⟨[(1#8, 5#8), (2#8, 6#8)], ⟨⟨rfl, rfl⟩, ⟨rfl, rfl⟩, trivial⟩, List.Perm.swap _ _ _⟩, rfl, ?_, ?_⟩
  · exact fun e _ => ⟨trivial, trivial⟩
  · cases m <;> decide +kernel
  · cases m <;> decide +kernel

/-! ## Reading -/

/-- C82, from end to end: a value is written with its hash maps in any order, read, and reordered there. It is the value that was
written, up to the order. -/
theorem C82_roundtrip (t : Ty) (ht : t.WF) (m m' : Mode) (μ : Mem) (v w : t.El) (hc : Carried t v) (h : Shuffle t v w)
    (hlen : (encode t v).length < 2 ^ 32) :
    ∃ bytes u, t.dict.toBytesFrom m μ w = .ok bytes ∧ t.dict.deserialize m' bytes = .ok (u, []) ∧
      ∀ u', Shuffle t u u' → Shuffle t v u' ∧ t.eq u' v = true := by
  obtain ⟨bytes, u, h1, h2, h3, _⟩ := C11_roundtrip t ht m m' μ w (shuffle_carried t v w h hc) (by rw [← shuffle_length t v w h]; exact hlen)
  refine ⟨bytes, u, h1, h2, fun u' hu => ?_⟩
  have hvu := shuffle_trans t v w u' h (shuffle_trans t w u u' (shuffle_symm t _ _ (shuffle_of_same t u w h3)) hu)
  have hk := keyed_of_carried t v hc
  exact ⟨hvu, C82_equal t u' v (shuffle_keyed t v u' hvu hk) (shuffle_symm t _ _ hvu)⟩

theorem sameRes_shuffle {t : Ty} {r r' : Res t.El} (h : SameRes (Kin t) r r') : SameRes (Shuffle t) r r' := by
  cases r <;> cases r' <;> first | exact h.elim | exact ⟨shuffle_of_kin t _ _ h.1, h.2⟩

/-- C82, any bytes: what is merged into a value does the same whatever the order of the hash maps in it, errors included: what is left
behind is the same data up to the order. -/
theorem C82_merge (t : Ty) (m : Mode) (rt rt' : Rt) (v w : t.El) (hv : At t rt v) (hw : At t rt' w) (hk : Keyed t v) (h : Shuffle t v w)
    (bs : Bytes) : SameRes (Shuffle t) (t.dict.merge m v bs) (t.dict.merge m w bs) := by
  rcases (kinTy t).merge (.inl rfl) bs (kin_of_shuffle t rt rt' v w hv hw hk (shuffle_keyed t v w h hk) h) with h | ⟨hm, _⟩
  · exact sameRes_shuffle h
  · exact absurd rfl hm

/-! ## Programs in between -/

/-- What programs in between make of bytes, one after the other: each has some of the parts as `Bytes` (`Veil`), or none, reads, may
reorder its hash maps, and writes. -/
inductive Relayed (t : Ty) : Bytes → Bytes → Prop
  | here (b : Bytes) : Relayed t b b
  | hop {b b' b'' rest : Bytes} (r : Veil) (hsrc : r.src = t) (hf : r.Fair) (hr : r.relay.WF) {m m' : Mode} {μ : Mem} {w w' : r.relay.El}
    (hd : r.relay.dict.deserialize m b = .ok (w, rest)) (hs : Shuffle r.relay w w') (hw : r.relay.dict.toBytesFrom m' μ w' = .ok b')
    (next : Relayed t b' b'') : Relayed t b b''

theorem relay_reorders (r : Veil) (hf : r.Fair) (hr : r.relay.WF) (m m' : Mode) (μ : Mem) (v : r.src.El) (hc : Carried r.src v)
    (hlen : (encode r.src v).length < 2 ^ 32) {w w' : r.relay.El} {rest b' : Bytes}
    (hd : r.relay.dict.deserialize m (encode r.src v) = .ok (w, rest)) (hs : Shuffle r.relay w w')
    (hw : r.relay.dict.toBytesFrom m' μ w' = .ok b') : ∃ v', Shuffle r.src v v' ∧ b' = encode r.src v' := by
  have he := r.encode hf v
  obtain ⟨bytes, w0, h1, h2, h3, -⟩ := C11_roundtrip r.relay hr m m μ (r.seen v) (r.carried v hc) (by rw [he]; exact hlen)
  rw [toBytes_eq r.relay hr m μ (r.seen v) (carried_writable _ _ (r.carried v hc)) (by rw [he]; exact hlen), he] at h1
  cases h1
  cases hd.symm.trans h2
  have hsw := shuffle_trans _ _ _ _ (shuffle_symm _ _ _ (shuffle_of_same _ _ _ h3)) hs
  obtain ⟨v', h4, h5⟩ := r.lift v w' hsw
  refine ⟨v', h4, ?_⟩
  have hl : (encode r.relay w').length < 2 ^ 32 := by rw [← shuffle_length _ _ _ hsw, he]; exact hlen
  rw [toBytes_eq r.relay hr m' μ w' (shuffle_writable _ _ _ hsw (carried_writable _ _ (r.carried v hc))) hl] at hw
  rw [← Except.ok.inj hw, encode_same (show Same r.relay w' (r.seen v') from h5), r.encode hf]

/-- C82, with C73 and C81: a value goes through any number of programs, each of which may see parts of it only and may have its hash
maps in any order. What comes out is the value, up to the order of its hash maps. -/
theorem C82_relayed (t : Ty) (ht : t.WF) (m m' : Mode) (μ : Mem) (v : t.El) (hc : Carried t v) (hlen : (encode t v).length < 2 ^ 32)
    {bytes b : Bytes} (hb : t.dict.toBytesFrom m μ v = .ok bytes) (h : Relayed t bytes b) :
    ∃ v', t.dict.deserialize m' b = .ok (v', []) ∧ Shuffle t v v' ∧ t.eq v' v = true := by
  have key : ∀ {b₀ b : Bytes}, Relayed t b₀ b → ∀ v₀, Shuffle t v v₀ → b₀ = encode t v₀ → ∃ v', Shuffle t v v' ∧ b = encode t v' := by
    intro b₀ b h
    induction h with
    | here b => exact fun v₀ h he => ⟨v₀, h, he⟩
    | hop r hsrc hf hr hd hs hw next ih =>
      intro v₀ h he
      subst he
      subst hsrc
      obtain ⟨v₁, h1, h2⟩ := relay_reorders r hf hr _ _ _ v₀ (shuffle_carried _ _ _ h hc) (by rw [← shuffle_length _ _ _ h]; exact hlen) hd hs hw
      exact ih v₁ (shuffle_trans _ _ _ _ h h1) h2
  rw [toBytes_eq t ht m μ v (carried_writable t v hc) hlen] at hb
  obtain ⟨v₁, h1, h2⟩ := key h v (shuffle_refl t v) (Except.ok.inj hb).symm
  obtain ⟨bytes', u, g1, g2, g3⟩ := C82_roundtrip t ht m m' μ v v₁ hc h1 hlen
  rw [toBytes_eq t ht m μ v₁ (carried_writable t v₁ (shuffle_carried _ _ _ h1 hc)) (by rw [← shuffle_length _ _ _ h1]; exact hlen)] at g1
  rw [h2, Except.ok.inj g1]
  exact ⟨u, g2, g3 u (shuffle_refl t u)⟩

/-! ## Replicas -/

theorem replayStep_kin (m : Mode) (t : Ty) (v w : t.El) (bs : Bytes) (h : Kin t v w) :
    ModeRes m m (Kin t) (replayStep t.dict m v bs) (replayStep t.dict m w bs) := by
  unfold replayStep
  cases logEntryTy.dict.deserializeNested m logEntryTy.dict.wire bs with
  | error e => exact .err h
  | ok x =>
    obtain ⟨x, rest⟩ := x
    dsimp only
    unfold applyEntry
    rcases blind_cases ((kinTy t).handle (m := m) (m' := m) (.inl rfl) (Entry.ofEl x).unpack.2.1 (Entry.ofEl x).unpack.1 (Entry.ofEl x).unpack.2.2.1
        ((Entry.ofEl x).unpack.2.2.2.getD []) h) with ⟨a, b, r, h1, h2, h3⟩ | ⟨a, b, e, h1, h2, h3⟩ | ⟨hm, a, h1⟩
    · simp only [h1, h2]; exact .ok h3
    · simp only [h1, h2]; exact .err h3
    · exact absurd rfl hm

theorem replay_kin (m : Mode) (t : Ty) (hs : t.isState = true) {rt rt' : Rt} (hrt : rt.path = rt'.path) {v w : t.El}
    (hv : At t rt v) (hw : At t rt' w) (h : Kin t v w) (bs : Bytes) : SameRes (Kin t) (replay t.dict m v bs) (replay t.dict m w bs) := by
  have hroot : t.dict.isRoot v = t.dict.isRoot w := by
    rw [isRoot_at t hs rt v hv, isRoot_at t hs rt' w hw]
    unfold Rt.isRoot
    rw [hrt]
  unfold replay
  rw [← hroot]
  cases t.dict.isRoot v with
  | error e => exact ⟨h, rfl⟩
  | ok b =>
    cases b with
    | false => exact ⟨h, rfl⟩
    | true =>
      rcases untilEof_blind (fun v w bs h => replayStep_kin m t v w bs h) bs.length bs h with h | ⟨hm, _⟩
      · exact h
      · exact absurd rfl hm

theorem stay_kin (t : Ty) (ht : t.WF) (hs : t.isState = true) (m : Mode) (id id' : Nat) : ∀ (messages : List Bytes) (v w : t.El),
    At t ⟨id, []⟩ v → At t ⟨id', []⟩ w → Kin t v w →
    (replayEach t.dict m v messages).2 = (replayEach t.dict m w messages).2 ∧ Kin t (replayEach t.dict m v messages).1 (replayEach t.dict m w messages).1
  | [], _, _, _, _, h => ⟨rfl, h⟩
  | bs :: messages, v, w, hv, hw, h => by
    have h1 := replay_kin m t hs (rt := ⟨id, []⟩) (rt' := ⟨id', []⟩) rfl hv hw h bs
    have hv' := replay_at t ht hs m ⟨id, []⟩ hv bs
    have hw' := replay_at t ht hs m ⟨id', []⟩ hw bs
    simp only [replayEach]
    cases hx : replay t.dict m v bs <;> cases hy : replay t.dict m w bs <;> rw [hx, hy] at h1 <;> rw [hx] at hv' <;> rw [hy] at hw' <;>
      first | exact h1.elim | skip
    · have ih := stay_kin t ht hs m id id' messages _ _ hv' hw' h1.1
      exact ⟨by simp only [ih.1], ih.2⟩
    · have ih := stay_kin t ht hs m id id' messages _ _ hv' hw' h1.1
      exact ⟨by simp only [ih.1, show _ = _ from h1.2], ih.2⟩

/-- C82, with C80: two replicas with the same data but their hash maps in different orders are sent the same messages, any number of
them, whatever they are. They report the same, message by message, and hold the same data in the end, up to the order. -/
theorem C82_stay (t : Ty) (ht : t.WF) (hs : t.isState = true) (m : Mode) (id id' : Nat) (messages : List Bytes) (v w : t.El)
    (hv : At t ⟨id, []⟩ v) (hw : At t ⟨id', []⟩ w) (hk : Keyed t v) (h : Shuffle t v w) :
    (replayEach t.dict m v messages).2 = (replayEach t.dict m w messages).2 ∧
      Shuffle t (replayEach t.dict m v messages).1 (replayEach t.dict m w messages).1 := by
  obtain ⟨h1, h2⟩ := stay_kin t ht hs m id id' messages v w hv hw
    (kin_of_shuffle t _ _ v w hv hw hk (shuffle_keyed t v w h hk) h)
  exact ⟨h1, shuffle_of_kin t _ _ h2⟩

/-- A source that makes API calls, each within the side conditions of C24, and whose hash maps may be in another order before and after
any of them. -/
inductive Publishes (t : Ty) (m : Mode) (rt : Rt) : t.El → World → t.El → World → Prop
  | done (v : t.El) (w : World) : Publishes t m rt v w v w
  | reorder {v v₁ v' : t.El} {w w' : World} (h : Shuffle t v v₁) (hv : At t rt v₁) (next : Publishes t m rt v₁ w v' w') :
    Publishes t m rt v w v' w'
  | call {v v₁ v' : t.El} {w w₁ w' : World} (op : t.Op) (ha : OpAddr t op v) (ho : OpSync t op v) (h : t.run m op v w = (.ok v₁, w₁))
    (next : Publishes t m rt v₁ w₁ v' w') : Publishes t m rt v w v' w'

theorem applies_kin {t : Ty} {m : Mode} : ∀ {es : List Entry} {v u r : t.El}, Kin t v r → Applies (t.dict.handle m) v es u →
    ∃ r', Applies (t.dict.handle m) r es r' ∧ Kin t u r'
  | [], v, u, r, h, ha => by cases ha; exact ⟨r, rfl, h⟩
  | e :: es, v, u, r, h, ⟨x, rest, h1, h2⟩ => by
    replace h1 : t.dict.handle m v e.unpack.2.1 e.unpack.1 e.unpack.2.2.1 (e.unpack.2.2.2.getD []) = .ok x rest := h1
    rcases blind_cases ((kinTy t).handle (m := m) (m' := m) (.inl rfl) e.unpack.2.1 e.unpack.1 e.unpack.2.2.1 (e.unpack.2.2.2.getD []) h) with
      ⟨a, b, rr, g1, g2, g3⟩ | ⟨a, b, e', g1, g2, g3⟩ | ⟨hm, _⟩
    · rw [g1] at h1
      cases h1
      obtain ⟨r', h3, h4⟩ := applies_kin g3 h2
      exact ⟨r', ⟨b, _, g2, h3⟩, h4⟩
    · rw [g1] at h1
      cases h1
    · exact absurd rfl hm

theorem publishes_sync (t : Ty) (ht : t.WF) (m : Mode) (rt : Rt) {v v' : t.El} {w w' : World} (h : Publishes t m rt v w v' w') :
    At t rt v → Carried t v → At t rt v' ∧ Carried t v' ∧ ∃ es, Logged rt w w' es ∧
      ∀ m' r rt', At t rt' r → Shuffle t v r → ∃ r', Applies (t.dict.handle m') r es r' ∧ Shuffle t v' r' := by
  induction h with
  | done v w => exact fun hv hc => ⟨hv, hc, [], .refl rfl, fun _ r _ _ h => ⟨r, rfl, h⟩⟩
  | @reorder v v₁ v' w w' h hv₁ next ih =>
    intro hv hc
    obtain ⟨h1, h2, es, h3, h4⟩ := ih hv₁ (shuffle_carried t _ _ h hc)
    exact ⟨h1, h2, es, h3, fun m' r rt' hr hs => h4 m' r rt' hr (shuffle_trans t _ _ _ (shuffle_symm t _ _ h) hs)⟩
  | @call v v₁ v' w w₁ w' op ha ho h next ih =>
    intro hv hc
    have hst := isState_of_op t op
    obtain ⟨v1, w1, es1, g1, hc1, hl1, hf1⟩ := syncs t ht m op v rt w hv hc ha ho
    cases h.symm.trans g1
    have hv1 := at_run t ht m op v rt w _ _ hv ha h
    obtain ⟨h1, h2, es, h3, h4⟩ := ih hv1 hc1
    refine ⟨h1, h2, es1 ++ es, hl1.trans h3, fun m' r rt' hr hs => ?_⟩
    obtain ⟨u, hu1, hu2⟩ := hf1 m' v rt hv rfl
    have hk := keyed_of_carried t v hc
    obtain ⟨r1, hr1, hr2⟩ := applies_kin (kin_of_shuffle t rt rt' v r hv hr hk (shuffle_keyed t v r hs hk) hs) hu1
    obtain ⟨r2, hr3, hr4⟩ := h4 m' r1 rt' (applies_at ht hst hr hr1)
      (shuffle_trans t _ _ _ (shuffle_symm t _ _ (shuffle_of_same t u _ hu2)) (shuffle_of_kin t _ _ hr2))
    exact ⟨r2, hr1.trans hr3, hr4⟩

/-- C82, with C24: a source and a replica with the same data, their hash maps in whatever order. The source makes any number of API calls
of any kind, and its hash maps may come to be in another order at any time. Replaying its log succeeds and makes the replica equal to the
source again. -/
theorem C82_replica_follows (t : Ty) (ht : t.WF) (hs : t.isState = true) (hp : shape t ≠ .prim)
    (hb : ¬ (shape t = .enum ∧ isBox t = true)) (m m' : Mode) (μ : Nat → Mem) (id id' : Nat) (v v' r : t.El)
    (w w' : World) (hv : At t ⟨id, []⟩ v) (hc : Carried t v) (hr : At t ⟨id', []⟩ r) (hsame : Shuffle t v r)
    (hw : w.loggers id = ⟨0, []⟩) (h : Publishes t m ⟨id, []⟩ v w v' w') (hfit : ∀ e ∈ (w'.loggers id).entries, Fits e) :
    ∃ bytes r', (BufferLogger.mk (w'.loggers id).entries).bytes m μ = .ok bytes ∧ replay t.dict m' r bytes = .ok r' [] ∧
      Shuffle t v' r' ∧ t.eq r' v' = true ∧ At t ⟨id', []⟩ r' := by
  obtain ⟨hv', hc', es, hl, hf⟩ := publishes_sync t ht m ⟨id, []⟩ h hv hc
  have hlog : w'.loggers id = ⟨0, es⟩ := by
    have := hl
    unfold Logged at this
    rw [map_under_nil, hw] at this
    simpa [appended] using this
  rw [hlog] at hfit ⊢
  obtain ⟨r', ha, hsr⟩ := hf m' r ⟨id', []⟩ hr hsame
  have hroot := (C31_accepted_at_root t hs hp hb m' ⟨id', []⟩ r hr rfl []).1
  have hrep := replay_eq t.dict m' r es hfit hroot
  rw [applyAll_of_applies ha] at hrep
  have hk := keyed_of_carried t v' hc'
  exact ⟨_, r', bytes_eq m μ ⟨es⟩ hfit, hrep, hsr, C82_equal t r' v' (shuffle_keyed t v' r' hsr hk) (shuffle_symm t _ _ hsr),
    applies_at ht hs hr ha⟩

/-! ## A case -/

/-- A state with a `HashMap` in it, which no entry can address (`#[steit(no_state)]`). -/
def exShelf : Ty := .struct true false (.cons 1#32 { noState := true } exOrder .nil)

/-- A list of them. -/
def exShelves : Ty := .list exShelf

/-- A shelf at an address. -/
def shelf (id : Nat) (path : List U32) (es : exOrder.El) : exShelf.El := ⟨⟨id, path⟩, (es, ())⟩

/-- A list with one shelf. -/
def shelves (id : Nat) (es : exOrder.El) : exShelves.El := ⟨⟨id, []⟩, [shelf id [0#32] es]⟩

theorem exShelves_wf : exShelves.WF := by
  refine ⟨rfl, by decide, by decide, by decide, ⟨trivial, trivial⟩, trivial⟩

theorem shelves_at (id : Nat) (es : exOrder.El) : At exShelves ⟨id, []⟩ (shelves id es) := by
  refine ⟨rfl, fun i x hi => ?_⟩
  cases i with
  | zero =>
    cases hi
    exact ⟨fun _ => rfl, ⟨Rt.dflt, fun e _ => ⟨⟨Rt.dflt, trivial⟩, ⟨Rt.dflt, trivial⟩⟩⟩, trivial⟩
  | succ i => cases hi

theorem shelves_carried (id : Nat) {es : exOrder.El} (h : es.Pairwise (fun e e' => Ty.eq (.uint .w8) e.1 e'.1 = false)) :
    Carried exShelves (shelves id es) := by
  intro x hx
  rcases List.mem_singleton.1 hx with rfl
  exact ⟨⟨fun _ _ => ⟨trivial, trivial⟩, h⟩, trivial⟩

theorem shelves_shuffle (id id' : Nat) : Shuffle exShelves (shelves id [(1#8, 5#8), (2#8, 6#8)]) (shelves id' [(2#8, 6#8), (1#8, 5#8)]) :=
  ⟨⟨⟨[(1#8, 5#8), (2#8, 6#8)], ⟨⟨rfl, rfl⟩, ⟨rfl, rfl⟩, trivial⟩, List.Perm.swap _ _ _⟩, trivial⟩, trivial⟩

/-- Not vacuous: the hypotheses of `C82_stay` and `C82_merge` for two lists whose hash maps are in different orders. Both get a message
with the key 1 again, which replaces the value wherever the entry is. -/
example (m : Mode) : exShelves.WF ∧ exShelves.isState = true ∧ At exShelves ⟨4, []⟩ (shelves 4 [(1#8, 5#8), (2#8, 6#8)]) ∧
    At exShelves ⟨9, []⟩ (shelves 9 [(2#8, 6#8), (1#8, 5#8)]) ∧ Keyed exShelves (shelves 4 [(1#8, 5#8), (2#8, 6#8)]) ∧
    Shuffle exShelves (shelves 4 [(1#8, 5#8), (2#8, 6#8)]) (shelves 9 [(2#8, 6#8), (1#8, 5#8)]) ∧
    exOrder.dict.merge m [(1#8, 5#8), (2#8, 6#8)] [1#8, 7#8] = .ok [(1#8, 7#8), (2#8, 6#8)] [] ∧
    exOrder.dict.merge m [(2#8, 6#8), (1#8, 5#8)] [1#8, 7#8] = .ok [(2#8, 6#8), (1#8, 7#8)] [] := by
  refine ⟨exShelves_wf, rfl, shelves_at 4 _, shelves_at 9 _, keyed_of_carried _ _ (shelves_carried 4 (by decide)), shelves_shuffle 4 9, ?_, ?_⟩ <;>
    cases m <;> rfl

/-- What the source pushes. -/
def exPush : exShelves.Op := .push (shelf 0 [] [(3#8, 1#8), (4#8, 2#8)])

/-- Not vacuous: `C82_replica_follows` for a source that comes to have its hash map in another order, pushes another shelf, and has the
replica's order opposite to its own. -/
example (m m' : Mode) (μ : Nat → Mem) : ∃ v' w', Publishes exShelves m ⟨4, []⟩ (shelves 4 [(1#8, 5#8), (2#8, 6#8)]) hWorld v' w' ∧
    v'.items = [shelf 4 [0#32] [(2#8, 6#8), (1#8, 5#8)], shelf 4 [1#32] [(3#8, 1#8), (4#8, 2#8)]] ∧
    ∃ bytes r', (BufferLogger.mk (w'.loggers 4).entries).bytes m μ = .ok bytes ∧
      replay exShelves.dict m' (shelves 9 [(1#8, 5#8), (2#8, 6#8)]) bytes = .ok r' [] ∧ Shuffle exShelves v' r' ∧ exShelves.eq r' v' = true := by
  have hlen : (encode exShelf (shelf 0 [] [(3#8, 1#8), (4#8, 2#8)])).length < 2 ^ 32 := by
    simp only [exShelf, shelf, exOrder, encode, encodeFields, leftOut, framed, wireOf, leb_eq_lebF]
    decide
  have ha : OpAddr exShelves exPush (shelves 4 [(2#8, 6#8), (1#8, 5#8)]) :=
    ⟨⟨0, []⟩, fun _ => rfl, ⟨Rt.dflt, fun e _ => ⟨⟨Rt.dflt, trivial⟩, ⟨Rt.dflt, trivial⟩⟩⟩, trivial⟩
  have ho : OpSync exShelves exPush (shelves 4 [(2#8, 6#8), (1#8, 5#8)]) :=
    ⟨⟨⟨fun _ _ => ⟨trivial, trivial⟩, .cons (fun e he => by rcases List.mem_singleton.1 he with rfl; rfl) (.cons (fun _ he => nomatch he) .nil)⟩, trivial⟩, hlen⟩
  obtain ⟨v', w', es, h1, -, hl, -⟩ := syncs exShelves exShelves_wf m exPush (shelves 4 [(2#8, 6#8), (1#8, 5#8)]) ⟨4, []⟩ hWorld (shelves_at 4 _)
    (shelves_carried 4 (by decide)) ha ho
  have hpub : Publishes exShelves m ⟨4, []⟩ (shelves 4 [(1#8, 5#8), (2#8, 6#8)]) hWorld v' w' :=
    .reorder (shelves_shuffle 4 4) (shelves_at 4 _) (.call exPush ha ho h1 (.done v' w'))
  have hv : (exShelves.run m exPush (shelves 4 [(2#8, 6#8), (1#8, 5#8)]) hWorld).1 =
      .ok ⟨⟨4, []⟩, [shelf 4 [0#32] [(2#8, 6#8), (1#8, 5#8)], shelf 4 [1#32] [(3#8, 1#8), (4#8, 2#8)]]⟩ := by
    cases m <;> rfl
  have hw : ((exShelves.run m exPush (shelves 4 [(2#8, 6#8), (1#8, 5#8)]) hWorld).2.loggers 4).entries =
      [.listPush [] [10#8, 4#8, 3#8, 1#8, 4#8, 2#8]] := by
    cases m <;> decide +kernel
  rw [h1] at hv hw
  have hv' := Except.ok.inj hv
  refine ⟨v', w', hpub, by rw [hv'], ?_⟩
  obtain ⟨bytes, r', g1, g2, g3, g4, -⟩ := C82_replica_follows exShelves exShelves_wf rfl (by decide) (by decide) m m' μ 4 9 _ v'
    (shelves 9 [(1#8, 5#8), (2#8, 6#8)]) hWorld w' (shelves_at 4 _) (shelves_carried 4 (by decide)) (shelves_at 9 _)
    (shuffle_of_same _ _ _ rfl) rfl hpub (by
      rw [show (w'.loggers 4).entries = _ from hw]
      unfold Fits
      decide +kernel)
  exact ⟨bytes, r', g1, g2, g3, g4⟩

/-- Maps of strings, which are opaque to a program in between. -/
def exOrderVeil : Veil := .vec (.hashMap (.uint .w8) (.hide .string))

/-- Not vacuous: `C82_relayed`, through a program that turns the map around. -/
example : Relayed exOrderVeil.src [7#8, 1#8, 1#8, 97#8, 2#8, 2#8, 98#8, 99#8] [7#8, 2#8, 2#8, 98#8, 99#8, 1#8, 1#8, 97#8] := by
  refine .hop exOrderVeil rfl rfl ⟨trivial, trivial⟩ (m := .release) (m' := .release) (μ := fun _ => 0) (rest := [])
    (w := [[(1#8, [97#8]), (2#8, [98#8, 99#8])]]) (w' := [[(2#8, [98#8, 99#8]), (1#8, [97#8])]]) rfl ?_ (by decide +kernel) (.here _)
  exact ⟨⟨_, sameItems_refl (fun _ => ⟨rfl, rfl⟩) _, List.Perm.swap _ _ _⟩, trivial⟩

end Steit
