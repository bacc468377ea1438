import Verif.Lemmas.CutTy
import Verif.Props.CutLog

/-!
# Values cut short: property C65

What `deserialize` makes of the first bytes of a written value: an error, or one of the values in `Remains t · v`
(`Verif/Spec/Cut.lean`), and each of these for some number of bytes. For log entries this says what the one entry that C61 leaves
open is read as.
-/

namespace Steit
open Spec Prog

/-! ## Any value -/

/-- C65, at the root: of the bytes of a written value only the first ones arrive. Reading them is refused with `UnexpectedEof` or
`InvalidData`, or returns what can be left of the value, having read all of them. It never panics. The build modes of writer and
reader and the contents of the size caches are arbitrary. -/
theorem C65_cut_value_remains (t : Ty) (ht : t.WF) (m m' : Mode) (μ : Mem) (v : t.El) (hc : Carried t v)
    (hlen : (encode t v).length < 2 ^ 32) :
    ∃ bytes, t.dict.toBytesFrom m μ v = .ok bytes ∧ ∀ p, p <+: bytes →
      (∃ w, t.dict.deserialize m' p = .ok (w, []) ∧ Remains t w v) ∨
        ∃ e, t.dict.deserialize m' p = .error e ∧ Refused e := by
  refine ⟨_, toBytes_eq t ht m μ v (carried_writable t v hc) hlen, fun p hp => ?_⟩
  have h := decLaw t ht
  have c := cutLaw t ht
  unfold Dict.deserialize
  rw [h.dflt_eq]
  by_cases hne : p = encode t v
  · obtain ⟨w, h1, h2⟩ := h.round m' Rt.dflt v [] hc hlen (fun _ => rfl)
    rw [List.append_nil] at h1
    rw [hne, h1]
    exact .inl ⟨w, rfl, c.whole w v h2⟩
  · rcases c.cut m' Rt.dflt v p hc hlen hp hne with ⟨w, h1, h2⟩ | ⟨w, e, h1, h2⟩
    · rw [h1]; exact .inl ⟨w, rfl, h2⟩
    · rw [h1]; exact .inr ⟨e, rfl, h2⟩

/-- C65, the converse: everything that can be left of a value is read, up to runtimes, from some first part of its bytes, which is
the same part for both build modes of the reader. So `Remains` is exactly what a reader has to be prepared for. -/
theorem C65_all_remains_read (t : Ty) (ht : t.WF) (m : Mode) (μ : Mem) (v w : t.El) (hc : Carried t v)
    (hlen : (encode t v).length < 2 ^ 32) (hr : Remains t w v) :
    ∃ bytes p, t.dict.toBytesFrom m μ v = .ok bytes ∧ p <+: bytes ∧
      ∀ m', ∃ w', t.dict.deserialize m' p = .ok (w', []) ∧ Same t w' w := by
  obtain ⟨p, h1, h2⟩ := (cutLaw t ht).reach v w hc hlen hr
  refine ⟨_, p, toBytes_eq t ht m μ v (carried_writable t v hc) hlen, h1, fun m' => ?_⟩
  obtain ⟨w', h3, h4⟩ := h2 m' Rt.dflt
  refine ⟨w', ?_, h4⟩
  unfold Dict.deserialize
  rw [(decLaw t ht).dflt_eq, h3]

/-- C65 for a value written with its length in front (`serialize_nested` without a field number), where the cut may also fall inside
the length. -/
theorem C65_cut_nested_value_remains (t : Ty) (ht : t.WF) (m m' : Mode) (μ : Mem) (v : t.El) (hc : Carried t v)
    (hlen : (leb (8 * 2 ^ 29) ++ framed 2 (encode t v)).length < 2 ^ 32) :
    ∃ bytes, t.dict.writeNestedFrom m μ v none false = .ok bytes ∧
      (∀ p, p <+: bytes → p ≠ bytes → (∃ w, t.dict.deserializeNested m' t.dict.wire p = .ok (w, []) ∧ Remains t w v) ∨
        ∃ e, t.dict.deserializeNested m' t.dict.wire p = .error e ∧ Refused e) ∧
      ∀ w, Remains t w v → ∃ p, p <+: bytes ∧
        ∀ m'', ∃ w', t.dict.deserializeNested m'' t.dict.wire p = .ok (w', []) ∧ Same t w' w := by
  have hw := writeNested_eq t ht m μ v none false (carried_writable t v hc) (by simp) hlen
  have hl : (framed (wireOf t) (encode t v)).length < 2 ^ 32 := by
    simp only [List.length_append, framed] at hlen ⊢
    split
    · simp only [if_neg (show ¬ (2 : Nat) = 0 by decide), List.length_append] at hlen; omega
    · simp only [if_neg (show ¬ (2 : Nat) = 0 by decide), List.length_append] at hlen
      simp only [List.length_append]; omega
  refine ⟨_, hw, fun p hp hne => (cutLaw t ht).cutDeser (decLaw t ht) m' v p hc hl hp hne, fun w hr => ?_⟩
  obtain ⟨p, h1, _, h2⟩ := (cutLaw t ht).reachDeser (decLaw t ht) v w hc hl hr
  exact ⟨p, h1, h2⟩

/-- The struct `{ #0: Vec<String>, #1: [(u8, String); 2], #2: u32 }`. -/
def cutTy : Ty :=
  .struct false false (.cons 0#32 {} (.vec .string) (.cons 1#32 {} (.array 2 (.tuple (.cons (.uint .w8) (.cons .string .nil))))
    (.cons 2#32 {} (.uint .w32) .nil)))

/-- `{ ["hi", "you"], [(1, "a"), (2, "b")], 7 }`. -/
def cutVal : cutTy.El :=
  ⟨Rt.dflt, [⟨[0x68#8, 0x69#8], rfl⟩, ⟨[0x79#8, 0x6f#8, 0x75#8], rfl⟩],
    ⟨[(1#8, ⟨[0x61#8], rfl⟩, ()), (2#8, ⟨[0x62#8], rfl⟩, ())], rfl⟩, 7#32, ()⟩

/-- Its bytes. -/
def cutBytes : Bytes :=
  [2#8, 7#8, 2#8, 0x68#8, 0x69#8, 3#8, 0x79#8, 0x6f#8, 0x75#8, 10#8, 8#8, 3#8, 1#8, 1#8, 0x61#8, 3#8, 2#8, 1#8, 0x62#8, 16#8, 7#8]

/-- A readable form of a result. -/
def cutShow (r : Except Err (cutTy.El × Bytes)) : Option (List Bytes × List (BitVec 8 × Bytes) × U32 × Bytes) :=
  match r with
  | .ok (v, rest) => some (v.fields.1.map (·.bytes), v.fields.2.1.1.map (fun e => (e.1, e.2.1.bytes)), v.fields.2.2.1, rest)
  | .error _ => none

/-- Not vacuous: a value with all of vectors, arrays, tuples, texts and integers meets the hypotheses. After 7 bytes it reads as
`["hi", "y"]` and nothing else, after 18 bytes the second pair has lost its text, after 16 bytes it is refused. -/
example : cutTy.WF ∧ Carried cutTy cutVal ∧ encode cutTy cutVal = cutBytes ∧
    cutShow (cutTy.dict.deserialize .debug (cutBytes.take 7)) =
      some ([[0x68#8, 0x69#8], [0x79#8]], [(0#8, []), (0#8, [])], 0#32, []) ∧
    cutShow (cutTy.dict.deserialize .debug (cutBytes.take 18)) =
      some ([[0x68#8, 0x69#8], [0x79#8, 0x6f#8, 0x75#8]], [(1#8, [0x61#8]), (2#8, [])], 0#32, []) ∧
    cutShow (cutTy.dict.deserialize .debug (cutBytes.take 16)) = none := by
  refine ⟨?_, ?_, ?_, by decide +kernel, by decide +kernel, by decide +kernel⟩
  · simp [cutTy, Ty.WF, Fields.WF, Tys.WF, Fields.tags, Ty.isState, Tys.length]
  · simp [cutTy, cutVal, Carried, CarriedFields, CarriedTuple]
  · simp only [cutTy, cutVal, encode, encodeFields, encodeTuple, framed, leb_eq_lebF]; decide +kernel

/-- Not vacuous: what is left after 18 bytes is in `Remains`, and a value whose first text is cut although something follows it is
not. -/
example : Remains cutTy ⟨Rt.dflt, cutVal.fields.1,
      ⟨[(1#8, ⟨[0x61#8], rfl⟩, ()), (2#8, ⟨[], rfl⟩, ())], rfl⟩, 0#32, ()⟩ cutVal ∧
    ¬ Remains cutTy ⟨Rt.dflt, [⟨[0x68#8], rfl⟩, ⟨[0x79#8, 0x6f#8, 0x75#8], rfl⟩], cutVal.fields.2.1, 7#32, ()⟩ cutVal := by
  constructor
  · exact .inl ⟨rfl, .inr ⟨.inl (.inl ⟨rfl, .inr ⟨.inl ⟨rfl, ⟨[0x62#8], rfl⟩⟩, fun _ h => nomatch h⟩⟩), rfl, trivial⟩⟩
  · rintro (⟨h, _⟩ | ⟨_, _, h, _⟩)
    · exact absurd (congrArg (List.map (fun s : Str => s.bytes)) h) (by decide +kernel)
    · exact absurd (show (7#32 : U32) = 0 from h) (by decide)

/-! ## Log entries -/

theorem remainsItems_prefix {α : Type} {S R : α → α → Prop} (hS : ∀ a b, S a b ↔ a = b) (hR : ∀ a b, R a b ↔ a = b) :
    ∀ ws xs : List α, RemainsItems S R ws xs ↔ ws <+: xs
  | [], xs => by simp [RemainsItems]
  | _ :: _, [] => by simp [RemainsItems]
  | w :: ws, x :: xs => by
    simp only [RemainsItems, hS, hR, remainsItems_prefix hS hR ws xs, List.cons_prefix_cons]
    constructor
    · rintro (h | ⟨rfl, rfl⟩)
      · exact h
      · exact ⟨rfl, List.nil_prefix⟩
    · exact .inl

theorem remains_path (ws xs : List U32) : Remains (.vec (.uint .w32)) ws xs ↔ ws <+: xs :=
  remainsItems_prefix (fun _ _ => Iff.rfl) (fun _ _ => Iff.rfl) ws xs

theorem same_path (ws xs : List U32) : Same (.vec (.uint .w32)) ws xs ↔ ws = xs := by
  show ws.map id = xs.map id ↔ _
  rw [List.map_id, List.map_id]

/-- What `Remains` says about entries. -/
theorem cutEntry_iff (w : logEntryTy.El) (e : Entry) : Remains logEntryTy w e.toEl ↔ CutEntry (Entry.ofEl w) e := by
  have hb : ∀ a b : Bytes, Same .bytes a b ↔ a = b := fun _ _ => Iff.rfl
  have hu : ∀ a b : U32, Same (.uint .w32) a b ↔ a = b := fun _ _ => Iff.rfl
  have hb' : ∀ a b : Bytes, Remains .bytes a b ↔ a <+: b := fun _ _ => Iff.rfl
  have hu' : ∀ a b : U32, Remains (.uint .w32) a b ↔ a = b := fun _ _ => Iff.rfl
  have h1 : ∀ (p' p : List U32) (v' v : Bytes),
      RemainsFields (.cons 0#32 {} (.vec (.uint .w32)) (.cons 1#32 {} .bytes .nil)) (p', v', ()) (p, v, ()) ↔
        (p' = p ∧ v' <+: v) ∨ (p' <+: p ∧ v' = []) := by
    intro p' p v' v
    simp only [RemainsFields, BlankFields, Blank, same_path, remains_path, hb, hb', and_true]
    constructor
    · rintro (⟨h, h1 | h1 | h1⟩ | ⟨h1 | h1, h2⟩)
      · exact .inl ⟨h, h1 ▸ List.prefix_rfl⟩
      · exact .inl ⟨h, h1⟩
      · exact .inl ⟨h, h1 ▸ List.nil_prefix⟩
      · exact .inr ⟨h1, h2⟩
      · exact .inr ⟨h1 ▸ List.nil_prefix, h2⟩
    · rintro (⟨h1, h2⟩ | ⟨h1, h2⟩)
      · exact .inl ⟨h1, .inr (.inl h2)⟩
      · exact .inr ⟨.inl h1, h2⟩
  have h2 : ∀ p' p : List U32, RemainsFields (.cons 0#32 {} (.vec (.uint .w32)) .nil) (p', ()) (p, ()) ↔ p' <+: p := by
    intro p' p
    simp only [RemainsFields, BlankFields, Blank, same_path, remains_path, and_true]
    constructor
    · rintro (h | h | h)
      · exact h ▸ List.prefix_rfl
      · exact h
      · exact h ▸ List.nil_prefix
    · exact fun h => .inr (.inl h)
  have h3 : ∀ (p' p : List U32) (k' k : U32),
      RemainsFields (.cons 0#32 {} (.vec (.uint .w32)) (.cons 1#32 {} (.uint .w32) .nil)) (p', k', ()) (p, k, ()) ↔
        (p' = p ∧ k' = k) ∨ (p' <+: p ∧ k' = 0) := by
    intro p' p k' k
    simp only [RemainsFields, BlankFields, Blank, same_path, remains_path, hu, hu', and_true]
    constructor
    · rintro (⟨h, h1 | h1 | h1⟩ | ⟨h1 | h1, h2⟩)
      · exact .inl ⟨h, h1⟩
      · exact .inl ⟨h, h1⟩
      · exact .inr ⟨h ▸ List.prefix_rfl, h1⟩
      · exact .inr ⟨h1, h2⟩
      · exact .inr ⟨h1 ▸ List.nil_prefix, h2⟩
    · rintro (⟨h1, h2⟩ | ⟨h1, h2⟩)
      · exact .inl ⟨h1, .inl h2⟩
      · exact .inr ⟨.inl h1, h2⟩
  rcases w with ⟨rt, ⟨p', v', ⟨⟩⟩ | ⟨p', v', ⟨⟩⟩ | ⟨p', ⟨⟩⟩ | ⟨p', k', ⟨⟩⟩ | w⟩
  · cases e with
    | update p v => exact h1 p' p v' v
    | _ => exact Iff.rfl
  · cases e with
    | listPush p v => exact h1 p' p v' v
    | _ => exact Iff.rfl
  · cases e with
    | listPop p => exact h2 p' p
    | _ => exact Iff.rfl
  · cases e with
    | mapRemove p k => exact h3 p' p k' k
    | _ => exact Iff.rfl
  · exact nomatch w

/-- C65 for log entries: an entry cut short is refused or reads as an entry of the same kind with the same path and part of the
payload, or with only the first elements of the path and no payload, and it reads as each of these for some cut. -/
theorem C65_cut_entry (m : Mode) (e : Entry) (hfit : Fits e) :
    (∀ q, q <+: encode logEntryTy e.toEl →
      (∃ e', parseEntry m q = .ok e' ∧ CutEntry e' e) ∨ ∃ err, parseEntry m q = .error err ∧ Refused err) ∧
    ∀ e', CutEntry e' e → ∃ q, q <+: encode logEntryTy e.toEl ∧ parseEntry m q = .ok e' := by
  have hl : (encode logEntryTy e.toEl).length < 2 ^ 32 := by have := entry_small hfit; omega
  have h := decLaw logEntryTy logEntryTy_wf
  have c := cutLaw logEntryTy logEntryTy_wf
  constructor
  · intro q hq
    unfold parseEntry
    rw [h.dflt_eq]
    by_cases hne : q = encode logEntryTy e.toEl
    · obtain ⟨w, h1, h2⟩ := h.round m Rt.dflt e.toEl [] (carried_toEl e) hl (fun _ => rfl)
      rw [List.append_nil] at h1
      rw [hne, h1]
      exact .inl ⟨_, rfl, (cutEntry_iff w e).1 (c.whole w _ h2)⟩
    · rcases c.cut m Rt.dflt e.toEl q (carried_toEl e) hl hq hne with ⟨w, h1, h2⟩ | ⟨w, err, h1, h2⟩
      · rw [h1]; exact .inl ⟨_, rfl, (cutEntry_iff w e).1 h2⟩
      · rw [h1]; exact .inr ⟨err, rfl, h2⟩
  · intro e' he
    have he' : Entry.ofEl e'.toEl = e' := by cases e' <;> rfl
    obtain ⟨p, h1, h2⟩ := c.reach e.toEl e'.toEl (carried_toEl e) hl ((cutEntry_iff _ e).2 (by rw [he']; exact he))
    obtain ⟨w, h3, h4⟩ := h2 m Rt.dflt
    refine ⟨p, h1, ?_⟩
    unfold parseEntry
    rw [h.dflt_eq, h3]
    simp only [ofEl_of_same h4]

/-- What is left of an entry is within the size limit. -/
theorem cutEntry_fits {e e' : Entry} (h : CutEntry e' e) (hfit : Fits e) : Fits e' := by
  have hpre : ∀ {p' p : List U32} {v' v : Bytes}, (p' = p ∧ v' <+: v) ∨ (p' <+: p ∧ v' = []) →
      p'.length ≤ p.length ∧ v'.length ≤ v.length := by
    rintro p' p v' v (⟨rfl, h⟩ | ⟨h, rfl⟩)
    · exact ⟨Nat.le_refl _, h.length_le⟩
    · exact ⟨h.length_le, Nat.zero_le _⟩
  unfold Fits at hfit ⊢
  cases e <;> cases e' <;> simp only [CutEntry] at h
  · have := hpre h; simp only [address, payload] at hfit ⊢; omega
  · have := hpre h; simp only [address, payload] at hfit ⊢; omega
  · have := h.length_le; simp only [address, payload] at hfit ⊢; omega
  · rcases h with ⟨h, _⟩ | ⟨h, _⟩
    · rw [h]; exact hfit
    · have := h.length_le; simp only [address, payload] at hfit ⊢; omega

theorem parseEntry_encode (m : Mode) {e : Entry} (hfit : Fits e) : parseEntry m (encode logEntryTy e.toEl) = .ok e := by
  have hl : (encode logEntryTy e.toEl).length < 2 ^ 32 := by have := entry_small hfit; omega
  have h := decLaw logEntryTy logEntryTy_wf
  obtain ⟨w, h1, h2⟩ := h.round m Rt.dflt e.toEl [] (carried_toEl e) hl (fun _ => rfl)
  rw [List.append_nil] at h1
  unfold parseEntry
  rw [h.dflt_eq, h1]
  simp only [ofEl_of_same h2]

theorem replay_chunks (t : Ty) (hs : t.isState = true) (hp : shape t ≠ .prim) (hb : ¬ (shape t = .enum ∧ isBox t = true))
    (m : Mode) (id : Nat) (r : t.El) (hr : At t ⟨id, []⟩ r) (ps : List Bytes) (hl : ∀ p ∈ ps, p.length < 2 ^ 64) :
    replay t.dict m r (chunks ps) = outcome (applyChunks t.dict m r ps) := by
  rw [(C31_accepted_at_root t hs hp hb m ⟨id, []⟩ r hr rfl (chunks ps)).2]
  exact chunkLoop_eq _ _ _ _ _ hl (Nat.le_refl _)

/-- C65 for whole logs: only the first `n` bytes of the log with entries `es` arrive. With `k` the number of whole entries among them
and `r1` the replica after these, replaying what has arrived gives `r1`, or reports an error and leaves `r1`, or does what replaying
the `k` entries and one more does, which is what can be left of the next entry of the log. This is what C61 leaves open. -/
theorem C65_cut_log (t : Ty) (hs : t.isState = true) (hp : shape t ≠ .prim)
    (hb : ¬ (shape t = .enum ∧ isBox t = true)) (m m' : Mode) (μ : Nat → Mem) (id : Nat) (r : t.El) (hr : At t ⟨id, []⟩ r)
    (es : List Entry) (hfit : ∀ e ∈ es, Fits e) (n : Nat) :
    ∃ bytes, (BufferLogger.mk es).bytes m μ = .ok bytes ∧ ∃ k ≤ es.length, ∃ whole,
      (BufferLogger.mk (es.take k)).bytes m μ = .ok whole ∧ whole <+: bytes.take n ∧
      ∀ r1, replay t.dict m' r whole = .ok r1 [] →
        (bytes.take n = whole ∧ replay t.dict m' r (bytes.take n) = .ok r1 []) ∨
        (∃ err, replay t.dict m' r (bytes.take n) = .err r1 err ∧ Refused err) ∨
        ∃ e e' more, es[k]? = some e ∧ CutEntry e' e ∧ (BufferLogger.mk (es.take k ++ [e'])).bytes m μ = .ok more ∧
          replay t.dict m' r (bytes.take n) = replay t.dict m' r more := by
  have hl : ∀ p ∈ es.map (fun e => encode logEntryTy e.toEl), p.length < 2 ^ 64 := by
    intro p hp
    obtain ⟨e, he, rfl⟩ := List.mem_map.1 hp
    have := entry_small (hfit e he)
    omega
  have hfk : ∀ k, ∀ e ∈ es.take k, Fits e := fun k e he => hfit e (List.mem_of_mem_take he)
  refine ⟨_, bytes_eq m μ ⟨es⟩ hfit, ?_⟩
  obtain ⟨k, hk, hpre, hcut⟩ := C61_at_most_one_entry_misread t hs hp hb m' id r hr _ hl n
  rw [List.length_map] at hk
  rw [← List.map_take, ← flatMap_chunks, ← flatMap_chunks] at hpre hcut
  refine ⟨k, hk, _, bytes_eq m μ ⟨es.take k⟩ (hfk k), hpre, fun r1 h1 => ?_⟩
  rcases hcut r1 h1 with h | h | ⟨p, q, h2, h3, h4, h5, h6, h7⟩
  · exact .inl h
  · exact .inr (.inl ⟨_, h, .inl rfl⟩)
  rw [List.getElem?_map, Option.map_eq_some_iff] at h2
  obtain ⟨e, h2, rfl⟩ := h2
  have hfe := hfit e (List.mem_of_getElem? h2)
  have hlk : ∀ p ∈ (es.take k).map (fun e => encode logEntryTy e.toEl), p.length < 2 ^ 64 := fun p hp => by
    rw [List.map_take] at hp; exact hl p (List.mem_of_mem_take hp)
  have hsmall : ∀ x : Bytes, x.length < 2 ^ 64 → ∀ p ∈ (es.take k).map (fun e => encode logEntryTy e.toEl) ++ [x], p.length < 2 ^ 64 := by
    intro x hx p hp
    rcases List.mem_append.1 hp with hp | hp
    · exact hlk p hp
    · cases List.mem_singleton.1 hp; exact hx
  have hql : q.length < 2 ^ 64 := by have := entry_small hfe; have := h3.length_le; omega
  have hap : applyChunks t.dict m' r ((es.take k).map (fun e => encode logEntryTy e.toEl)) = .ok r1 := by
    rw [flatMap_chunks, replay_chunks t hs hp hb m' id r hr _ hlk] at h1
    cases h : applyChunks t.dict m' r ((es.take k).map (fun e => encode logEntryTy e.toEl)) with
    | ok x => rw [h] at h1; cases h1; rfl
    | error x => rw [h] at h1; cases h1
  rw [replay_chunks t hs hp hb m' id r hr _ (hsmall q hql), applyChunks_append, hap] at h7
  right
  rcases (C65_cut_entry m' e hfe).1 q h3 with ⟨e', h8, h9⟩ | ⟨err, h8, h9⟩
  · right
    have hfe' := cutEntry_fits h9 hfe
    have hfits : ∀ x ∈ es.take k ++ [e'], Fits x := by
      intro x hx
      rcases List.mem_append.1 hx with hx | hx
      · exact hfk k x hx
      · cases List.mem_singleton.1 hx; exact hfe'
    refine ⟨e, e', _, h2, h9, bytes_eq m μ ⟨_⟩ hfits, ?_⟩
    rw [flatMap_chunks (es.take k ++ [e']), List.map_append, List.map_cons, List.map_nil,
      replay_chunks t hs hp hb m' id r hr _ (hsmall _ (by have := entry_small hfe'; omega)), applyChunks_append, hap, h7]
    simp only [applyChunks, h8, parseEntry_encode m' hfe']
  · left
    refine ⟨err, ?_, h9⟩
    rw [h7]
    simp only [applyChunks, h8, outcome]

/-- Not vacuous: the entry of `C61_cut_update_misread_false`, which an update of `[2, 1, 5]` to the bytes 1, 2 logs, and two of the
entries it is misread as. -/
example : Fits (.update [2#32, 1#32, 5#32] [1#8, 2#8]) ∧
    CutEntry (.update [2#32, 1#32] []) (.update [2#32, 1#32, 5#32] [1#8, 2#8]) ∧
    CutEntry (.update [2#32, 1#32, 5#32] [1#8]) (.update [2#32, 1#32, 5#32] [1#8, 2#8]) ∧
    ¬ CutEntry (.update [2#32, 1#32] [1#8]) (.update [2#32, 1#32, 5#32] [1#8, 2#8]) ∧
    parseEntry .debug [0#8, 2#8, 3#8, 2#8, 1#8] = .ok (.update [2#32, 1#32] []) := by
  refine ⟨by unfold Fits; decide +kernel, .inr ⟨⟨[5#32], rfl⟩, rfl⟩, .inl ⟨rfl, ⟨[2#8], rfl⟩⟩, ?_, by decide +kernel⟩
  rintro (⟨h, _⟩ | ⟨_, h⟩)
  · exact absurd h (by decide)
  · exact absurd h (by decide)

end Steit
