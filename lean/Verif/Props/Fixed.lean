import Verif.Props.Robust
import Verif.Lemmas.Boundary

/-! # Arrays and tuples: property C22 -/

namespace Steit
open Spec

/-- The bytes `c` are one item with value `x`: whatever follows, reading an item yields `x` and leaves what follows. -/
def ReadsAs {α : Type} (d : Dict α) (m : Mode) (c : Bytes) (x : α) : Prop :=
  c ≠ [] ∧ ∀ rest, d.deserializeNested m d.wire (c ++ rest) = .ok (x, rest)

/-- `cs` are items with values `xs`. -/
def ItemsAre {α : Type} (d : Dict α) (m : Mode) (cs : List Bytes) (xs : List α) : Prop :=
  cs.length = xs.length ∧ ∀ e ∈ cs.zip xs, ReadsAs d m e.1 e.2

theorem itemsAre_cons {α : Type} {d : Dict α} {m : Mode} {c : Bytes} {x : α} {cs : List Bytes} {xs : List α} :
    ItemsAre d m (c :: cs) (x :: xs) ↔ ReadsAs d m c x ∧ ItemsAre d m cs xs := by
  constructor
  · rintro ⟨h1, h2⟩
    exact ⟨h2 (c, x) (by simp), by simpa using h1, fun e he => h2 e (by simp [he])⟩
  · rintro ⟨h1, h2, h3⟩
    refine ⟨by simp [h2], ?_⟩
    intro e he
    simp only [List.zip_cons_cons, List.mem_cons] at he
    rcases he with rfl | he
    · exact h1
    · exact h3 e he

theorem arrayLoop_short {α : Type} (d : Dict α) (m : Mode) (cs : List Bytes) (xs : List α) (h : ItemsAre d m cs xs)
    (done todo : List α) (hl : cs.length ≤ todo.length) :
    ∃ ys, arrayLoop d m done todo cs.flatten = .ok ys [] ∧ ys.1 = done ++ xs ++ todo.drop cs.length := by
  induction cs generalizing xs done todo with
  | nil =>
    cases xs with
    | nil =>
      cases todo with
      | nil => exact ⟨_, rfl, by simp⟩
      | cons t todo => exact ⟨_, rfl, by simp⟩
    | cons x xs => cases h.1
  | cons c cs ih =>
    cases xs with
    | nil => cases h.1
    | cons x xs =>
      cases todo with
      | nil => cases hl
      | cons t todo =>
        obtain ⟨h1, h2⟩ := itemsAre_cons.1 h
        obtain ⟨ys, g1, g2⟩ := ih xs h2 (done ++ [x]) todo (by simpa using hl)
        cases c with
        | nil => exact absurd rfl h1.1
        | cons b c =>
          have := h1.2 cs.flatten
          simp only [List.flatten_cons, List.cons_append] at this ⊢
          simp only [arrayLoop, this, g1, Res.map]
          exact ⟨_, rfl, by simp [g2]⟩

theorem arrayLoop_long {α : Type} (d : Dict α) (m : Mode) (cs : List Bytes) (xs : List α) (h : ItemsAre d m cs xs)
    (surplus : Bytes) (done todo : List α) (hl : cs.length = todo.length) :
    ∃ ys, arrayLoop d m done todo (cs.flatten ++ surplus) = .ok ys surplus ∧ ys.1 = done ++ xs := by
  induction cs generalizing xs done todo with
  | nil =>
    cases xs with
    | nil =>
      cases todo with
      | nil => exact ⟨_, rfl, by simp⟩
      | cons t todo => cases hl
    | cons x xs => cases h.1
  | cons c cs ih =>
    cases xs with
    | nil => cases h.1
    | cons x xs =>
      cases todo with
      | nil => cases hl
      | cons t todo =>
        obtain ⟨h1, h2⟩ := itemsAre_cons.1 h
        obtain ⟨ys, g1, g2⟩ := ih xs h2 (done ++ [x]) todo (by simpa using hl)
        cases c with
        | nil => exact absurd rfl h1.1
        | cons b c =>
          have := h1.2 (cs.flatten ++ surplus)
          simp only [List.flatten_cons, List.cons_append, List.append_assoc] at this ⊢
          simp only [arrayLoop, this, g1, Res.map]
          exact ⟨_, rfl, by simp [g2]⟩

/-- C22, short payloads: `k ≤ n` items overwrite the first `k` elements, the others keep the values they had. -/
theorem C22_array_short (n : Nat) (t : Ty) (m : Mode) (old : ArrayV t.El n) (cs : List Bytes) (xs : List t.El)
    (h : ItemsAre t.dict m cs xs) (hl : cs.length ≤ n) :
    ∃ new, (Ty.array n t).dict.merge m old cs.flatten = .ok new [] ∧ new.1 = xs ++ old.1.drop cs.length := by
  obtain ⟨ys, h1, h2⟩ := arrayLoop_short t.dict m cs xs h [] old.1 (by rw [old.2]; exact hl)
  refine ⟨⟨xs ++ old.1.drop cs.length, by simp [old.2, ← h.1]; omega⟩, ?_, rfl⟩
  simp only [Ty.dict, arrayDict, plainDict]
  rw [h1]
  simp only [Res.map, Res.ok.injEq, and_true]
  exact Subtype.ext (by simpa using h2)

/-- C22, full or surplus payloads: `n` items and any further bytes, garbage included, replace all elements; the further
bytes are consumed and have no effect. -/
theorem C22_array_long (n : Nat) (t : Ty) (m : Mode) (old : ArrayV t.El n) (cs : List Bytes) (xs : List t.El)
    (surplus : Bytes) (h : ItemsAre t.dict m cs xs) (hl : cs.length = n) :
    ∃ new, (Ty.array n t).dict.merge m old (cs.flatten ++ surplus) = .ok new [] ∧ new.1 = xs := by
  obtain ⟨ys, h1, h2⟩ := arrayLoop_long t.dict m cs xs h surplus [] old.1 (by rw [old.2]; exact hl)
  refine ⟨⟨xs, by rw [← h.1, hl]⟩, ?_, rfl⟩
  simp only [Ty.dict, arrayDict, plainDict]
  rw [h1]
  simp only [Res.map, Res.ok.injEq, and_true]
  exact Subtype.ext (by simpa using h2)

/-- Items written by the library are items in this sense: their bytes read as a value equal to the written one. -/
theorem C22_written_items (t : Ty) (ht : t.WF) (m m' : Mode) (μ : Prog.Mem) (v : t.El) (hc : Carried t v)
    (hlen : (encode t v).length + 10 < 2 ^ 32) :
    ∃ c x, t.dict.writeNestedFrom m μ v none false = .ok c ∧ ReadsAs t.dict m' c x ∧ Same t x v := by
  have hl : (framed (wireOf t) (encode t v)).length < 2 ^ 32 := by
    have h5 := leb_length_le 4 (encode t v).length (by omega)
    unfold framed; split
    · omega
    · simp only [List.length_append]; omega
  have hl2 : (leb (8 * 2 ^ 29) ++ framed 2 (encode t v)).length < 2 ^ 32 := by
    have h5 := leb_length_le 4 (encode t v).length (by omega)
    have h4 := leb_length_le 4 (8 * 2 ^ 29) (by decide)
    simp only [framed, if_neg (show ¬ (2 : Nat) = 0 by decide), List.length_append]; omega
  have hc' := framed_chunk t v (by omega)
  rw [← dict_wire] at hc'
  obtain ⟨x, h2, h3⟩ := (decLaw t ht).deserNested m' v [] hc hl
  refine ⟨_, x, writeNested_eq t ht m μ v none false (carried_writable t v hc) (by simp) hl2,
    ⟨(decLaw t ht).framed_ne v, ?_⟩, h3⟩
  rcases deser_chunk (anyLaw t ht) m' _ hc' with ⟨y, hy⟩ | ⟨e, hy⟩
  · rw [hy] at h2
    cases h2
    exact hy
  · rw [hy] at h2
    cases h2

/-! ### Tuples -/

/-- `cs` are items with the values of the components of a tuple. -/
def TupleItems : (ts : Tys) → Mode → List Bytes → ts.El → Prop
  | .nil, _, cs, _ => cs = []
  | .cons t ts, m, cs, v => ∃ c cs', cs = c :: cs' ∧ ReadsAs t.dict m c v.1 ∧ TupleItems ts m cs' v.2

/-- `cs` are items for the first components of a tuple only. -/
def TupleItemsShort : (ts : Tys) → Mode → List Bytes → Prop
  | .nil, _, _ => False
  | .cons t ts, m, cs => cs = [] ∨ ∃ c cs' x, cs = c :: cs' ∧ ReadsAs t.dict m c x ∧ TupleItemsShort ts m cs'

theorem tupleRead_items : (ts : Tys) → (m : Mode) → (cs : List Bytes) → (v : ts.El) → TupleItems ts m cs v →
    (surplus : Bytes) → ts.dict.read m (cs.flatten ++ surplus) = .ok (v, surplus)
  | .nil, _, _, _, h, surplus => by cases h; rfl
  | .cons t ts, m, cs, v, h, surplus => by
    obtain ⟨c, cs', rfl, h1, h2⟩ := h
    have h3 := h1.2 (cs'.flatten ++ surplus)
    have h4 := tupleRead_items ts m cs' v.2 h2 surplus
    simp only [Tys.dict, tupleCons, List.flatten_cons, List.append_assoc, h3, h4]

theorem sized_nil {α : Type} (d : Dict α) (m : Mode) (hw : d.wire = .sized) :
    d.deserializeNested m d.wire [] = .error .unexpectedEof := by
  unfold Dict.deserializeNested Dict.mergeNested
  simp only [ne_eq, not_true_eq_false, if_false, hw, withNested]
  have : getVarint m 64 [] = .error .unexpectedEof := by cases m <;> rfl
  rw [this]

theorem deser_nil (m : Mode) : (t : Ty) → t.dict.deserializeNested m t.dict.wire [] = .error .unexpectedEof
  | .uint w => by cases m <;> cases w <;> rfl
  | .sint w => by cases m <;> cases w <;> rfl
  | .bool => rfl
  | .box t => deser_nil m t
  | .string => sized_nil _ m rfl
  | .bytes => sized_nil _ m rfl
  | .vec _ => sized_nil _ m rfl
  | .array _ _ => sized_nil _ m rfl
  | .tuple _ => sized_nil _ m rfl
  | .option _ => sized_nil _ m rfl
  | .hashMap _ _ => sized_nil _ m rfl
  | .list _ => sized_nil _ m rfl
  | .map _ _ => sized_nil _ m rfl
  | .struct ds _ _ => sized_nil _ m (by cases ds <;> rfl)
  | .enum ds _ _ _ => sized_nil _ m (by cases ds <;> rfl)

theorem tupleRead_short : (ts : Tys) → (m : Mode) → (cs : List Bytes) → TupleItemsShort ts m cs →
    ts.dict.read m cs.flatten = .error .unexpectedEof
  | .nil, _, _, h => nomatch h
  | .cons t ts, m, cs, h => by
    rcases h with rfl | ⟨c, cs', x, rfl, h1, h2⟩
    · simp only [Tys.dict, tupleCons, List.flatten_nil, deser_nil m t]
    · have h3 := h1.2 cs'.flatten
      have h4 := tupleRead_short ts m cs' h2
      simp only [Tys.dict, tupleCons, List.flatten_cons, h3, h4]

/-- C22, tuples: with an item for every component all components are replaced; further bytes are consumed and ignored. -/
theorem C22_tuple_full (ts : Tys) (m : Mode) (old : ts.El) (cs : List Bytes) (v : ts.El) (h : TupleItems ts m cs v)
    (surplus : Bytes) : (Ty.tuple ts).dict.merge m old (cs.flatten ++ surplus) = .ok v [] := by
  simp only [Ty.dict, tupleDict, plainDict, tupleRead_items ts m cs v h surplus]

/-- C22, tuples need all their items: with fewer the result is an `UnexpectedEof` error and the target is unchanged. -/
theorem C22_tuple_short (ts : Tys) (m : Mode) (old : ts.El) (cs : List Bytes) (h : TupleItemsShort ts m cs) :
    (Ty.tuple ts).dict.merge m old cs.flatten = .err old .unexpectedEof := by
  simp only [Ty.dict, tupleDict, plainDict, tupleRead_short ts m cs h]

/-- An array decoded from scratch has the default in the places not given. -/
theorem C22_array_from_scratch (n : Nat) (t : Ty) (m : Mode) (cs : List Bytes) (xs : List t.El)
    (h : ItemsAre t.dict m cs xs) (hl : cs.length ≤ n) :
    ∃ new, (Ty.array n t).dict.deserialize m cs.flatten = .ok (new, []) ∧
      new.1 = xs ++ List.replicate (n - cs.length) t.dict.dflt := by
  obtain ⟨new, h1, h2⟩ := C22_array_short n t m (Ty.array n t).dict.dflt cs xs h hl
  refine ⟨new, ?_, ?_⟩
  · unfold Dict.deserialize; rw [h1]
  · rw [h2]
    show xs ++ (List.replicate n t.dict.dflt).drop cs.length = _
    rw [List.drop_replicate]

/-- Not vacuous: two items, one of them an overlong varint, into an array of three. -/
example : ItemsAre (Ty.uint .w16).dict .debug [[5#8], [0x81#8, 0x00#8]] [5#16, 1#16] ∧
    (Ty.array 3 (.uint .w16)).dict.merge .debug ⟨[7#16, 8#16, 9#16], rfl⟩ [5#8, 0x81#8, 0x00#8] =
      .ok ⟨[5#16, 1#16, 9#16], rfl⟩ [] := by
  refine ⟨⟨rfl, ?_⟩, by decide⟩
  intro e he
  rcases List.mem_cons.1 he with rfl | he
  · exact ⟨by simp, fun rest => rfl⟩
  · rcases List.mem_cons.1 he with rfl | he
    · exact ⟨by simp, fun rest => rfl⟩
    · cases he

example : TupleItemsShort (.cons .bool (.cons .bool .nil)) .debug [[1#8]] :=
  .inr ⟨_, _, true, rfl, ⟨by simp, fun _ => rfl⟩, .inl rfl⟩

end Steit
