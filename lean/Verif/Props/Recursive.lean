import Verif.Lemmas.Unroll
import Verif.Props.RoundTrip

/-!
# C64: recursive messages

All theorems about `Ty` speak about types without recursion. A recursive program is unrolled: the message `i` of `D` unrolled `n`
times is the `Ty` `unroll D S n i`, with some other message `S i` where the unrolling stops. Here it is shown that unrollings cannot
be told apart, neither by the number of times nor by what they stop at, as long as they are unrolled deeper than the input is long or
the values are deep. So what is proved about `Ty` holds for recursive messages: take an unrolling deep enough for the values and
inputs at hand.
-/

namespace Steit
open Spec Prog

/-! ## Examples of programs -/

/-- 0: `#[steit_derive(State)] struct Node { #[steit(tag = 0)] weight: u8, #[steit(tag = 1)] children: List<Node> }`,
1: `#[steit_derive(Serialize, Deserialize)] enum Expr { #[steit(tag = 0, default)] Lit(i32), #[steit(tag = 1)] Neg(Box<Expr>),
#[steit(tag = 2)] Of(Option<Node>, Vec<Expr>) }`; all other numbers: empty structs. -/
def exDecls : Decls
  | 0 => .struct true true (.cons 0#32 {} (.uint .w8) (.cons 1#32 {} (.list (.named 0)) .nil))
  | 1 => .enum false true (.cons 0#32 {} (.sint .w32) .nil)
      (.cons 1#32 true (.cons 0#32 {} (.box (.named 1)) .nil)
        (.cons 2#32 true (.cons 0#32 {} (.option (.named 0)) (.cons 1#32 {} (.vec (.named 1)) .nil)) .nil))
  | _ => .struct false false .nil

/-- Where the unrolling stops: empty structs. -/
def exStub : Nat → Ty := fun i => .struct (i == 0) false .nil

/-- Another choice: structs with a string. -/
def exStub' : Nat → Ty := fun i => .struct (i == 0) true (.cons 7#32 { noState := true } .string .nil)

theorem exDecls_wf : exDecls.WF := by
  intro i
  match i with
  | 0 => refine ⟨rfl, rfl, ?_⟩; simp [exDecls, RTy.WF, RFields.WF, RFields.tags, RTy.isState]
  | 1 => refine ⟨rfl, rfl, ?_⟩; simp [exDecls, RTy.WF, RFields.WF, RVariants.WF, RFields.tags, RVariants.tags]
  | i + 2 => refine ⟨rfl, rfl, ?_⟩; simp [exDecls, RTy.WF, RFields.WF, RFields.tags]

theorem exStub_ok : Stub exDecls exStub := by
  intro i
  match i with
  | 0 => exact ⟨⟨by simp [Fields.tags], trivial⟩, rfl, rfl⟩
  | 1 => exact ⟨⟨by simp [Fields.tags], trivial⟩, rfl, rfl⟩
  | i + 2 => exact ⟨⟨by simp [Fields.tags], trivial⟩, rfl, rfl⟩

theorem exStub'_ok : Stub exDecls exStub' := by
  intro i
  match i with
  | 0 => exact ⟨⟨by simp [Fields.tags], by simp [Fields.WF, Ty.WF]⟩, rfl, rfl⟩
  | 1 => exact ⟨⟨by simp [Fields.tags], by simp [Fields.WF, Ty.WF]⟩, rfl, rfl⟩
  | i + 2 => exact ⟨⟨by simp [Fields.tags], by simp [Fields.WF, Ty.WF]⟩, rfl, rfl⟩

/-- `Node { weight, children }` in an unrolling. -/
def exNode {S : Nat → Ty} {n : Nat} (rt : Rt) (weight : BitVec 8) (children : List (unroll exDecls S n 0).El) :
    (unroll exDecls S (n + 1) 0).El := ⟨rt, weight, ⟨rt.nested 1#32, children⟩, ()⟩

/-- The root with weight 5 and a leaf with weight 9 below. -/
def exTree {S : Nat → Ty} {n : Nat} : (unroll exDecls S (n + 2) 0).El :=
  exNode Rt.dflt 5#8 [exNode ((Rt.dflt.nested 1#32).nested 0#32) 9#8 []]

theorem exTree_same {S S' : Nat → Ty} {n n' : Nat} :
    SameAt exDecls S S' (n + 2) (n' + 2) 0 exTree exTree :=
  ⟨rfl, rfl, ⟨rfl, ⟨rfl, rfl, ⟨rfl, trivial⟩, trivial⟩, trivial⟩, trivial⟩

theorem exNode_encode {S : Nat → Ty} {n : Nat} (rt : Rt) (weight : BitVec 8) (children : List (unroll exDecls S n 0).El) :
    encode (unroll exDecls S (n + 1) 0) (exNode rt weight children) =
      (if leftOut (.uint .w8) weight (leb weight.toNat) then [] else leb 0 ++ leb weight.toNat) ++
      (if (children.flatMap fun x => framed (wireOf (unroll exDecls S n 0)) (encode _ x)).isEmpty then []
        else leb 10 ++ framed 2 (children.flatMap fun x => framed (wireOf (unroll exDecls S n 0)) (encode _ x))) := by
  show encode (.struct true true (.cons 0#32 {} (.uint .w8) (.cons 1#32 {} (.list (unroll exDecls S n 0)) .nil)))
    ⟨rt, weight, ⟨rt.nested 1#32, children⟩, ()⟩ = _
  simp only [encode, encodeFields, List.append_nil]
  rfl

section
variable {D : Decls} {S S' S'' : Nat → Ty}

/-! ## Programs -/

/-- C64: every unrolling of a program that compiles is a well-formed type, so the theorems about types apply to it; and it implements
`State` if and only if the message does. -/
theorem C64_well_formed (hD : D.WF) (hS : Stub D S) (n i : Nat) :
    (unroll D S n i).WF ∧ (unroll D S n i).isState = (RTy.named i).isState D := unroll_wf hD hS n i

/-- Not vacuous. -/
example (n i : Nat) : (unroll exDecls exStub n i).WF := (C64_well_formed exDecls_wf exStub_ok n i).1

/-! ## Values -/

/-- C64: being the same value in two unrollings is symmetric and transitive, and relates at most one value of one to a value of the
other. -/
theorem C64_values (n n' n'' i : Nat) (v v' : (unroll D S n i).El) (w w' : (unroll D S' n' i).El) (u : (unroll D S'' n'' i).El)
    (h : SameAt D S S' n n' i v w) :
    SameAt D S' S n' n i w v ∧ (SameAt D S' S'' n' n'' i w u → SameAt D S S'' n n'' i v u) ∧
      (SameAt D S S' n n' i v' w' → (v = v' ↔ w = w')) :=
  ⟨sameAt_symm n n' i v w h, sameAt_trans n n' n'' i v w u h, sameAt_inj n n' i v w v' w' h⟩

/-- Not vacuous. -/
example : SameAt exDecls exStub exStub' 2 7 0 exTree exTree := exTree_same (n := 0) (n' := 5)

/-- C64: a value that does not reach where its unrolling stops exists in every deeper unrolling, whatever it stops at. -/
theorem C64_deeper (n n' i : Nat) (hn : n ≤ n') (v : (unroll D S n i).El) (hv : SameAt D S S n n i v v) :
    ∃ w, SameAt D S S' n n' i v w := sameAt_grow n n' i hn v hv

/-- Not vacuous. -/
example : SameAt exDecls exStub exStub 2 2 0 exTree exTree := exTree_same (n := 0) (n' := 0)

/-- C64: values that reach where the unrolling stops are no values of the recursive message. A leaf of `Node` unrolled once is one of
it; with a child, which would be of the type where the unrolling stops, it is not. -/
theorem C64_values_bottom :
    SameAt exDecls exStub exStub 1 1 0 (exNode Rt.dflt 5#8 []) (exNode Rt.dflt 5#8 []) ∧
      ∀ x w, ¬ SameAt exDecls exStub exStub' 1 1 0 (exNode Rt.dflt 5#8 [x]) w := by
  refine ⟨⟨rfl, rfl, ⟨rfl, trivial⟩, trivial⟩, ?_⟩
  intro x w h
  obtain ⟨_, _, ⟨_, h⟩, _⟩ := h
  revert h
  generalize w.fields.2.1.items = ys
  intro h
  cases ys with
  | nil => exact h
  | cons y ys => have := h.1; simp only [RTy.Same, SameAt] at this

/-! ## Serialization and equality -/

/-- C64: the same value is written as the same bytes, whatever the size caches contain, and its size is the same. -/
theorem C64_encode (hD : D.WF) (hS : Stub D S) (hS' : Stub D S') (n n' i : Nat) (m : Mode) (μ : Mem) (v : (unroll D S n i).El)
    (w : (unroll D S' n' i).El) (h : SameAt D S S' n n' i v w) :
    (unroll D S n i).dict.toBytesFrom m μ v = (unroll D S' n' i).dict.toBytesFrom m μ w ∧
      (unroll D S n i).dict.sizeFrom m μ v = (unroll D S' n' i).dict.sizeFrom m μ w := by
  have hr := rel_at (fun i => (hD i).1) (fun i => (hD i).2.1) (fun i => (hS i).2.2) (fun i => (hS' i).2.2) n n' i
  unfold Dict.toBytesFrom Dict.sizeFrom
  rw [hr.1.toBytes m h, hr.1.ser.computeSize m _ h]
  exact ⟨rfl, rfl⟩

/-- Not vacuous. -/
example (n : Nat) (m : Mode) (μ : Mem) :
    (unroll exDecls exStub 2 0).dict.toBytesFrom m μ exTree = (unroll exDecls exStub' (n + 2) 0).dict.toBytesFrom m μ exTree :=
  (C64_encode exDecls_wf exStub_ok exStub'_ok 2 (n + 2) 0 m μ _ _ (exTree_same (n := 0))).1

/-- C64: values are equal in one unrolling exactly if they are in the other. -/
theorem C64_equality (n n' i : Nat) (x y : (unroll D S n i).El) (x' y' : (unroll D S' n' i).El) (hx : SameAt D S S' n n' i x x')
    (hy : SameAt D S S' n n' i y y') : (unroll D S n i).eq x y = (unroll D S' n' i).eq x' y' := eq_at n n' i x y x' y' hx hy

/-- Not vacuous: different trees. -/
example : (unroll exDecls exStub 2 0).eq exTree (exNode Rt.dflt 5#8 []) =
    (unroll exDecls exStub' 4 0).eq exTree (exNode Rt.dflt 5#8 []) :=
  C64_equality 2 4 0 _ _ _ _ (exTree_same (n := 0)) ⟨rfl, rfl, ⟨rfl, trivial⟩, trivial⟩

/-- C64: new values are the same. -/
theorem C64_new (hD : D.WF) (hS : Stub D S) (hS' : Stub D S') (n n' i : Nat) (rt : Rt) :
    SameAt D S S' (n + 1) (n' + 1) i (unroll D S (n + 1) i).dict.dflt (unroll D S' (n' + 1) i).dict.dflt ∧
      SameAt D S S' (n + 1) (n' + 1) i ((unroll D S (n + 1) i).dict.withRuntime rt) ((unroll D S' (n' + 1) i).dict.withRuntime rt) := by
  have hr := rel_at (fun i => (hD i).1) (fun i => (hD i).2.1) (fun i => (hS i).2.2) (fun i => (hS' i).2.2) (n + 1) (n' + 1) i
  exact ⟨hr.1.dflt (by omega), hr.1.withRuntime (by omega) rt⟩

/-- Not vacuous. -/
example : SameAt exDecls exStub exStub' 1 5 1 (unroll exDecls exStub 1 1).dict.dflt (unroll exDecls exStub' 5 1).dict.dflt :=
  (C64_new exDecls_wf exStub_ok exStub'_ok 0 4 1 Rt.dflt).1

/-! ## Deserialization -/

/-- C64: any bytes, valid or not, are decoded alike by all unrollings deeper than the input is long, into the same target: to the same
value, leaving the same input unread, or with the same error and the same value left behind. No value reached touches where the
unrolling stops. -/
theorem C64_decode (hD : D.WF) (hS : Stub D S) (hS' : Stub D S') (n n' i : Nat) (m : Mode) (bs : Bytes) (hn : bs.length < n)
    (hn' : bs.length < n') (v : (unroll D S n i).El) (w : (unroll D S' n' i).El) (h : SameAt D S S' n n' i v w) :
    SameRes (SameAt D S S' n n' i) ((unroll D S n i).dict.merge m v bs) ((unroll D S' n' i).dict.merge m w bs) := by
  have hr := rel_at (fun i => (hD i).1) (fun i => (hD i).2.1) (fun i => (hS i).2.2) (fun i => (hS' i).2.2) n n' i
  exact (hr.1.merge m h (by omega)).same

/-- C64: so for `deserialize`. -/
theorem C64_deserialize (hD : D.WF) (hS : Stub D S) (hS' : Stub D S') (n n' i : Nat) (m : Mode) (bs : Bytes) (hn : bs.length < n)
    (hn' : bs.length < n') :
    match (unroll D S n i).dict.deserialize m bs, (unroll D S' n' i).dict.deserialize m bs with
    | .ok (v, rest), .ok (w, rest') => SameAt D S S' n n' i v w ∧ rest = rest'
    | .error e, .error e' => e = e'
    | _, _ => False := by
  obtain ⟨n, rfl⟩ : ∃ k, n = k + 1 := ⟨n - 1, by omega⟩
  obtain ⟨n', rfl⟩ : ∃ k, n' = k + 1 := ⟨n' - 1, by omega⟩
  have h := C64_decode hD hS hS' (n + 1) (n' + 1) i m bs hn hn' _ _ (C64_new hD hS hS' n n' i Rt.dflt).1
  unfold Dict.deserialize
  generalize (unroll D S (n + 1) i).dict.merge m _ bs = r at h
  generalize (unroll D S' (n' + 1) i).dict.merge m _ bs = r' at h
  cases r <;> cases r' <;> simp only [SameRes] at h
  · exact h
  · exact h.2

/-- The bytes of the tree of the example. -/
def exTreeBytes : Bytes := [0x00#8, 0x05#8, 0x0a#8, 0x03#8, 0x02#8, 0x00#8, 0x09#8]

/-- Not vacuous: the bytes decode to the tree, in an unrolling seven levels deep and hence in all deeper ones. -/
example : exTreeBytes.length = 7 ∧ ((unroll exDecls exStub 8 0).dict.deserialize .release exTreeBytes).isOk = true := by decide

/-- C64: the bound is needed: unrolled only once, with empty structs for the children, the leaf is lost. -/
theorem C64_decode_shallow :
    ∃ v w, (unroll exDecls exStub 1 0).dict.deserialize .release exTreeBytes = .ok (v, []) ∧
      (unroll exDecls exStub 3 0).dict.deserialize .release exTreeBytes = .ok (w, []) ∧
      (unroll exDecls exStub 1 0).dict.toBytesFrom .release (fun _ => 0) v ≠
        (unroll exDecls exStub 3 0).dict.toBytesFrom .release (fun _ => 0) w := by
  refine ⟨_, _, rfl, rfl, ?_⟩
  decide

/-- C64, round trip: the bytes of a value are decoded by every unrolling deeper than their number to the same value, which is the one
written up to runtimes. -/
theorem C64_round_trip (hD : D.WF) (hS : Stub D S) (hS' : Stub D S') (n n' i : Nat) (m m' : Mode) (μ : Mem)
    (v : (unroll D S n i).El) (hc : Carried (unroll D S n i) v) (hlen : (encode (unroll D S n i) v).length < 2 ^ 32)
    (hn : (encode (unroll D S n i) v).length < n) (hn' : (encode (unroll D S n i) v).length < n') :
    ∃ bytes v' w, (unroll D S n i).dict.toBytesFrom m μ v = .ok bytes ∧ (unroll D S' n' i).dict.deserialize m' bytes = .ok (w, []) ∧
      SameAt D S S' n n' i v' w ∧ Same (unroll D S n i) v' v := by
  have hwf := (C64_well_formed hD hS n i).1
  obtain ⟨v', h1, h2⟩ := (decLaw _ hwf).round m' Rt.dflt v [] hc hlen (fun _ => rfl)
  rw [List.append_nil] at h1
  have hd : (unroll D S n i).dict.deserialize m' (encode _ v) = .ok (v', []) := by
    unfold Dict.deserialize
    rw [(decLaw _ hwf).dflt_eq, h1]
  have h := C64_deserialize hD hS hS' n n' i m' (encode (unroll D S n i) v) hn hn'
  rw [hd] at h
  cases hw : (unroll D S' n' i).dict.deserialize m' (encode (unroll D S n i) v) with
  | error e => rw [hw] at h; exact h.elim
  | ok p =>
    obtain ⟨w, rest⟩ := p
    rw [hw] at h
    obtain ⟨h3, h4⟩ := h
    subst h4
    exact ⟨_, v', w, toBytes_eq _ hwf m μ v (carried_writable _ v hc) hlen, hw, h3, h2⟩

/-- Not vacuous. -/
example : Carried (unroll exDecls exStub 8 0) exTree ∧ (encode (unroll exDecls exStub 8 0) exTree).length = 7 := by
  constructor
  · refine ⟨trivial, fun x hx => ?_, trivial⟩
    rw [List.mem_singleton.1 hx]
    exact ⟨trivial, fun x hx => absurd hx (List.not_mem_nil (a := x)), trivial⟩
  · rw [exTree, exNode_encode, List.flatMap_singleton, exNode_encode]
    simp only [List.flatMap_nil, framed, leb_eq_lebF]
    decide

/-! ## Nesting -/

/-- `j` nodes, one below the other. -/
def exChain (S : Nat → Ty) (n : Nat) : (j : Nat) → (unroll exDecls S (n + j + 1) 0).El
  | 0 => exNode Rt.dflt 0#8 []
  | j + 1 => exNode Rt.dflt 0#8 [exChain S n j]

theorem exChain_carried (S : Nat → Ty) (n : Nat) : ∀ j, Carried (unroll exDecls S (n + j + 1) 0) (exChain S n j)
  | 0 => ⟨trivial, fun x hx => absurd hx (List.not_mem_nil (a := x)), trivial⟩
  | j + 1 => by
    refine ⟨trivial, fun x hx => ?_, trivial⟩
    rw [List.mem_singleton.1 hx]
    exact exChain_carried S n j

theorem exLink_encode {S : Nat → Ty} {n : Nat} (x : (unroll exDecls S (n + 1) 0).El) {p : Bytes}
    (hp : p = leb (encode _ x).length ++ encode _ x) :
    encode (unroll exDecls S (n + 2) 0) (exNode Rt.dflt 0#8 [x]) = leb 10 ++ (leb p.length ++ p) := by
  have h : encode (unroll exDecls S (n + 2) 0) (exNode Rt.dflt 0#8 [x]) = [] ++ (if p.isEmpty then [] else leb 10 ++ framed 2 p) := by
    rw [hp, exNode_encode, List.flatMap_singleton]
    rfl
  rw [h, List.nil_append, if_neg]
  · rfl
  · have := leb_length_pos (encode (unroll exDecls S (n + 1) 0) x).length
    rw [hp, List.isEmpty_iff_length_eq_zero, List.length_append]
    omega

theorem exChain_length (S : Nat → Ty) (n : Nat) : ∀ j, 11 * j < 2 ^ 32 →
    (encode (unroll exDecls S (n + j + 1) 0) (exChain S n j)).length ≤ 11 * j
  | 0, _ => by
    have : encode (unroll exDecls S (n + 0 + 1) 0) (exChain S n 0) = [] := by
      rw [exChain, exNode_encode]
      rfl
    rw [this]
    simp
  | j + 1, hj => by
    have ih := exChain_length S n j (by omega)
    have h := exLink_encode (exChain S n j) rfl
    have he : encode (unroll exDecls S (n + (j + 1) + 1) 0) (exChain S n (j + 1)) = _ := h
    rw [he]
    generalize encode (unroll exDecls S (n + j + 1) 0) (exChain S n j) = e at ih
    have h1 := leb_length_le 4 e.length (by omega)
    have h2 := leb_length_le 4 (leb e.length ++ e).length (by simp only [List.length_append]; omega)
    have h3 := leb_length_le 0 10 (by omega)
    simp only [List.length_append] at *
    omega

theorem exChain_deep (S S' : Nat → Ty) (n : Nat) : ∀ j k v w, Same (unroll exDecls S (n + j + 1) 0) v (exChain S n j) →
    SameAt exDecls S S' (n + j + 1) k 0 v w → j < k
  | j, 0, v, w, _, h => by rw [SameAt] at h; exact h.elim
  | 0, k + 1, v, w, _, h => by omega
  | j + 1, k + 1, v, w, hs, h => by
    have hs' : v.fields.2.1.items.map (strip (unroll exDecls S (n + j + 1) 0)) = [strip _ (exChain S n j)] := by
      have := congrArg (fun x => x.fields.2.1.items) hs
      exact this
    have hi : SameItems (SameAt exDecls S S' (n + j + 1) k 0) v.fields.2.1.items w.fields.2.1.items := h.2.2.1.2
    revert hs' hi
    generalize v.fields.2.1.items = xs
    generalize w.fields.2.1.items = ys
    intro hs' hi
    match xs, ys, hi, hs' with
    | [], _, _, hs' => simp at hs'
    | x :: _, y :: _, hi, hs' =>
      have := exChain_deep S S' n j k x y (by
        rw [List.map_cons, List.cons.injEq] at hs'
        exact hs'.1) hi.1
      omega

/-- C64: nothing limits how deep messages are nested: for every depth `j` there is an input of no more than `11 * j` bytes that
decodes, without error, to nodes nested more than `j` deep (a value that no unrolling of `j` or fewer levels has). The code recurses
at every level, on a stack the model does not have. -/
theorem C64_nesting_unlimited (j : Nat) (hj : 11 * j < 2 ^ 32) (m : Mode) :
    ∃ bs : Bytes, bs.length ≤ 11 * j ∧ ∀ n, bs.length < n →
      ∃ v, (unroll exDecls exStub n 0).dict.deserialize m bs = .ok (v, []) ∧
        ∀ k, k ≤ j → ∀ w, ¬ SameAt exDecls exStub exStub n k 0 v w := by
  have hl := exChain_length exStub (11 * j) j hj
  refine ⟨_, hl, fun n hn => ?_⟩
  obtain ⟨bytes, v', w, h1, h2, h3, h4⟩ := C64_round_trip exDecls_wf exStub_ok exStub_ok (11 * j + j + 1) n 0 m m (fun _ => 0)
    (exChain exStub (11 * j) j) (exChain_carried _ _ j) (by omega) (by omega) hn
  have hwf := (C64_well_formed exDecls_wf exStub_ok (11 * j + j + 1) 0).1
  rw [toBytes_eq _ hwf m _ _ (carried_writable _ _ (exChain_carried _ _ j)) (by omega)] at h1
  cases h1
  refine ⟨w, h2, fun k hk u hu => ?_⟩
  have := exChain_deep exStub exStub (11 * j) j k v' u h4 (sameAt_trans _ _ _ _ _ _ _ h3 hu)
  omega

/-- Not vacuous: a million levels in at most 11 million bytes. -/
example : 11 * 1000000 < 2 ^ 32 := by decide

/-- C64: the nesting is limited by the length of the input, though: what is decoded from `bs` is nested no deeper than it is long
(it is a value of the unrolling one deeper than that, whatever it stops at). -/
theorem C64_nesting_bound (hD : D.WF) (hS : Stub D S) (hS' : Stub D S') (n i : Nat) (m : Mode) (bs rest : Bytes) (hn : bs.length < n)
    (v : (unroll D S n i).El) (h : (unroll D S n i).dict.deserialize m bs = .ok (v, rest)) :
    ∃ w, SameAt D S S' n (bs.length + 1) i v w := by
  have hd := C64_deserialize hD hS hS' n (bs.length + 1) i m bs hn (by omega)
  rw [h] at hd
  cases hw : (unroll D S' (bs.length + 1) i).dict.deserialize m bs with
  | error e => rw [hw] at hd; exact hd.elim
  | ok p => rw [hw] at hd; exact ⟨p.1, hd.1⟩

/-- Not vacuous: the tree of the example, decoded with 20 levels. -/
example : exTreeBytes.length < 20 ∧ ((unroll exDecls exStub 20 0).dict.deserialize .release exTreeBytes).isOk = true := by decide

/-! ## Logs and calls -/

/-- C64: any log, valid or not, is replayed alike by all unrollings deeper than it is long. -/
theorem C64_replay (hD : D.WF) (hS : Stub D S) (hS' : Stub D S') (n n' i : Nat) (m : Mode) (bs : Bytes) (hn : bs.length < n)
    (hn' : bs.length < n') (v : (unroll D S n i).El) (w : (unroll D S' n' i).El) (h : SameAt D S S' n n' i v w) :
    SameRes (SameAt D S S' n n' i) (replay (unroll D S n i).dict m v bs) (replay (unroll D S' n' i).dict m w bs) := by
  have hr := rel_at (fun i => (hD i).1) (fun i => (hD i).2.1) (fun i => (hS i).2.2) (fun i => (hS' i).2.2) n n' i
  exact replay_same hr.1 m h bs (by omega)

/-- The weight of the leaf of `exTree` is set to 3: an entry with the path `children`, item 0, field 0. -/
def exTreeLog : Bytes := [0x0a#8, 0x00#8, 0x02#8, 0x03#8, 0x01#8, 0x00#8, 0x00#8, 0x0a#8, 0x01#8, 0x03#8]

/-- Not vacuous: the log is accepted. -/
example : exTreeLog.length = 10 ∧
    ∃ v, replay (unroll exDecls exStub 12 0).dict .release exTree exTreeLog = .ok v [] ∧
      v = exNode Rt.dflt 5#8 [exNode ((Rt.dflt.nested 1#32).nested 0#32) 3#8 []] := ⟨rfl, _, rfl, rfl⟩

/-- C64: a client making the same calls, closures included, on the same value: the same entries are logged to the same loggers, in the
same order, the results are the same, and so are panics. -/
theorem C64_calls (hD : D.WF) (hS : Stub D S) (hS' : Stub D S') (n n' i : Nat) (m : Mode) (ops : List (unroll D S n i).Op)
    (ops' : List (unroll D S' n' i).Op) (ho : SameItems (SameOpAt D S S' n n' i) ops ops') (v : (unroll D S n i).El)
    (w : (unroll D S' n' i).El) (h : SameAt D S S' n n' i v w) :
    SameRun (SameAt D S S' n n' i) (calls (unroll D S n i) m ops v) (calls (unroll D S' n' i) m ops' w) :=
  calls_same (run_at (fun i => (hD i).1) (fun i => (hD i).2.1) (fun i => (hS i).2.2) (fun i => (hS' i).2.2) m n n' i)
    ops ops' v w ho h

/-- `node.children.push(tree)`, then `node.children[1].children.pop()`. -/
def exTreeOps {S : Nat → Ty} {n : Nat} : List (unroll exDecls S (n + 4) 0).Op :=
  [.inr (.inl (.inner (.push exTree))), .inr (.inl (.inner (.item 1 (.inr (.inl (.inner .pop))))))]

/-- Not vacuous. -/
example : SameItems (SameOpAt exDecls exStub exStub' 4 9 0) (exTreeOps (n := 0)) (exTreeOps (n := 5)) :=
  ⟨exTree_same (n := 1) (n' := 6), ⟨rfl, trivial⟩, trivial⟩

end

end Steit
