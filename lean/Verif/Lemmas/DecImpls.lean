import Verif.Lemmas.DecLaw

/-! # Decoding laws of the implementations -/

namespace Steit
open Spec

section
variable {σ α : Type} {d : Dict α} {enc : σ → Bytes} {strip : α → α} {see : σ → α} {carried : Mode → σ → Prop}

/-- Laws of a sized type whose fields are left out when empty. -/
theorem ReadLaw.ofSized (hw : d.wire = .sized) (hd : d.dflt = d.withRuntime Rt.dflt)
    (hi : ∀ rt rt', strip (d.withRuntime rt) = strip (d.withRuntime rt'))
    (he : ∀ v rt, (∃ m, carried m v) → enc v = [] → strip (d.withRuntime rt) = see v)
    (hr : ∀ m rt v, carried m v → (enc v).length < 2 ^ 63 →
      ∃ v', d.merge m (d.withRuntime rt) (enc v) = .ok v' [] ∧ strip v' = see v) :
    ReadLaw d 2 enc (fun v => (enc v).isEmpty) strip see carried where
  wire_eq := by rw [hw]; rfl
  dflt_eq := hd
  init_strip := hi
  enc_ne := fun h => absurd h (by decide)
  lo_dflt := fun v rt hc hl => he v rt hc (List.isEmpty_iff.1 hl)
  empty_dflt := he
  roundWide := by
    intro m rt v rest hc hlen hrest
    rw [hrest (by decide), List.append_nil]
    exact hr m rt v hc hlen

/-- Laws of a sized type whose `merge` does nothing at the end of the input. -/
theorem ReadLaw.ofLoop (hw : d.wire = .sized) (hd : d.dflt = d.withRuntime Rt.dflt)
    (hi : ∀ rt rt', strip (d.withRuntime rt) = strip (d.withRuntime rt'))
    (hn : ∀ m v, d.merge m v [] = .ok v [])
    (hr : ∀ m rt v, carried m v → (enc v).length < 2 ^ 63 →
      ∃ v', d.merge m (d.withRuntime rt) (enc v) = .ok v' [] ∧ strip v' = see v) :
    ReadLaw d 2 enc (fun v => (enc v).isEmpty) strip see carried :=
  ReadLaw.ofSized hw hd hi
    (by
      intro v rt ⟨m, hc⟩ he
      obtain ⟨v', h1, h2⟩ := hr m rt v hc (by simp [he])
      rw [he, hn] at h1
      cases h1
      exact h2)
    hr

end

/-! ### Primitives -/

theorem decLaw_prim {α : Type} [DecidableEq α] {size : α → Nat} {put : α → Bytes}
    {get : Mode → Bytes → Except Err (α × Bytes)} {dflt : α} {enc : α → Bytes} {carried : α → Prop}
    (hne : ∀ v, enc v ≠ []) (hget : ∀ m v rest, carried v → get m (enc v ++ rest) = .ok (v, rest)) :
    DecLaw (primDict size put get dflt) 0 enc (fun v => decide (v = dflt)) id carried where
  wire_eq := rfl
  dflt_eq := rfl
  init_strip := fun _ _ => rfl
  enc_ne := fun _ => hne
  lo_dflt := fun v _ _ hl => (of_decide_eq_true hl).symm
  empty_dflt := fun v _ _ he => absurd he (hne v)
  roundWide := by
    intro m rt v rest hc _ _
    refine ⟨v, ?_, rfl⟩
    show (match get m (enc v ++ rest) with
      | .ok (v', rest) => Res.ok v' rest
      | .error e => Res.err dflt e) = _
    rw [hget m v rest hc]

theorem decLaw_uint (w : Width) : DecLaw (uintDict w) 0 (fun v => leb v.toNat) (fun v => decide (v = 0#w.bits)) id
    (fun _ => True) :=
  decLaw_prim (fun v => leb_ne_nil _) (fun m v rest _ => by
    rw [getVarint_leb m _ _ v.isLt (by have := w.le_bits; omega)]; simp)

theorem decLaw_sint (w : Width) : DecLaw (sintDict w) 0 (fun v => leb (zigzagNat v.toInt))
    (fun v => decide (v = 0#w.bits)) id
    (fun v => -(2 ^ (w.bits - 2) : Int) ≤ v.toInt ∧ v.toInt < (2 ^ (w.bits - 2) : Int)) :=
  decLaw_prim (fun v => leb_ne_nil _) (fun m v rest hc => by
    have hw := w.le_bits
    unfold getSigned
    rw [← zigzag_toNat (by omega) v, getVarint_leb m _ _ (zigzag v).isLt (by omega)]
    simp only [BitVec.ofNat_toNat, BitVec.setWidth_eq]
    have : unzigzag (zigzag v) = v := by
      apply BitVec.eq_of_toInt_eq
      rw [unzigzag_zigzag_toInt (by omega)]
      have h1 : ((2 ^ (w.bits - 2) : Nat) : Int) = (2 ^ (w.bits - 2) : Int) := by simp
      rw [h1]
      rw [if_neg (by omega), if_neg (by omega)]
    rw [this])

theorem decLaw_bool : DecLaw boolDict 0 (fun v => leb v.toNat) (fun v => decide (v = false)) id (fun _ => True) :=
  decLaw_prim (fun v => leb_ne_nil _) (fun m v rest _ => by cases v <;> simp [leb] <;> rfl)

theorem decLaw_string : DecLaw stringDict 2 (fun v => v.bytes) (fun v => v.bytes.isEmpty) id (fun _ => True) :=
  ReadLaw.ofSized rfl rfl (fun _ _ => rfl)
    (by
      intro v rt _ he
      cases v; cases he; rfl)
    (by
      intro m rt v _ _
      refine ⟨v, ?_, rfl⟩
      show (if h : utf8Valid v.bytes = true then Res.ok (⟨v.bytes, h⟩ : Str) [] else _) = _
      rw [dif_pos v.valid])

theorem decLaw_bytes : DecLaw bytesDict 2 (fun v => v) (fun v => v.isEmpty) id (fun _ => True) :=
  ReadLaw.ofLoop rfl rfl (fun _ _ => rfl) (fun m v => by show Res.ok (v ++ []) [] = _; simp)
    (fun m rt v _ _ => ⟨v, by show Res.ok ([] ++ v) [] = _; simp, rfl⟩)

/-! ### Sequences -/

theorem foldl_snoc {α : Type} (ys acc : List α) : ys.foldl (fun a y => a ++ [y]) acc = acc ++ ys := by
  induction ys generalizing acc with
  | nil => simp
  | cons y ys ih => simp [ih]

theorem mem_flatMap_length {α : Type} {f : α → Bytes} {xs : List α} {x : α} (h : x ∈ xs) :
    (f x).length ≤ (xs.flatMap f).length := by
  induction xs with
  | nil => cases h
  | cons y ys ih =>
    simp only [List.flatMap_cons, List.length_append]
    cases h with
    | head => omega
    | tail _ h => have := ih h; omega

section
variable {σ α : Type} {d : Dict α} {wire : Nat} {enc : σ → Bytes} {lo : σ → Bool} {strip : α → α} {see : σ → α}
  {carried : Mode → σ → Prop}

theorem readLaw_vec (h : ReadLaw d wire enc lo strip see carried) :
    ReadLaw (vecDict d) 2 (fun v => v.flatMap (fun x => framed wire (enc x)))
      (fun v => (v.flatMap (fun x => framed wire (enc x))).isEmpty) (List.map strip) (List.map see)
      (fun m v => ∀ x ∈ v, carried m x) :=
  ReadLaw.ofLoop rfl rfl (fun _ _ => rfl) (fun m v => untilEof_nil _ _ _)
    (by
      intro m rt v hc hlen
      obtain ⟨ys, h1, h2⟩ := untilEof_items (vecStep d m) (fun x => framed wire (enc x)) strip see
        (fun acc y => acc ++ [y]) v [] _ (fun x _ => h.framed_ne x)
        (by
          intro x hx acc rest
          obtain ⟨y, h1, h2⟩ := h.deserNestedWide m x rest (hc x hx)
            (by have := mem_flatMap_length (f := fun x => framed wire (enc x)) hx; omega)
          exact ⟨y, by simp only [vecStep, h1], h2⟩)
        (Nat.le_refl _)
      refine ⟨ys, ?_, h2⟩
      rw [foldl_snoc] at h1
      exact h1)

theorem arrayLoop_items (h : ReadLaw d wire enc lo strip see carried) (m : Mode) :
    ∀ (xs : List σ) (todo done : List α) (rest : Bytes), todo.length = xs.length →
      (∀ x ∈ xs, carried m x ∧ (framed wire (enc x)).length < 2 ^ 63) →
      ∃ ys hys, arrayLoop d m done todo (xs.flatMap (fun x => framed wire (enc x)) ++ rest) =
        .ok ⟨done ++ ys, hys⟩ rest ∧ ys.map strip = xs.map see := by
  intro xs
  induction xs with
  | nil =>
    intro todo done rest hl _
    have : todo = [] := List.length_eq_zero_iff.1 hl
    subst this
    exact ⟨[], by simp, by simp [arrayLoop], rfl⟩
  | cons x xs ih =>
    intro todo done rest hl hc
    cases todo with
    | nil => simp at hl
    | cons t todo =>
      obtain ⟨y, h1, h2⟩ := h.deserNestedWide m x (xs.flatMap (fun x => framed wire (enc x)) ++ rest) (hc x (by simp)).1
        (hc x (by simp)).2
      obtain ⟨ys, hys, h3, h4⟩ := ih todo (done ++ [y]) rest (by simpa using hl) (fun z hz => hc z (by simp [hz]))
      have hlen : ys.length = todo.length := by
        have := congrArg List.length h4; simp at this hl; omega
      refine ⟨y :: ys, by simp [hlen], ?_, by simp [h2, h4]⟩
      have hne := h.framed_ne x
      rw [List.flatMap_cons, List.append_assoc]
      revert h1
      generalize hb : framed wire (enc x) ++ (xs.flatMap (fun x => framed wire (enc x)) ++ rest) = bs
      intro h1
      cases bs with
      | nil => simp [hne] at hb
      | cons b bs =>
        simp only [arrayLoop, h1, h3, Res.map]
        simp

theorem readLaw_array (n : Nat) (h : ReadLaw d wire enc lo strip see carried) (strip' : ArrayV α n → ArrayV α n)
    (see' : ArrayV σ n → ArrayV α n) (hs : ∀ v, (strip' v).1 = v.1.map strip) (hs' : ∀ v, (see' v).1 = v.1.map see) :
    ReadLaw (arrayDict n d) 2 (fun v => v.1.flatMap (fun x => framed wire (enc x)))
      (fun v => (v.1.flatMap (fun x => framed wire (enc x))).isEmpty) strip' see'
      (fun m v => ∀ x ∈ v.1, carried m x) :=
  ReadLaw.ofSized rfl rfl (fun _ _ => rfl)
    (by
      intro v rt _ he
      apply Subtype.ext
      rw [hs, hs']
      obtain ⟨xs, hx⟩ := v
      cases xs with
      | nil => cases hx; rfl
      | cons x xs =>
        simp only [List.flatMap_cons, List.append_eq_nil_iff] at he
        exact absurd he.1 (h.framed_ne x))
    (by
      intro m rt v hc hlen
      obtain ⟨ys, hys, h1, h2⟩ := arrayLoop_items h m v.1 (List.replicate n d.dflt) [] [] (by simp [v.2])
        (fun x hx => ⟨hc x hx, by have := mem_flatMap_length (f := fun x => framed wire (enc x)) hx; omega⟩)
      rw [List.append_nil] at h1
      refine ⟨⟨ys, by simpa using hys⟩, ?_, ?_⟩
      · simp only [arrayDict, plainDict]
        rw [h1]; rfl
      · apply Subtype.ext; rw [hs, hs']; exact h2)

theorem readLaw_option (h : ReadLaw d wire enc lo strip see carried) :
    ReadLaw (optionDict d) 2 (fun v => v.toList.flatMap (fun x => framed wire (enc x)))
      (fun v => (v.toList.flatMap (fun x => framed wire (enc x))).isEmpty) (Option.map strip) (Option.map see)
      (fun m v => ∀ x ∈ v, carried m x) :=
  ReadLaw.ofLoop rfl rfl (fun _ _ => rfl) (fun m v => untilEof_nil _ _ _)
    (by
      intro m rt v hc hlen
      cases v with
      | none => exact ⟨none, untilEof_nil _ _ _, rfl⟩
      | some x =>
        simp only [Option.toList_some, List.flatMap_cons, List.flatMap_nil, List.append_nil] at hlen ⊢
        obtain ⟨y, h1, h2⟩ := h.roundNestedWide m Rt.dflt x [] (hc x rfl) hlen
        rw [List.append_nil] at h1
        have hs : optionStep d m none (framed wire (enc x)) = .ok (some y) [] := by
          unfold optionStep
          rw [Option.getD_none, h.dflt_eq, h1]; rfl
        obtain ⟨f, _, he⟩ := untilEof_step (optionStep d m) _ none (some y) _ [] (h.framed_ne x) hs
          (List.length_pos_iff.2 (h.framed_ne x)) (Nat.le_refl _)
        refine ⟨some y, ?_, by simp [h2]⟩
        show untilEof (optionStep d m) _ none _ = _
        rw [he, untilEof_nil])

theorem readLaw_box (h : ReadLaw d wire enc lo strip see carried) :
    ReadLaw (boxDict d) wire enc (fun v => (enc v).isEmpty) strip see carried :=
  ⟨h.wire_eq, h.dflt_eq, h.init_strip, h.enc_ne, fun v rt hc hl => h.empty_dflt v rt hc (List.isEmpty_iff.1 hl),
    h.empty_dflt, h.roundWide⟩

end

/-! ### Tuples -/

/-- Law of the components of a tuple. -/
structure TupleDec {σ α : Type} (t : TupleD α) (enc : σ → Bytes) (strip : α → α) (see : σ → α)
    (carried : Mode → σ → Prop) : Prop where
  empty_dflt : ∀ v, enc v = [] → strip t.dflt = see v
  roundWide : ∀ m v rest, carried m v → (enc v).length < 2 ^ 63 →
    ∃ v', t.read m (enc v ++ rest) = .ok (v', rest) ∧ strip v' = see v

theorem tupleDec_nil : TupleDec tupleNil (fun _ : Unit => []) id id (fun _ _ => True) :=
  ⟨fun _ _ => rfl, fun _ _ _ _ _ => ⟨(), rfl, rfl⟩⟩

theorem tupleDec_cons {σ τ α β : Type} {d : Dict α} {wire : Nat} {enc : σ → Bytes} {lo : σ → Bool} {strip : α → α}
    {see : σ → α} {carried : Mode → σ → Prop} {t : TupleD β} {enc' : τ → Bytes} {strip' : β → β} {see' : τ → β}
    {carried' : Mode → τ → Prop}
    (h : ReadLaw d wire enc lo strip see carried) (ht : TupleDec t enc' strip' see' carried') :
    TupleDec (tupleCons d t) (fun v : σ × τ => framed wire (enc v.1) ++ enc' v.2) (fun v => (strip v.1, strip' v.2))
      (fun v => (see v.1, see' v.2)) (fun m v => carried m v.1 ∧ carried' m v.2) where
  empty_dflt := by
    intro v he
    simp only [List.append_eq_nil_iff] at he
    exact absurd he.1 (h.framed_ne v.1)
  roundWide := by
    intro m v rest hc hlen
    simp only [List.length_append] at hlen
    obtain ⟨x, h1, h2⟩ := h.deserNestedWide m v.1 (enc' v.2 ++ rest) hc.1 (by omega)
    obtain ⟨y, h3, h4⟩ := ht.roundWide m v.2 rest hc.2 (by omega)
    refine ⟨(x, y), ?_, by simp [h2, h4]⟩
    show (match d.deserializeNested m d.wire ((framed wire (enc v.1) ++ enc' v.2) ++ rest) with
      | .error e => Except.error e
      | .ok (x, rest) =>
        match t.read m rest with
        | .error e => Except.error e
        | .ok (y, rest) => Except.ok ((x, y), rest)) = _
    rw [List.append_assoc, h1]
    simp only [h3]

theorem readLaw_tuple {σ α : Type} {t : TupleD α} {enc : σ → Bytes} {strip : α → α} {see : σ → α}
    {carried : Mode → σ → Prop} (h : TupleDec t enc strip see carried) :
    ReadLaw (tupleDict t) 2 enc (fun v => (enc v).isEmpty) strip see carried :=
  ReadLaw.ofSized rfl rfl (fun _ _ => rfl) (fun v _ _ he => h.empty_dflt v he)
    (by
      intro m rt v hc hlen
      obtain ⟨v', h1, h2⟩ := h.roundWide m v [] hc hlen
      refine ⟨v', ?_, h2⟩
      show (match t.read m (enc v) with
        | .error e => Res.err _ e
        | .ok (v', _) => .ok v' []) = _
      rw [List.append_nil] at h1
      rw [h1])

/-! ### Hash maps -/

section
variable {σ κ ν : Type} {eq : κ → κ → Bool} {dk : Dict κ} {dv : Dict ν} {wk wv : Nat} {enck : κ → Bytes}
  {encv : σ → Bytes} {lok : κ → Bool} {lov : σ → Bool} {stripk : κ → κ} {stripv : ν → ν} {seev : σ → ν}
  {ck : κ → Prop} {cv : Mode → σ → Prop}

theorem hashInsert_new (k : κ) (v : ν) (es : List (κ × ν)) (h : ∀ e ∈ es, eq e.1 k = false) :
    hashInsert eq k v es = es ++ [(k, v)] := by
  induction es with
  | nil => rfl
  | cons e es ih =>
    obtain ⟨k', v'⟩ := e
    rw [hashInsert, h (k', v') (by simp), ih (fun e he => h e (by simp [he]))]
    rfl

theorem hashMap_items (hk : DecLaw dk wk enck lok stripk ck) (hv : ReadLaw dv wv encv lov stripv seev cv)
    (heq : ∀ a b, eq (stripk a) (stripk b) = eq a b) (m : Mode) :
    ∀ (xs : List (κ × σ)) (acc : List (κ × ν)) (done : List (κ × σ)) (fuel : Nat),
      acc.map (fun e => (stripk e.1, stripv e.2)) = done.map (fun e => (stripk e.1, seev e.2)) →
      (∀ e ∈ xs, ck e.1 ∧ cv m e.2) → (done ++ xs).Pairwise (fun e e' => eq e.1 e'.1 = false) →
      (xs.flatMap (fun e => framed wk (enck e.1) ++ framed wv (encv e.2))).length < 2 ^ 63 →
      (xs.flatMap (fun e => framed wk (enck e.1) ++ framed wv (encv e.2))).length ≤ fuel →
      ∃ ys, untilEof (hashMapStep eq dk dv m) fuel acc
          (xs.flatMap (fun e => framed wk (enck e.1) ++ framed wv (encv e.2))) = .ok ys [] ∧
        ys.map (fun e => (stripk e.1, stripv e.2)) = (done ++ xs).map (fun e => (stripk e.1, seev e.2)) := by
  intro xs
  induction xs with
  | nil => intro acc done fuel ha _ _ _ _; exact ⟨acc, untilEof_nil _ _ _, by simpa using ha⟩
  | cons x xs ih =>
    intro acc done fuel ha hc hp hlen hf
    simp only [List.flatMap_cons, List.length_append] at hlen hf ⊢
    obtain ⟨k, h1, h2⟩ := hk.deserNestedWide m x.1
      (framed wv (encv x.2) ++ xs.flatMap (fun e => framed wk (enck e.1) ++ framed wv (encv e.2)))
      (hc x (by simp)).1 (by omega)
    obtain ⟨v, h3, h4⟩ := hv.deserNestedWide m x.2
      (xs.flatMap (fun e => framed wk (enck e.1) ++ framed wv (encv e.2))) (hc x (by simp)).2 (by omega)
    have hnew : ∀ e ∈ acc, eq e.1 k = false := by
      intro e he
      have hm : (stripk e.1, stripv e.2) ∈ done.map (fun e => (stripk e.1, seev e.2)) := by
        rw [← ha]; exact List.mem_map.2 ⟨e, he, rfl⟩
      obtain ⟨e', he', heq'⟩ := List.mem_map.1 hm
      have h5 : eq e'.1 x.1 = false := (List.pairwise_append.1 hp).2.2 e' he' x (by simp)
      rw [← heq, h2, ← (Prod.mk.inj heq').1, heq]
      exact h5
    have hs : hashMapStep eq dk dv m acc
        ((framed wk (enck x.1) ++ framed wv (encv x.2)) ++
          xs.flatMap (fun e => framed wk (enck e.1) ++ framed wv (encv e.2))) =
        .ok (acc ++ [(k, v)]) (xs.flatMap (fun e => framed wk (enck e.1) ++ framed wv (encv e.2))) := by
      unfold hashMapStep
      rw [List.append_assoc, h1]
      simp only [h3, hashInsert_new k v acc hnew]
    have hp1 := List.length_pos_iff.2 (hk.framed_ne x.1)
    obtain ⟨fuel', hf', he⟩ := untilEof_step _ fuel acc _ _ _ (by simp [hk.framed_ne]) hs
      (by simp only [List.length_append]; omega) (by simp only [List.length_append]; omega)
    obtain ⟨ys, h5, h6⟩ := ih (acc ++ [(k, v)]) (done ++ [x]) fuel' (by simp [ha, h2, h4])
      (fun e he => hc e (by simp [he])) (by simpa using hp) (by omega) hf'
    exact ⟨ys, by rw [he, h5], by rw [h6]; simp⟩

theorem readLaw_hashMap (hk : DecLaw dk wk enck lok stripk ck) (hv : ReadLaw dv wv encv lov stripv seev cv)
    (heq : ∀ a b, eq (stripk a) (stripk b) = eq a b) :
    ReadLaw (hashMapDict eq dk dv) 2
      (fun v : List (κ × σ) => v.flatMap (fun e => framed wk (enck e.1) ++ framed wv (encv e.2)))
      (fun v => (v.flatMap (fun e => framed wk (enck e.1) ++ framed wv (encv e.2))).isEmpty)
      (List.map (fun e => (stripk e.1, stripv e.2))) (List.map (fun e => (stripk e.1, seev e.2)))
      (fun m v => (∀ e ∈ v, ck e.1 ∧ cv m e.2) ∧ v.Pairwise (fun e e' => eq e.1 e'.1 = false)) :=
  ReadLaw.ofLoop rfl rfl (fun _ _ => rfl) (fun m v => untilEof_nil _ _ _)
    (by
      intro m rt v hc hlen
      exact hashMap_items hk hv heq m v [] [] _ rfl hc.1 hc.2 hlen (Nat.le_refl _))

end

/-! ### `List` and `Map` -/

section
variable {σ α : Type} {d : Dict α} {wire : Nat} {enc : σ → Bytes} {lo : σ → Bool} {strip : α → α} {see : σ → α}
  {carried : Mode → σ → Prop}

theorem foldl_snoc_list (ys : List α) (acc : ListV α) :
    ys.foldl (fun (a : ListV α) y => { a with items := a.items ++ [y] }) acc = { acc with items := acc.items ++ ys } := by
  induction ys generalizing acc with
  | nil => simp
  | cons y ys ih => simp [ih]

theorem readLaw_list (h : ReadLaw d wire enc lo strip see carried) :
    ReadLaw (listDict d) 2 (fun v : ListV σ => v.items.flatMap (fun x => framed wire (enc x)))
      (fun v => (v.items.flatMap (fun x => framed wire (enc x))).isEmpty) (fun v => ⟨Rt.dflt, v.items.map strip⟩)
      (fun v => ⟨Rt.dflt, v.items.map see⟩) (fun m v => ∀ x ∈ v.items, carried m x) :=
  ReadLaw.ofLoop rfl rfl (fun _ _ => rfl) (fun m v => untilEof_nil _ _ _)
    (by
      intro m rt v hc hlen
      obtain ⟨ys, h1, h2⟩ := untilEof_items (listStep d m) (fun x => framed wire (enc x)) strip see
        (fun (a : ListV α) y => { a with items := a.items ++ [y] }) v.items ⟨rt, []⟩ _ (fun x _ => h.framed_ne x)
        (by
          intro x hx acc rest
          obtain ⟨y, h1, h2⟩ := h.roundNestedWide m (acc.rt.nested (fieldNo acc.items.length)) x rest (hc x hx)
            (by have := mem_flatMap_length (f := fun x => framed wire (enc x)) hx; omega)
          exact ⟨y, by simp only [listStep, h1], h2⟩)
        (Nat.le_refl _)
      refine ⟨⟨rt, ys⟩, ?_, by simp [h2]⟩
      rw [foldl_snoc_list] at h1
      exact h1)

theorem readTag_key (m : Mode) (n : U32) (wt : WireType) (rest : Bytes) (h : n.toNat < 2 ^ 29) :
    readTag m (leb (n.toNat * 8 + wt.num) ++ rest) = .ok ((n, wt), rest) := by
  have := wt.num_le
  unfold readTag
  rw [getVarint_leb m _ _ (by omega) (by decide)]
  simp only [bind, Except.bind]
  rw [parseTag_ok _ n wt (by rw [BitVec.toNat_ofNat]; omega)]

theorem readMapKey_key (m : Mode) (kt : KeyTy) (n : U32) (wt : WireType) (rest : Bytes) (h : n.toNat < 2 ^ 29)
    (hk : n.toNat ≤ kt.max) :
    readMapKey m kt (leb (n.toNat * 8 + wt.num) ++ rest) = .ok (n, rest) := by
  have := wt.num_le
  unfold readMapKey
  rw [getVarint_leb m _ _ (by omega) (by decide)]
  simp only [bind, Except.bind]
  rw [parseTag_ok _ n wt (by rw [BitVec.toNat_ofNat]; omega)]
  simp only [validate_ok h, KeyTy.tryFromFieldNumber, hk, if_true]

theorem entriesGet_none {k : U32} {es : List (U32 × α)} : entriesGet k es = none ↔ k ∉ es.map (·.1) := by
  induction es with
  | nil => simp [entriesGet]
  | cons e es ih =>
    obtain ⟨k', v'⟩ := e
    simp only [entriesGet, List.map_cons, List.mem_cons]
    split
    · next h => simp [h]
    · next h => rw [ih]; simp [Ne.symm h]

theorem entriesInsert_new (k : U32) (v : α) (es : List (U32 × α)) (h : k ∉ es.map (·.1)) :
    entriesInsert k v es = es ++ [(k, v)] := by
  induction es with
  | nil => rfl
  | cons e es ih =>
    obtain ⟨k', v'⟩ := e
    simp only [List.map_cons, List.mem_cons, not_or] at h
    rw [entriesInsert, if_neg (Ne.symm h.1), ih h.2]; rfl

theorem map_items (kt : KeyTy) (h : ReadLaw d wire enc lo strip see carried) (m : Mode) (rt : Rt) :
    ∀ (xs : List (U32 × σ)) (acc : List (U32 × α)) (fuel : Nat),
      (∀ e ∈ xs, e.1.toNat ≤ kt.max ∧ e.1.toNat < 2 ^ 29 ∧ carried m e.2) → (acc.map (·.1) ++ xs.map (·.1)).Nodup →
      (xs.flatMap (fun e => leb (e.1.toNat * 8 + wire) ++ framed wire (enc e.2))).length < 2 ^ 63 →
      (xs.flatMap (fun e => leb (e.1.toNat * 8 + wire) ++ framed wire (enc e.2))).length ≤ fuel →
      ∃ ys, untilEof (mapStep kt d m) fuel ⟨rt, acc⟩
          (xs.flatMap (fun e => leb (e.1.toNat * 8 + wire) ++ framed wire (enc e.2))) = .ok ⟨rt, acc ++ ys⟩ [] ∧
        ys.map (fun e => (e.1, strip e.2)) = xs.map (fun e => (e.1, see e.2)) := by
  intro xs
  induction xs with
  | nil => intro acc fuel _ _ _ _; exact ⟨[], by simp [untilEof_nil], rfl⟩
  | cons x xs ih =>
    intro acc fuel hc hn hlen hf
    simp only [List.flatMap_cons, List.length_append] at hlen hf ⊢
    obtain ⟨y, h1, h2⟩ := h.roundNestedWide m (rt.nested x.1) x.2
      (xs.flatMap (fun e => leb (e.1.toNat * 8 + wire) ++ framed wire (enc e.2))) (hc x (by simp)).2.2 (by omega)
    have hnew : x.1 ∉ acc.map (·.1) := by
      intro hm
      exact (List.nodup_append.1 hn).2.2 x.1 hm x.1 (by simp) rfl
    have hs : mapStep kt d m ⟨rt, acc⟩
        ((leb (x.1.toNat * 8 + wire) ++ framed wire (enc x.2)) ++
          xs.flatMap (fun e => leb (e.1.toNat * 8 + wire) ++ framed wire (enc e.2))) =
        .ok ⟨rt, acc ++ [(x.1, y)]⟩ (xs.flatMap (fun e => leb (e.1.toNat * 8 + wire) ++ framed wire (enc e.2))) := by
      unfold mapStep
      rw [List.append_assoc]
      have hk := readMapKey_key m kt x.1 d.wire (framed wire (enc x.2) ++
          xs.flatMap (fun e => leb (e.1.toNat * 8 + wire) ++ framed wire (enc e.2))) (hc x (by simp)).2.1
          (hc x (by simp)).1
      rw [h.wire_eq] at hk
      rw [hk]
      simp only [entriesGet_none.2 hnew, h1, entriesInsert_new _ _ _ hnew]
    have hp1 := List.length_pos_iff.2 (h.framed_ne x.2)
    obtain ⟨fuel', hf', he⟩ := untilEof_step _ fuel _ _ _ _ (by simp [h.framed_ne]) hs
      (by simp only [List.length_append]; omega) (by simp only [List.length_append]; omega)
    obtain ⟨ys, h5, h6⟩ := ih (acc ++ [(x.1, y)]) fuel'
      (fun e he => hc e (by simp [he])) (by simpa using hn) (by omega) hf'
    exact ⟨(x.1, y) :: ys, by rw [he, h5]; simp, by simp [h6, h2]⟩

theorem readLaw_map (kt : KeyTy) (h : ReadLaw d wire enc lo strip see carried) :
    ReadLaw (mapDict kt d) 2
      (fun v : MapV σ => v.entries.flatMap (fun e => leb (e.1.toNat * 8 + wire) ++ framed wire (enc e.2)))
      (fun v => (v.entries.flatMap (fun e => leb (e.1.toNat * 8 + wire) ++ framed wire (enc e.2))).isEmpty)
      (fun v => ⟨Rt.dflt, v.entries.map (fun e => (e.1, strip e.2))⟩)
      (fun v => ⟨Rt.dflt, v.entries.map (fun e => (e.1, see e.2))⟩)
      (fun m v => (∀ e ∈ v.entries, e.1.toNat ≤ kt.max ∧ e.1.toNat < 2 ^ 29 ∧ carried m e.2) ∧
        (v.entries.map (·.1)).Nodup) :=
  ReadLaw.ofLoop rfl rfl (fun _ _ => rfl) (fun m v => untilEof_nil _ _ _)
    (by
      intro m rt v hc hlen
      obtain ⟨ys, h1, h2⟩ := map_items kt h m rt v.entries [] _ hc.1 (by simpa using hc.2) hlen (Nat.le_refl _)
      exact ⟨⟨rt, ys⟩, h1, by simp [h2]⟩)

end

/-! ### Structs -/

/-- Reading fields one after the other: known ones, and unknown ones with numbers in `extra`, which are skipped. -/
inductive FieldRun {β : Type} (fs : FieldsD β) (m : Mode) (extra : List U32) : β → Bytes → β → Prop
  | done (v : β) : FieldRun fs m extra v [] v
  | step {v v1 v2 : β} {bs r0 r1 : Bytes} {n : U32} {wt : WireType} :
    readTag m bs = .ok ((n, wt), r0) → fs.mergeField m n wt v r0 = some (.ok v1 r1) → r1.length < bs.length →
      FieldRun fs m extra v1 r1 v2 → FieldRun fs m extra v bs v2
  | skip {v v2 : β} {bs r0 r1 : Bytes} {n : U32} {wt : WireType} :
    readTag m bs = .ok ((n, wt), r0) → n ∈ extra → fs.mergeField m n wt v r0 = none → skipField m wt r0 = .ok r1 →
      r1.length < bs.length → FieldRun fs m extra v r1 v2 → FieldRun fs m extra v bs v2

theorem FieldRun.untilEof {β : Type} {fs : FieldsD β} {m : Mode} {extra : List U32} {v v' : β} {bs : Bytes}
    (h : FieldRun fs m extra v bs v') :
    ∀ fuel, bs.length ≤ fuel → untilEof (fs.mergeStep m) fuel v bs = .ok v' [] := by
  induction h with
  | done v => intro fuel _; exact untilEof_nil _ _ _
  | @step v v1 v2 bs r0 r1 n wt h1 h2 h3 _ ih =>
    intro fuel hf
    obtain ⟨f, hf', he⟩ := untilEof_step (fs.mergeStep m) fuel v v1 bs r1
      (by intro hn; rw [hn] at h3; simp at h3) (by unfold FieldsD.mergeStep; rw [h1]; simp only [h2]) h3 hf
    rw [he, ih f hf']
  | @skip v v2 bs r0 r1 n wt h1 _ h2 h3 h4 _ ih =>
    intro fuel hf
    obtain ⟨f, hf', he⟩ := untilEof_step (fs.mergeStep m) fuel v v bs r1
      (by intro hn; rw [hn] at h4; simp at h4) (by unfold FieldsD.mergeStep; rw [h1]; simp only [h2, h3]) h4 hf
    rw [he, ih f hf']

/-- Law of the fields of a struct or variant, reading what was written from fields of type `σ`, of which those with numbers in
`extra` are unknown to the reader. -/
structure FieldsDec {σ β : Type} (fs : FieldsD β) (tags extra : List U32) (enc : σ → Bytes) (strip : β → β) (see : σ → β)
    (carried : Mode → σ → Prop) : Prop where
  init_strip : ∀ rt rt', strip (fs.init rt) = strip (fs.init rt')
  unknown : ∀ m tag wt v bs, tag ∉ tags → fs.mergeField m tag wt v bs = none
  run : ∀ m rt v, carried m v → (enc v).length < 2 ^ 63 →
    ∃ v', FieldRun fs m extra (fs.init rt) (enc v) v' ∧ strip v' = see v

theorem fieldsDec_nil : FieldsDec fieldsNil [] [] (fun _ : Unit => []) id id (fun _ _ => True) :=
  ⟨fun _ _ => rfl, fun _ _ _ _ _ _ => rfl, fun _ _ _ _ _ => ⟨(), .done _, rfl⟩⟩

section
variable {σ τ α β : Type} {d : Dict α} {wire : Nat} {enc : σ → Bytes} {lo : σ → Bool} {strip : α → α} {see : σ → α}
  {carried : Mode → σ → Prop} {fs : FieldsD β} {tags extra : List U32} {enc' : τ → Bytes} {strip' : β → β} {see' : τ → β}
  {carried' : Mode → τ → Prop}

theorem FieldRun.lift (ds : Bool) (tag : U32) (attrs : FieldAttrs) {m : Mode} (x : α) {v v' : β} {bs : Bytes}
    (hu : ∀ m wt v bs, fs.mergeField m tag wt v bs = none) (he : tag ∉ extra) (h : FieldRun fs m extra v bs v') :
    FieldRun (fieldsCons ds tag attrs d fs) m extra (x, v) bs (x, v') := by
  induction h with
  | done v => exact .done _
  | @step v v1 v2 bs r0 r1 n wt h1 h2 h3 _ ih =>
    refine .step h1 ?_ h3 ih
    have hne : n ≠ tag := by intro hn; rw [hn, hu] at h2; cases h2
    show (if n = tag then _ else (fs.mergeField m n wt v r0).map (fun r => r.map (fun y => (x, y)))) = _
    rw [if_neg hne, h2]; rfl
  | @skip v v2 bs r0 r1 n wt h1 hm h2 h3 h4 _ ih =>
    refine .skip h1 hm ?_ h3 h4 ih
    have hne : n ≠ tag := by intro hn; rw [hn] at hm; exact he hm
    show (if n = tag then _ else (fs.mergeField m n wt v r0).map (fun r => r.map (fun y => (x, y)))) = _
    rw [if_neg hne, h2]; rfl

theorem FieldRun.more {m : Mode} {v v' : β} {bs : Bytes} (tag : U32) (h : FieldRun fs m extra v bs v') :
    FieldRun fs m (tag :: extra) v bs v' := by
  induction h with
  | done v => exact .done _
  | step h1 h2 h3 _ ih => exact .step h1 h2 h3 ih
  | skip h1 hm h2 h3 h4 _ ih => exact .skip h1 (List.mem_cons_of_mem _ hm) h2 h3 h4 ih

theorem fieldsCons_init (h : ReadLaw d wire enc lo strip see carried) (ds : Bool) (tag : U32) (attrs : FieldAttrs)
    (rt : Option Rt) : ∃ rt', (fieldsCons ds tag attrs d fs).init rt = (d.withRuntime rt', fs.init rt) := by
  cases rt with
  | none => exact ⟨Rt.dflt, by rw [← h.dflt_eq]; rfl⟩
  | some rt =>
    cases hb : ds && !attrs.noState
    · exact ⟨Rt.dflt, by rw [← h.dflt_eq]; simp [fieldsCons, hb]⟩
    · exact ⟨rt.nested tag, by simp [fieldsCons, hb]⟩

/-- A field both sides know. -/
theorem fieldsDec_cons (ds : Bool) (tag : U32) (attrs : FieldAttrs) (htag : tag.toNat < 2 ^ 29) (hnew : tag ∉ tags)
    (hex : tag ∉ extra) (h : ReadLaw d wire enc lo strip see carried)
    (hf : FieldsDec fs tags extra enc' strip' see' carried') :
    FieldsDec (fieldsCons ds tag attrs d fs) (tag :: tags) extra
      (fun v : σ × τ => (if lo v.1 then [] else leb (tag.toNat * 8 + wire) ++ framed wire (enc v.1)) ++ enc' v.2)
      (fun v => (strip v.1, strip' v.2)) (fun v => (see v.1, see' v.2)) (fun m v => carried m v.1 ∧ carried' m v.2) where
  init_strip := by
    intro rt rt'
    obtain ⟨r1, h1⟩ := fieldsCons_init (fs := fs) h ds tag attrs rt
    obtain ⟨r2, h2⟩ := fieldsCons_init (fs := fs) h ds tag attrs rt'
    rw [h1, h2]
    simp only [h.init_strip r1 r2, hf.init_strip rt rt']
  unknown := by
    intro m t wt v bs ht
    simp only [List.mem_cons, not_or] at ht
    show (if t = tag then _ else (fs.mergeField m t wt v.2 bs).map _) = _
    rw [if_neg ht.1, hf.unknown m t wt v.2 bs ht.2]; rfl
  run := by
    intro m rt v hc hlen
    simp only [List.length_append] at hlen
    obtain ⟨r1, h1⟩ := fieldsCons_init (fs := fs) h ds tag attrs rt
    obtain ⟨y, h3, h4⟩ := hf.run m rt v.2 hc.2 (by omega)
    have hlift : ∀ x, FieldRun (fieldsCons ds tag attrs d fs) m extra (x, fs.init rt) (enc' v.2) (x, y) :=
      fun x => h3.lift ds tag attrs x (fun m wt v bs => hf.unknown m tag wt v bs hnew) hex
    rw [h1]
    cases hlo : lo v.1 with
    | true =>
      refine ⟨(d.withRuntime r1, y), ?_, by simp only [h4, h.lo_dflt v.1 r1 ⟨m, hc.1⟩ hlo]⟩
      simpa [hlo] using hlift (d.withRuntime r1)
    | false =>
      simp only [hlo, Bool.false_eq_true, if_false, List.length_append] at hlen ⊢
      obtain ⟨x, h5, h6⟩ := h.roundNestedWide m r1 v.1 (enc' v.2) hc.1 (by omega)
      refine ⟨(x, y), ?_, by simp only [h4, h6]⟩
      have hk := readTag_key m tag d.wire (framed wire (enc v.1) ++ enc' v.2) htag
      rw [h.wire_eq, ← List.append_assoc] at hk
      refine .step hk (v1 := (x, fs.init rt)) (r1 := enc' v.2) ?_ ?_ (hlift x)
      · show (if tag = tag then some ((d.mergeNested m (d.withRuntime r1) d.wire _).map _) else _) = _
        rw [if_pos rfl, h5]; rfl
      · have := leb_length_pos (tag.toNat * 8 + wire)
        simp only [List.length_append]; omega

/-- A field only the writer knows: skipped. -/
theorem fieldsDec_add {ρ : Type} {wt : WireType} {encx : ρ → Bytes} {lox : ρ → Bool} {carriedx : Mode → ρ → Prop}
    (tag : U32) (htag : tag.toNat < 2 ^ 29) (hnew : tag ∉ tags)
    (hskip : ∀ m x rest, carriedx m x → lox x = false → (framed wt.num (encx x)).length < 2 ^ 63 →
      skipField m wt (framed wt.num (encx x) ++ rest) = .ok rest)
    (hf : FieldsDec fs tags extra enc' strip' see' carried') :
    FieldsDec fs tags (tag :: extra)
      (fun v : ρ × τ =>
        (if lox v.1 then [] else leb (tag.toNat * 8 + wt.num) ++ framed wt.num (encx v.1)) ++ enc' v.2)
      strip' (fun v => see' v.2) (fun m v => carriedx m v.1 ∧ carried' m v.2) where
  init_strip := hf.init_strip
  unknown := hf.unknown
  run := by
    intro m rt v hc hlen
    simp only [List.length_append] at hlen
    obtain ⟨y, h3, h4⟩ := hf.run m rt v.2 hc.2 (by omega)
    refine ⟨y, ?_, h4⟩
    cases hlo : lox v.1 with
    | true => simpa [hlo] using h3.more tag
    | false =>
      simp only [hlo, Bool.false_eq_true, if_false, List.length_append] at hlen ⊢
      have hk := readTag_key m tag wt (framed wt.num (encx v.1) ++ enc' v.2) htag
      rw [← List.append_assoc] at hk
      refine .skip hk List.mem_cons_self (hf.unknown _ _ _ _ _ hnew)
        (hskip m v.1 (enc' v.2) hc.1 hlo (by omega)) ?_ (h3.more tag)
      have := leb_length_pos (tag.toNat * 8 + wt.num)
      simp only [List.length_append]; omega

/-- A field whose wire type has changed: skipped and left at its default. -/
theorem fieldsDec_retype {ρ : Type} {wt : WireType} {encx : ρ → Bytes} {lox : ρ → Bool} {carriedx : Mode → ρ → Prop}
    (ds : Bool) (tag : U32) (attrs : FieldAttrs) (htag : tag.toNat < 2 ^ 29) (hnew : tag ∉ tags) (hex : tag ∉ extra)
    (hwt : wt ≠ d.wire)
    (hskip : ∀ m x rest, carriedx m x → lox x = false → (framed wt.num (encx x)).length < 2 ^ 63 →
      skipField m wt (framed wt.num (encx x) ++ rest) = .ok rest)
    (h : ReadLaw d wire enc lo strip see carried) (hf : FieldsDec fs tags extra enc' strip' see' carried') :
    FieldsDec (fieldsCons ds tag attrs d fs) (tag :: tags) extra
      (fun v : ρ × τ =>
        (if lox v.1 then [] else leb (tag.toNat * 8 + wt.num) ++ framed wt.num (encx v.1)) ++ enc' v.2)
      (fun v => (strip v.1, strip' v.2)) (fun v => (strip d.dflt, see' v.2))
      (fun m v => carriedx m v.1 ∧ carried' m v.2) where
  init_strip := by
    intro rt rt'
    obtain ⟨r1, h1⟩ := fieldsCons_init (fs := fs) h ds tag attrs rt
    obtain ⟨r2, h2⟩ := fieldsCons_init (fs := fs) h ds tag attrs rt'
    rw [h1, h2]
    simp only [h.init_strip r1 r2, hf.init_strip rt rt']
  unknown := by
    intro m t wt v bs ht
    simp only [List.mem_cons, not_or] at ht
    show (if t = tag then _ else (fs.mergeField m t wt v.2 bs).map _) = _
    rw [if_neg ht.1, hf.unknown m t wt v.2 bs ht.2]; rfl
  run := by
    intro m rt v hc hlen
    simp only [List.length_append] at hlen
    obtain ⟨r1, h1⟩ := fieldsCons_init (fs := fs) h ds tag attrs rt
    obtain ⟨y, h3, h4⟩ := hf.run m rt v.2 hc.2 (by omega)
    have hlift := h3.lift (d := d) ds tag attrs (d.withRuntime r1) (fun m wt v bs => hf.unknown m tag wt v bs hnew) hex
    rw [h1]
    refine ⟨(d.withRuntime r1, y), ?_, by rw [h.dflt_eq, h.init_strip r1 Rt.dflt, h4]⟩
    cases hlo : lox v.1 with
    | true => simpa [hlo] using hlift
    | false =>
      simp only [hlo, Bool.false_eq_true, if_false, List.length_append] at hlen ⊢
      have hk := readTag_key m tag wt (framed wt.num (encx v.1) ++ enc' v.2) htag
      rw [← List.append_assoc] at hk
      refine .step hk (v1 := (d.withRuntime r1, fs.init rt)) (r1 := enc' v.2) ?_ ?_ hlift
      · show (if tag = tag then some ((d.mergeNested m (d.withRuntime r1) wt _).map _) else _) = _
        rw [if_pos rfl]
        unfold Dict.mergeNested
        rw [if_pos hwt, hskip m v.1 (enc' v.2) hc.1 hlo (by omega)]
        rfl
      · have := leb_length_pos (tag.toNat * 8 + wt.num)
        simp only [List.length_append]; omega

/-- A field only the reader knows: left at its default. -/
theorem fieldsDec_drop (ds : Bool) (tag : U32) (attrs : FieldAttrs) (hnew : tag ∉ tags) (hex : tag ∉ extra)
    (h : ReadLaw d wire enc lo strip see carried) (hf : FieldsDec fs tags extra enc' strip' see' carried') :
    FieldsDec (fieldsCons ds tag attrs d fs) (tag :: tags) extra enc' (fun v => (strip v.1, strip' v.2))
      (fun v => (strip d.dflt, see' v)) carried' where
  init_strip := by
    intro rt rt'
    obtain ⟨r1, h1⟩ := fieldsCons_init (fs := fs) h ds tag attrs rt
    obtain ⟨r2, h2⟩ := fieldsCons_init (fs := fs) h ds tag attrs rt'
    rw [h1, h2]
    simp only [h.init_strip r1 r2, hf.init_strip rt rt']
  unknown := by
    intro m t wt v bs ht
    simp only [List.mem_cons, not_or] at ht
    show (if t = tag then _ else (fs.mergeField m t wt v.2 bs).map _) = _
    rw [if_neg ht.1, hf.unknown m t wt v.2 bs ht.2]; rfl
  run := by
    intro m rt v hc hlen
    obtain ⟨r1, h1⟩ := fieldsCons_init (fs := fs) h ds tag attrs rt
    obtain ⟨y, h3, h4⟩ := hf.run m rt v hc hlen
    rw [h1]
    refine ⟨(d.withRuntime r1, y), h3.lift ds tag attrs _ (fun m wt v bs => hf.unknown m tag wt v bs hnew) hex, ?_⟩
    rw [h.dflt_eq, h.init_strip r1 Rt.dflt, h4]

end

theorem readLaw_struct {σ β : Type} {fs : FieldsD β} {tags extra : List U32} {enc : σ → Bytes} {strip : β → β}
    {see : σ → β} {carried : Mode → σ → Prop} (ds cached : Bool) (h : FieldsDec fs tags extra enc strip see carried) :
    ReadLaw (structDict ds cached fs) 2 (fun v : StructV σ => enc v.fields) (fun v => (enc v.fields).isEmpty)
      (fun v => ⟨Rt.dflt, strip v.fields⟩) (fun v => ⟨Rt.dflt, see v.fields⟩) (fun m v => carried m v.fields) := by
  cases ds with
  | true =>
    refine ReadLaw.ofLoop rfl rfl (fun rt rt' => ?_) (fun m v => ?_) ?_
    · show StructV.mk _ _ = StructV.mk _ _
      exact congrArg _ (h.init_strip (some rt) (some rt'))
    · show (fs.merge m v.fields []).map _ = _
      unfold FieldsD.merge; rw [untilEof_nil]; rfl
    · intro m rt v hc hlen
      obtain ⟨v', h1, h2⟩ := h.run m (some rt) v.fields hc hlen
      refine ⟨⟨rt, v'⟩, ?_, by simp only [h2]⟩
      show (fs.merge m (fs.init (some rt)) _).map _ = _
      unfold FieldsD.merge; rw [h1.untilEof _ (Nat.le_refl _)]; rfl
  | false =>
    refine ReadLaw.ofLoop rfl rfl (fun rt rt' => rfl) (fun m v => ?_) ?_
    · show (fs.merge m v.fields []).map _ = _
      unfold FieldsD.merge; rw [untilEof_nil]; rfl
    · intro m rt v hc hlen
      obtain ⟨v', h1, h2⟩ := h.run m none v.fields hc hlen
      refine ⟨⟨Rt.dflt, v'⟩, ?_, by simp only [h2]⟩
      show (fs.merge m (fs.init none) _).map _ = _
      unfold FieldsD.merge; rw [h1.untilEof _ (Nat.le_refl _)]; rfl

/-! ### Enums -/

/-- Law of the variants of an enum, reading what was written from variants of type `σ`; `see` is `none` on variants the reader
does not know. -/
structure VariantsDec {σ γ : Type} (vs : VariantsD γ) (tags : List U32) (enc : σ → Bytes) (strip : γ → γ)
    (see : σ → Option γ) (carried : Mode → σ → Prop) : Prop where
  tag_mem : ∀ v, vs.tagOf v ∈ tags
  ctor_some : ∀ tag rt v, vs.ctor tag rt = some v → vs.tagOf v = tag
  ctor_none : ∀ tag rt, tag ∉ tags → vs.ctor tag rt = none
  roundWide : ∀ m v, carried m v → (enc v).length < 2 ^ 63 →
    ∃ (tag : U32) (payload : Bytes), enc v = leb tag.toNat ++ payload ∧ ∀ rt, ∃ v0 v', vs.ctor tag rt = some v0 ∧
      vs.mergeFields m v0 payload = .ok v' [] ∧ see v = some (strip v')

theorem variantsDec_nil : VariantsDec variantsNil [] (fun v : Empty => nomatch v) id (fun v => nomatch v) (fun _ _ => True) :=
  ⟨fun v => (nomatch v), fun _ _ v => (nomatch v), fun _ _ _ => rfl, fun _ v => (nomatch v)⟩

section
variable {σ τ β γ : Type} {fs : FieldsD β} {ftags extra : List U32} {enc : σ → Bytes} {strip : β → β} {see : σ → β}
  {carried : Mode → σ → Prop} {vs : VariantsD γ} {tags : List U32} {enc' : τ → Bytes} {strip' : γ → γ}
  {see' : τ → Option γ} {carried' : Mode → τ → Prop}

theorem variantsCons_tag_mem (tag : U32) (cached : Bool) (hv : VariantsDec vs tags enc' strip' see' carried') :
    ∀ v, (variantsCons tag cached fs vs).tagOf v ∈ tag :: tags := by
  rintro (v | v)
  · exact List.mem_cons_self
  · exact List.mem_cons_of_mem _ (hv.tag_mem v)

theorem variantsCons_ctor_some (tag : U32) (cached : Bool) (hv : VariantsDec vs tags enc' strip' see' carried') :
    ∀ t rt v, (variantsCons tag cached fs vs).ctor t rt = some v → (variantsCons tag cached fs vs).tagOf v = t := by
  intro t rt v h
  change (if t = tag then some (Sum.inl (fs.init rt)) else (vs.ctor t rt).map .inr) = some v at h
  split at h
  · next ht => cases h; exact ht.symm
  · cases hc : vs.ctor t rt with
    | none => rw [hc] at h; cases h
    | some x => rw [hc] at h; cases h; exact hv.ctor_some t rt x hc

theorem variantsCons_ctor_none (tag : U32) (cached : Bool) (hv : VariantsDec vs tags enc' strip' see' carried') :
    ∀ t rt, t ∉ tag :: tags → (variantsCons tag cached fs vs).ctor t rt = none := by
  intro t rt ht
  simp only [List.mem_cons, not_or] at ht
  show (if t = tag then some (Sum.inl (fs.init rt)) else (vs.ctor t rt).map .inr) = none
  rw [if_neg ht.1, hv.ctor_none t rt ht.2]; rfl

theorem variantsCons_round (tag : U32) (cached : Bool) (hnew : tag ∉ tags)
    (hv : VariantsDec vs tags enc' strip' see' carried') (m : Mode) (v : τ) (hc : carried' m v)
    (hlen : (enc' v).length < 2 ^ 63) :
    ∃ (t : U32) (payload : Bytes), enc' v = leb t.toNat ++ payload ∧ ∀ rt, ∃ v0 v',
      (variantsCons tag cached fs vs).ctor t rt = some v0 ∧
      (variantsCons tag cached fs vs).mergeFields m v0 payload = .ok v' [] ∧
      (see' v).map Sum.inr = some (Sum.map strip strip' v') := by
  obtain ⟨t, payload, h1, h2⟩ := hv.roundWide m v hc hlen
  have hne : t ≠ tag := by
    intro he
    obtain ⟨v0, v', h3, _⟩ := h2 none
    rw [he, hv.ctor_none tag none hnew] at h3
    cases h3
  refine ⟨t, payload, h1, fun rt => ?_⟩
  obtain ⟨v0, v', h3, h4, h5⟩ := h2 rt
  refine ⟨.inr v0, .inr v', ?_, ?_, by rw [h5]; rfl⟩
  · show (if t = tag then _ else (vs.ctor t rt).map Sum.inr) = _
    rw [if_neg hne, h3]; rfl
  · show (vs.mergeFields m v0 payload).map Sum.inr = _
    rw [h4]; rfl

/-- A variant both sides know. -/
theorem variantsDec_cons (tag : U32) (cached : Bool) (hnew : tag ∉ tags)
    (hf : FieldsDec fs ftags extra enc strip see carried) (hv : VariantsDec vs tags enc' strip' see' carried') :
    VariantsDec (variantsCons tag cached fs vs) (tag :: tags)
      (Sum.elim (fun x => leb tag.toNat ++ enc x) enc') (Sum.map strip strip')
      (Sum.elim (fun x => some (Sum.inl (see x))) (fun x => (see' x).map Sum.inr))
      (fun m => Sum.elim (carried m) (carried' m)) where
  tag_mem := variantsCons_tag_mem tag cached hv
  ctor_some := variantsCons_ctor_some tag cached hv
  ctor_none := variantsCons_ctor_none tag cached hv
  roundWide := by
    intro m v hc hlen
    cases v with
    | inl x =>
      simp only [Sum.elim_inl, List.length_append] at hlen hc
      refine ⟨tag, enc x, rfl, fun rt => ?_⟩
      obtain ⟨x', h1, h2⟩ := hf.run m rt x hc (by omega)
      refine ⟨.inl (fs.init rt), .inl x', ?_, ?_, by simp [Sum.map, h2]⟩
      · show (if tag = tag then some (Sum.inl (fs.init rt)) else _) = _
        rw [if_pos rfl]
      · show (fs.merge m (fs.init rt) (enc x)).map Sum.inl = _
        unfold FieldsD.merge; rw [h1.untilEof _ (Nat.le_refl _)]; rfl
    | inr x => exact variantsCons_round tag cached hnew hv m x hc hlen

/-- A variant only the writer knows: it cannot be read. -/
theorem variantsDec_add {ρ : Type} (encx : ρ → Bytes) (hv : VariantsDec vs tags enc' strip' see' carried') :
    VariantsDec vs tags (Sum.elim encx enc') strip' (Sum.elim (fun _ => none) see')
      (fun m => Sum.elim (fun _ => False) (carried' m)) where
  tag_mem := hv.tag_mem
  ctor_some := hv.ctor_some
  ctor_none := hv.ctor_none
  roundWide := by
    intro m v hc hlen
    cases v with
    | inl x => exact absurd hc id
    | inr x => exact hv.roundWide m x hc hlen

/-- A variant only the reader knows. -/
theorem variantsDec_drop (strip : β → β) (tag : U32) (cached : Bool) (hnew : tag ∉ tags)
    (hv : VariantsDec vs tags enc' strip' see' carried') :
    VariantsDec (variantsCons tag cached fs vs) (tag :: tags) enc' (Sum.map strip strip')
      (fun x => (see' x).map Sum.inr) carried' where
  tag_mem := variantsCons_tag_mem tag cached hv
  ctor_some := variantsCons_ctor_some tag cached hv
  ctor_none := variantsCons_ctor_none tag cached hv
  roundWide := fun m v hc hlen => variantsCons_round tag cached hnew hv m v hc hlen

end

theorem Rt.parent_nested (rt : Rt) (n : U32) : (rt.nested n).parent = .ok rt := by
  unfold Rt.parent Rt.nested
  simp

theorem readLaw_enum {σ γ : Type} {vs : VariantsD γ} {tags : List U32} {enc : σ → Bytes} {strip : γ → γ}
    {see : σ → Option γ} {see' : σ → γ} {carried : Mode → σ → Prop} (ds : Bool) (dfltVal : Option Rt → γ)
    (h : VariantsDec vs tags enc strip see carried) (hsee : ∀ m v, carried m v → see v = some (see' v))
    (hd : ∀ rt, vs.ctor 0#32 rt = some (dfltVal rt))
    (hi : ∀ rt rt', strip (dfltVal rt) = strip (dfltVal rt'))
    (hne : ∀ v, enc v ≠ []) :
    ReadLaw (enumDict ds vs dfltVal) 2 (fun v : EnumV σ => enc v.val) (fun v => (enc v.val).isEmpty)
      (fun v => ⟨Rt.dflt, strip v.val⟩) (fun v => ⟨Rt.dflt, see' v.val⟩) (fun m v => carried m v.val) := by
  have hd0 : ∀ rt, vs.tagOf (dfltVal rt) = 0#32 := fun rt => h.ctor_some _ rt _ (hd rt)
  have h8 : ∀ (u : U32), u.toNat < 2 ^ 32 := fun u => u.isLt
  cases ds with
  | true =>
    refine ReadLaw.ofSized rfl rfl (fun rt rt' => ?_) (fun v _ _ he => absurd he (hne _)) ?_
    · show EnumV.mk _ _ = EnumV.mk _ _
      exact congrArg _ (hi _ _)
    · intro m rt v hc hlen
      obtain ⟨tag, payload, h1, h5⟩ := h.roundWide m v.val hc hlen
      obtain ⟨v0, v', h2, h3, h4⟩ := h5 (some (rt.nested tag))
      rw [hsee m v.val hc] at h4
      refine ⟨⟨rt.nested tag, v'⟩, ?_, by simp only [Option.some.inj h4]⟩
      show enumMerge true vs m ⟨rt.nested 0#32, dfltVal (some (rt.nested 0#32))⟩ (enc v.val) = _
      unfold enumMerge
      rw [h1, getVarint_leb m _ _ (h8 _) (by decide)]
      simp only [BitVec.ofNat_toNat, BitVec.setWidth_eq, hd0, if_true]
      split
      · next ht =>
        rw [ht, hd] at h2
        cases h2
        rw [h3, ht]; rfl
      · simp only [Rt.parent_nested, h2, h3]; rfl
  | false =>
    refine ReadLaw.ofSized rfl rfl (fun rt rt' => rfl) (fun v _ _ he => absurd he (hne _)) ?_
    · intro m rt v hc hlen
      obtain ⟨tag, payload, h1, h5⟩ := h.roundWide m v.val hc hlen
      obtain ⟨v0, v', h2, h3, h4⟩ := h5 none
      rw [hsee m v.val hc] at h4
      refine ⟨⟨Rt.dflt, v'⟩, ?_, by simp only [Option.some.inj h4]⟩
      show enumMerge false vs m ⟨Rt.dflt, dfltVal none⟩ (enc v.val) = _
      unfold enumMerge
      rw [h1, getVarint_leb m _ _ (h8 _) (by decide)]
      simp only [BitVec.ofNat_toNat, BitVec.setWidth_eq, hd0]
      split
      · next ht =>
        rw [ht, hd] at h2
        cases h2
        rw [h3]; rfl
      · simp only [Bool.false_eq_true, if_false, h2, h3]; rfl

end Steit
