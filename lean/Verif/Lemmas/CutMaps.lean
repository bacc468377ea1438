import Verif.Lemmas.CutImpls

/-! # What is read from an encoding cut short: tuples and maps -/

namespace Steit
open Spec

theorem CutLaw.deser_nil {α : Type} {d : Dict α} {wire : Nat} {enc : α → Bytes} {lo : α → Bool} {strip : α → α}
    {carried : α → Prop} {blank : α → Prop} {rem : α → α → Prop} (h : DecLaw d wire enc lo strip carried)
    (c : CutLaw d wire enc lo strip carried blank rem) (m : Mode) :
    d.deserializeNested m d.wire [] = .error .unexpectedEof := by
  obtain ⟨v', h1⟩ := c.nested_nil h m d.dflt
  unfold Dict.deserializeNested
  rw [h1]

/-! ### Tuples -/

/-- The same for the components of a tuple. -/
structure TupleCut {α : Type} (t : TupleD α) (enc : α → Bytes) (strip : α → α) (carried : α → Prop) (blank : α → Prop)
    (rem : α → α → Prop) : Prop where
  blank_iff : ∀ w, blank w ↔ strip w = strip t.dflt
  whole : ∀ w v, strip w = strip v → rem w v
  cut : ∀ m v p, carried v → (enc v).length < 2 ^ 32 → p <+: enc v → p ≠ enc v →
    (∃ w, t.read m p = .ok (w, []) ∧ rem w v) ∨ ∃ e, t.read m p = .error e ∧ Refused e
  reach : ∀ v w, carried v → (enc v).length < 2 ^ 32 → rem w v →
    ∃ p, p <+: enc v ∧ ∀ m, ∃ w', t.read m p = .ok (w', []) ∧ strip w' = strip w

theorem tupleCut_nil : TupleCut tupleNil (fun _ : Unit => []) id (fun _ => True) (fun _ => True) (fun _ _ => True) :=
  ⟨fun _ => ⟨fun _ => rfl, fun _ => trivial⟩, fun _ _ _ => trivial, fun _ _ _ _ _ hp hne => absurd (List.prefix_nil.1 hp) hne,
    fun _ _ _ _ _ => ⟨[], List.prefix_rfl, fun _ => ⟨(), rfl, rfl⟩⟩⟩

section
variable {α β : Type} {d : Dict α} {wire : Nat} {enc : α → Bytes} {lo : α → Bool} {strip : α → α} {carried : α → Prop}
  {blank : α → Prop} {rem : α → α → Prop} {t : TupleD β} {enc' : β → Bytes} {strip' : β → β} {carried' : β → Prop}
  {blank' : β → Prop} {rem' : β → β → Prop}

theorem tupleRead (m : Mode) (p : Bytes) : (tupleCons d t).read m p =
    match d.deserializeNested m d.wire p with
      | .error e => Except.error e
      | .ok (x, rest) =>
        match t.read m rest with
        | .error e => Except.error e
        | .ok (y, rest) => Except.ok ((x, y), rest) := rfl

theorem tupleCut_blank (h : DecLaw d wire enc lo strip carried) (c : CutLaw d wire enc lo strip carried blank rem)
    (hb : ∀ w, blank' w ↔ strip' w = strip' t.dflt) (w : α × β) :
    (blank w.1 ∧ blank' w.2) ↔ (strip w.1, strip' w.2) = (strip (tupleCons d t).dflt.1, strip' (tupleCons d t).dflt.2) := by
  rw [Prod.mk.injEq, c.blank_iff w.1 Rt.dflt, hb]
  show _ ↔ strip w.1 = strip d.dflt ∧ strip' w.2 = strip' t.dflt
  rw [h.dflt_eq]

/-- The last component. -/
theorem tupleCut_last (h : DecLaw d wire enc lo strip carried) (c : CutLaw d wire enc lo strip carried blank rem)
    (henc : ∀ v, enc' v = []) (hread : ∀ m, t.read m [] = .ok (t.dflt, []))
    (hb : ∀ w, blank' w ↔ strip' w = strip' t.dflt) (hone : ∀ w v, strip' w = strip' v) :
    TupleCut (tupleCons d t) (fun v : α × β => framed wire (enc v.1) ++ enc' v.2) (fun v => (strip v.1, strip' v.2))
      (fun v => carried v.1 ∧ carried' v.2) (fun v => blank v.1 ∧ blank' v.2) (fun w v => rem w.1 v.1) where
  blank_iff := tupleCut_blank h c hb
  whole := fun w v hs => c.whole _ _ (Prod.mk.inj hs).1
  cut := by
    intro m v p hc hlen hp hne
    rw [henc, List.append_nil] at hlen hp hne
    rw [tupleRead]
    rcases c.cutDeser h m v.1 p hc.1 hlen hp hne with ⟨w, h1, h2⟩ | ⟨e, h1, h2⟩
    · rw [h1]; simp only [hread]; exact .inl ⟨_, rfl, h2⟩
    · rw [h1]; exact .inr ⟨e, rfl, h2⟩
  reach := by
    intro v w hc hlen hr
    rw [henc, List.append_nil] at hlen ⊢
    obtain ⟨p, h1, _, h2⟩ := c.reachDeser h v.1 w.1 hc.1 hlen hr
    refine ⟨p, h1, fun m => ?_⟩
    obtain ⟨w', h3, h4⟩ := h2 m
    refine ⟨(w', t.dflt), ?_, by simp only [h4, hone t.dflt w.2]⟩
    rw [tupleRead, h3]; simp only [hread]

/-- Any other component. -/
theorem tupleCut_cons (h : DecLaw d wire enc lo strip carried) (c : CutLaw d wire enc lo strip carried blank rem)
    (ht : TupleDec t enc' strip' strip' (fun _ => carried')) (k : TupleCut t enc' strip' carried' blank' rem')
    (hstarve : ∀ m, t.read m [] = .error .unexpectedEof) :
    TupleCut (tupleCons d t) (fun v : α × β => framed wire (enc v.1) ++ enc' v.2) (fun v => (strip v.1, strip' v.2))
      (fun v => carried v.1 ∧ carried' v.2) (fun v => blank v.1 ∧ blank' v.2)
      (fun w v => strip w.1 = strip v.1 ∧ rem' w.2 v.2) where
  blank_iff := tupleCut_blank h c k.blank_iff
  whole := fun w v hs => ⟨(Prod.mk.inj hs).1, k.whole _ _ (Prod.mk.inj hs).2⟩
  cut := by
    intro m v p hc hlen hp hne
    simp only [List.length_append] at hlen
    rw [tupleRead]
    rcases prefix_append_cases hp with ⟨h1, h2⟩ | ⟨q, rfl, h2⟩
    · rcases c.cutDeser h m v.1 p hc.1 (by omega) h1 h2 with ⟨w, h3, h4⟩ | ⟨e, h3, h4⟩
      · rw [h3]; simp only [hstarve]; exact .inr ⟨_, rfl, .inl rfl⟩
      · rw [h3]; exact .inr ⟨e, rfl, h4⟩
    · obtain ⟨x, h3, h4⟩ := h.deserNested m v.1 q hc.1 (by omega)
      rw [h3]
      rcases k.cut m v.2 q hc.2 (by omega) h2 (fun he => hne (by rw [he])) with ⟨w, h5, h6⟩ | ⟨e, h5, h6⟩
      · simp only [h5]; exact .inl ⟨_, rfl, h4, h6⟩
      · simp only [h5]; exact .inr ⟨e, rfl, h6⟩
  reach := by
    intro v w hc hlen hr
    simp only [List.length_append] at hlen
    obtain ⟨p, h1, h2⟩ := k.reach v.2 w.2 hc.2 (by omega) hr.2
    refine ⟨framed wire (enc v.1) ++ p, (List.prefix_append_right_inj _).2 h1, fun m => ?_⟩
    obtain ⟨w', h3, h4⟩ := h2 m
    obtain ⟨x, h5, h6⟩ := h.deserNested m v.1 p hc.1 (by omega)
    refine ⟨(x, w'), ?_, by simp only [h4, h6, hr.1]⟩
    rw [tupleRead, h5]; simp only [h3]

theorem tuple_starve (h : DecLaw d wire enc lo strip carried) (c : CutLaw d wire enc lo strip carried blank rem) (m : Mode) :
    (tupleCons d t).read m [] = .error .unexpectedEof := by
  rw [tupleRead, c.deser_nil h m]

end

theorem cutLaw_tuple {α : Type} {t : TupleD α} {enc : α → Bytes} {strip : α → α} {carried : α → Prop} {blank : α → Prop}
    {rem : α → α → Prop} (h : TupleDec t enc strip strip (fun _ => carried)) (k : TupleCut t enc strip carried blank rem) :
    CutLaw (tupleDict t) 2 enc (fun v => (enc v).isEmpty) strip carried blank rem := by
  have hm : ∀ m rt p, (tupleDict t).merge m ((tupleDict t).withRuntime rt) p = match t.read m p with
      | .error e => Res.err t.dflt e
      | .ok (v', _) => .ok v' [] := fun _ _ _ => rfl
  refine CutLaw.ofSized (readLaw_tuple h) (fun w rt => k.blank_iff w) k.whole ?_ ?_
  · intro m rt v p hc hlen hp hne
    rw [hm]
    rcases k.cut m v p hc hlen hp hne with ⟨w, h1, h2⟩ | ⟨e, h1, h2⟩
    · rw [h1]; exact .inl ⟨w, rfl, h2⟩
    · rw [h1]; exact .inr ⟨_, e, rfl, h2⟩
  · intro v w hc hlen hr
    obtain ⟨p, h1, h2⟩ := k.reach v w hc hlen hr
    refine ⟨p, h1, fun m rt => ?_⟩
    obtain ⟨w', h3, h4⟩ := h2 m
    exact ⟨w', by rw [hm, h3], h4⟩

/-! ### Hash maps -/

section
variable {κ ν : Type} {eq : κ → κ → Bool} {dk : Dict κ} {dv : Dict ν} {wk wv : Nat} {enck : κ → Bytes}
  {encv : ν → Bytes} {lok : κ → Bool} {lov : ν → Bool} {stripk : κ → κ} {stripv : ν → ν} {ck : κ → Prop} {cv : ν → Prop}
  {blankk : κ → Prop} {remk : κ → κ → Prop} {blankv : ν → Prop} {remv : ν → ν → Prop}

/-- What the loop over entries needs: entries to come are fine, and their keys are new. -/
def FineEntries (eq : κ → κ → Bool) (wk wv : Nat) (enck : κ → Bytes) (encv : ν → Bytes) (ck : κ → Prop) (cv : ν → Prop)
    (acc xs : List (κ × ν)) : Prop :=
  (∀ e ∈ xs, ck e.1 ∧ cv e.2 ∧ (framed wk (enck e.1)).length < 2 ^ 32 ∧ (framed wv (encv e.2)).length < 2 ^ 32) ∧
    (∀ a ∈ acc, ∀ e ∈ xs, eq a.1 e.1 = false) ∧ xs.Pairwise (fun e e' => eq e.1 e'.1 = false)

theorem fineEntries_of {v : List (κ × ν)} (hc : (∀ e ∈ v, ck e.1 ∧ cv e.2) ∧ v.Pairwise (fun e e' => eq e.1 e'.1 = false))
    (hlen : (v.flatMap (fun e => framed wk (enck e.1) ++ framed wv (encv e.2))).length < 2 ^ 32) :
    FineEntries eq wk wv enck encv ck cv [] v :=
  ⟨fun e he => by
    have := mem_flatMap_length (f := fun e => framed wk (enck e.1) ++ framed wv (encv e.2)) he
    simp only [List.length_append] at this
    exact ⟨(hc.1 e he).1, (hc.1 e he).2, by omega, by omega⟩, by simp, hc.2⟩

theorem FineEntries.next (heq : ∀ a b, eq (stripk a) (stripk b) = eq a b) {acc xs : List (κ × ν)} {x y : κ × ν}
    (h : FineEntries eq wk wv enck encv ck cv acc (x :: xs)) (hy : stripk y.1 = stripk x.1) :
    FineEntries eq wk wv enck encv ck cv (acc ++ [y]) xs := by
  obtain ⟨h1, h2, h3⟩ := h
  refine ⟨fun e he => h1 e (by simp [he]), fun a ha e he => ?_, (List.pairwise_cons.1 h3).2⟩
  rcases List.mem_append.1 ha with ha | ha
  · exact h2 a ha e (by simp [he])
  · rw [List.mem_singleton.1 ha, ← heq, hy, heq]
    exact (List.pairwise_cons.1 h3).1 e he

theorem FineEntries.new (heq : ∀ a b, eq (stripk a) (stripk b) = eq a b) {acc xs : List (κ × ν)} {x : κ × ν} {k : κ}
    (h : FineEntries eq wk wv enck encv ck cv acc (x :: xs)) (hy : stripk k = stripk x.1) : ∀ a ∈ acc, eq a.1 k = false := by
  intro a ha
  rw [← heq, hy, heq]
  exact h.2.1 a ha x (by simp)

theorem hashMap_full (hk : DecLaw dk wk enck lok stripk ck) (hv : DecLaw dv wv encv lov stripv cv)
    (heq : ∀ a b, eq (stripk a) (stripk b) = eq a b) (m : Mode) (acc : List (κ × ν)) (x : κ × ν) (xs : List (κ × ν))
    (rest : Bytes) (hi : FineEntries eq wk wv enck encv ck cv acc (x :: xs)) :
    ∃ y, hashMapStep eq dk dv m acc ((framed wk (enck x.1) ++ framed wv (encv x.2)) ++ rest) = .ok (acc ++ [y]) rest ∧
      ((stripk y.1, stripv y.2) = (stripk x.1, stripv x.2)) ∧ FineEntries eq wk wv enck encv ck cv (acc ++ [y]) xs := by
  obtain ⟨h1, h2, h3, h4⟩ := hi.1 x (by simp)
  obtain ⟨k, h5, h6⟩ := hk.deserNested m x.1 (framed wv (encv x.2) ++ rest) h1 h3
  obtain ⟨v, h7, h8⟩ := hv.deserNested m x.2 rest h2 h4
  refine ⟨(k, v), ?_, by simp only [h6, h8], hi.next heq h6⟩
  unfold hashMapStep
  rw [List.append_assoc, h5]
  simp only [h7, hashInsert_new k v acc (hi.new heq h6)]

theorem cutLaw_hashMap (hk : DecLaw dk wk enck lok stripk ck) (kk : CutLaw dk wk enck lok stripk ck blankk remk)
    (hv : DecLaw dv wv encv lov stripv cv) (kv : CutLaw dv wv encv lov stripv cv blankv remv)
    (heq : ∀ a b, eq (stripk a) (stripk b) = eq a b) :
    CutLaw (hashMapDict eq dk dv) 2 (fun v => v.flatMap (fun e => framed wk (enck e.1) ++ framed wv (encv e.2)))
      (fun v => (v.flatMap (fun e => framed wk (enck e.1) ++ framed wv (encv e.2))).isEmpty)
      (List.map (fun e => (stripk e.1, stripv e.2)))
      (fun v => (∀ e ∈ v, ck e.1 ∧ cv e.2) ∧ v.Pairwise (fun e e' => eq e.1 e'.1 = false)) (fun v => v = [])
      (RemainsItems (fun e e' => stripk e.1 = stripk e'.1 ∧ stripv e.2 = stripv e'.2)
        (fun e e' => stripk e.1 = stripk e'.1 ∧ remv e.2 e'.2)) :=
  CutLaw.ofSized (readLaw_hashMap hk hv heq)
    (fun w rt => ⟨fun h => by rw [h]; rfl, fun h => List.map_eq_nil_iff.1 h⟩)
    (fun w v hs => remainsItems_whole (f := fun e => (stripk e.1, stripv e.2)) _ _
      (fun _ _ h => ⟨(Prod.mk.inj h).1, (Prod.mk.inj h).2⟩) w v hs)
    (by
      intro m rt v p hc hlen hp _
      rcases untilEof_short (hashMapStep eq dk dv m) (fun e : κ × ν => framed wk (enck e.1) ++ framed wv (encv e.2))
        (fun e e' => stripk e.1 = stripk e'.1 ∧ stripv e.2 = stripv e'.2) (fun e e' => stripk e.1 = stripk e'.1 ∧ remv e.2 e'.2)
        (fun acc y => acc ++ [y]) (FineEntries eq wk wv enck encv ck cv) (fun x => by simp [hk.framed_ne])
        (fun acc x xs rest hi => by
          obtain ⟨y, h1, h2, h3⟩ := hashMap_full hk hv heq m acc x xs rest hi
          exact ⟨y, h1, ⟨(Prod.mk.inj h2).1, (Prod.mk.inj h2).2⟩, h3⟩)
        (by
          intro acc x xs p hi hp hne
          obtain ⟨h1, h2, h3, h4⟩ := hi.1 x (by simp)
          rcases prefix_append_cases hp with ⟨h5, h6⟩ | ⟨q, rfl, h5⟩
          · rcases kk.cutDeser hk m x.1 p h1 h3 h5 h6 with ⟨k, h7, _⟩ | ⟨e, h7, h8⟩
            · refine .inr ⟨acc, .unexpectedEof, ?_, .inl rfl⟩
              unfold hashMapStep
              rw [h7]
              simp only [kv.deser_nil hv m]
            · exact .inr ⟨acc, e, by simp only [hashMapStep, h7], h8⟩
          · obtain ⟨k, h7, h8⟩ := hk.deserNested m x.1 q h1 h3
            rcases kv.cutDeser hv m x.2 q h2 h4 h5 (fun he => hne (by rw [he])) with ⟨v, h9, h10⟩ | ⟨e, h9, h10⟩
            · refine .inl ⟨(k, v), ?_, h8, h10⟩
              unfold hashMapStep
              rw [h7]
              simp only [h9, hashInsert_new k v acc (hi.new heq h8)]
            · refine .inr ⟨acc, e, ?_, h10⟩
              unfold hashMapStep
              rw [h7]
              simp only [h9])
        v [] p.length p (fineEntries_of hc hlen) hp (Nat.le_refl _) with ⟨ys, h1, h2⟩ | h1
      · rw [foldl_snoc] at h1
        exact .inl ⟨ys, h1, h2⟩
      · exact .inr h1)
    (by
      intro v w hc hlen hr
      have hfine : FineEntries eq wk wv enck encv ck cv [] v := fineEntries_of hc hlen
      obtain ⟨p, h1, h2⟩ := untilEof_reach (fun e : κ × ν => framed wk (enck e.1) ++ framed wv (encv e.2))
        (fun e e' => stripk e.1 = stripk e'.1 ∧ stripv e.2 = stripv e'.2) (fun e e' => stripk e.1 = stripk e'.1 ∧ remv e.2 e'.2)
        (fun acc y => acc ++ [y]) (fun m => hashMapStep eq dk dv m) (fun _ => FineEntries eq wk wv enck encv ck cv)
        (fun e => (stripk e.1, stripv e.2)) (fun x => by simp [hk.framed_ne])
        (fun m acc x xs rest hi => hashMap_full hk hv heq m acc x xs rest hi)
        (fun _ _ h => by simp only [h.1, h.2]) v w hr
        (by
          intro x hx w hw
          obtain ⟨h1, h2, h3, h4⟩ := hfine.1 x hx
          obtain ⟨p, h5, h6, h7⟩ := kv.reachDeser hv x.2 w.2 h2 h4 hw.2
          refine ⟨framed wk (enck x.1) ++ p, (List.prefix_append_right_inj _).2 h5, by simp [h6], fun m acc xs hi => ?_⟩
          obtain ⟨k, h8, h9⟩ := hk.deserNested m x.1 p h1 h3
          obtain ⟨v, h10, h11⟩ := h7 m
          refine ⟨(k, v), ?_, by simp only [h9, h11, hw.1]⟩
          unfold hashMapStep
          rw [h8]
          simp only [h10, hashInsert_new k v acc (hi.new heq h9)])
      refine ⟨p, h1, fun m rt => ?_⟩
      obtain ⟨ys, h3, h4⟩ := h2 m [] p.length hfine (Nat.le_refl _)
      rw [foldl_snoc] at h3
      exact ⟨ys, h3, h4⟩)

end

/-! ### Maps -/

section
variable {α : Type} {d : Dict α} {wire : Nat} {enc : α → Bytes} {lo : α → Bool} {strip : α → α} {carried : α → Prop}
  {blank : α → Prop} {rem : α → α → Prop}

/-- What the loop over entries needs: entries to come are fine, and their keys are new. -/
def FineKeys (kt : KeyTy) (wire : Nat) (enc : α → Bytes) (carried : α → Prop) (acc : MapV α) (xs : List (U32 × α)) : Prop :=
  (∀ e ∈ xs, e.1.toNat ≤ kt.max ∧ e.1.toNat < 2 ^ 29 ∧ carried e.2 ∧ (framed wire (enc e.2)).length < 2 ^ 32) ∧
    (acc.entries.map (·.1) ++ xs.map (·.1)).Nodup

theorem FineKeys.new {kt : KeyTy} {acc : MapV α} {x : U32 × α} {xs : List (U32 × α)}
    (h : FineKeys kt wire enc carried acc (x :: xs)) : x.1 ∉ acc.entries.map (·.1) := by
  intro hm
  exact (List.nodup_append.1 h.2).2.2 x.1 hm x.1 (by simp) rfl

theorem mapStep_key (kt : KeyTy) (h : DecLaw d wire enc lo strip carried) (m : Mode) (acc : MapV α) (x : U32 × α)
    (xs : List (U32 × α)) (rest : Bytes) (hi : FineKeys kt wire enc carried acc (x :: xs)) :
    mapStep kt d m acc (leb (x.1.toNat * 8 + wire) ++ rest) =
      match d.mergeNested m (d.withRuntime (acc.rt.nested x.1)) d.wire rest with
      | .ok y rest => .ok { acc with entries := acc.entries ++ [(x.1, y)] } rest
      | .err _ e => .err acc e := by
  obtain ⟨h1, h2, _, _⟩ := hi.1 x (by simp)
  unfold mapStep
  have hk := readMapKey_key m kt x.1 d.wire rest h2 h1
  rw [h.wire_eq] at hk
  rw [hk]
  simp only [entriesGet_none.2 hi.new]
  cases d.mergeNested m (d.withRuntime (acc.rt.nested x.1)) d.wire rest with
  | ok y rest => simp only [entriesInsert_new _ _ _ hi.new]
  | err y e => rfl

theorem map_full (kt : KeyTy) (h : DecLaw d wire enc lo strip carried) (m : Mode) (acc : MapV α) (x : U32 × α)
    (xs : List (U32 × α)) (rest : Bytes) (hi : FineKeys kt wire enc carried acc (x :: xs)) :
    ∃ y, mapStep kt d m acc ((leb (x.1.toNat * 8 + wire) ++ framed wire (enc x.2)) ++ rest) =
        .ok { acc with entries := acc.entries ++ [y] } rest ∧
      ((y.1, strip y.2) = (x.1, strip x.2)) ∧ FineKeys kt wire enc carried { acc with entries := acc.entries ++ [y] } xs := by
  obtain ⟨_, _, h3, h4⟩ := hi.1 x (by simp)
  obtain ⟨y, h5, h6⟩ := h.roundNested m (acc.rt.nested x.1) x.2 rest h3 h4
  refine ⟨(x.1, y), ?_, by simp only [h6], fun e he => hi.1 e (by simp [he]), ?_⟩
  · rw [List.append_assoc, mapStep_key kt h m acc x xs _ hi, h5]
  · simpa using hi.2

theorem foldl_snoc_map (ys : List (U32 × α)) (acc : MapV α) :
    ys.foldl (fun (a : MapV α) y => { a with entries := a.entries ++ [y] }) acc = { acc with entries := acc.entries ++ ys } := by
  induction ys generalizing acc with
  | nil => simp
  | cons y ys ih => simp [ih]

theorem cutLaw_map (kt : KeyTy) (h : DecLaw d wire enc lo strip carried) (c : CutLaw d wire enc lo strip carried blank rem) :
    CutLaw (mapDict kt d) 2
      (fun v : MapV α => v.entries.flatMap (fun e => leb (e.1.toNat * 8 + wire) ++ framed wire (enc e.2)))
      (fun v => (v.entries.flatMap (fun e => leb (e.1.toNat * 8 + wire) ++ framed wire (enc e.2))).isEmpty)
      (fun v => ⟨Rt.dflt, v.entries.map (fun e => (e.1, strip e.2))⟩)
      (fun v => (∀ e ∈ v.entries, e.1.toNat ≤ kt.max ∧ e.1.toNat < 2 ^ 29 ∧ carried e.2) ∧
        (v.entries.map (·.1)).Nodup) (fun v => v.entries = [])
      (fun w v => RemainsItems (fun e e' => e.1 = e'.1 ∧ strip e.2 = strip e'.2) (fun e e' => e.1 = e'.1 ∧ rem e.2 e'.2)
        w.entries v.entries) := by
  have hfine : ∀ (rt : Rt) (v : MapV α), ((∀ e ∈ v.entries, e.1.toNat ≤ kt.max ∧ e.1.toNat < 2 ^ 29 ∧ carried e.2) ∧
      (v.entries.map (·.1)).Nodup) →
      (v.entries.flatMap (fun e => leb (e.1.toNat * 8 + wire) ++ framed wire (enc e.2))).length < 2 ^ 32 →
      FineKeys kt wire enc carried ⟨rt, []⟩ v.entries := by
    intro rt v hc hlen
    refine ⟨fun e he => ?_, by simpa using hc.2⟩
    have := mem_flatMap_length (f := fun e : U32 × α => leb (e.1.toNat * 8 + wire) ++ framed wire (enc e.2)) he
    simp only [List.length_append] at this
    exact ⟨(hc.1 e he).1, (hc.1 e he).2.1, (hc.1 e he).2.2, by omega⟩
  refine CutLaw.ofSized (readLaw_map kt h)
    (fun w rt => ⟨fun h => by rw [h]; rfl, fun h => List.map_eq_nil_iff.1 (MapV.mk.inj h).2⟩)
    (fun w v hs => remainsItems_whole (f := fun e => (e.1, strip e.2)) _ _
      (fun _ _ h => ⟨(Prod.mk.inj h).1, (Prod.mk.inj h).2⟩) w.entries v.entries (MapV.mk.inj hs).2) ?_ ?_
  · intro m rt v p hc hlen hp _
    rcases untilEof_short (mapStep kt d m) (fun e : U32 × α => leb (e.1.toNat * 8 + wire) ++ framed wire (enc e.2))
      (fun e e' => e.1 = e'.1 ∧ strip e.2 = strip e'.2) (fun e e' => e.1 = e'.1 ∧ rem e.2 e'.2)
      (fun (a : MapV α) y => { a with entries := a.entries ++ [y] }) (FineKeys kt wire enc carried)
      (fun x => by simp [h.framed_ne])
      (fun acc x xs rest hi => by
        obtain ⟨y, h1, h2, h3⟩ := map_full kt h m acc x xs rest hi
        exact ⟨y, h1, ⟨(Prod.mk.inj h2).1, (Prod.mk.inj h2).2⟩, h3⟩)
      (by
        intro acc x xs p hi hp hne
        obtain ⟨h1, h2, h3, h4⟩ := hi.1 x (by simp)
        rcases prefix_append_cases hp with ⟨h5, h6⟩ | ⟨q, rfl, h5⟩
        · refine .inr ⟨acc, .unexpectedEof, ?_, .inl rfl⟩
          have hw : wire ≤ 7 := by rw [← h.wire_eq]; cases d.wire <;> decide
          unfold mapStep readMapKey
          rw [getVarint_short m h5 h6 (by decide) (by omega)]
          rfl
        · rw [mapStep_key kt h m acc x xs q hi]
          rcases c.cutNested h m (acc.rt.nested x.1) x.2 q h3 h4 h5 (fun he => hne (by rw [he])) with
            ⟨y, h7, h8⟩ | ⟨y, e, h7, h8⟩
          · rw [h7]; exact .inl ⟨(x.1, y), rfl, rfl, h8⟩
          · rw [h7]; exact .inr ⟨acc, e, rfl, h8⟩)
      v.entries ⟨rt, []⟩ p.length p (hfine rt v hc hlen) hp (Nat.le_refl _) with ⟨ys, h1, h2⟩ | h1
    · rw [foldl_snoc_map] at h1
      exact .inl ⟨⟨rt, ys⟩, h1, h2⟩
    · exact .inr h1
  · intro v w hc hlen hr
    obtain ⟨p, h1, h2⟩ := untilEof_reach (fun e : U32 × α => leb (e.1.toNat * 8 + wire) ++ framed wire (enc e.2))
      (fun e e' => e.1 = e'.1 ∧ strip e.2 = strip e'.2) (fun e e' => e.1 = e'.1 ∧ rem e.2 e'.2)
      (fun (a : MapV α) y => { a with entries := a.entries ++ [y] }) (fun m => mapStep kt d m)
      (fun _ => FineKeys kt wire enc carried) (fun e => (e.1, strip e.2)) (fun x => by simp [h.framed_ne])
      (fun m acc x xs rest hi => map_full kt h m acc x xs rest hi) (fun _ _ h => by simp only [h.1, h.2]) v.entries w.entries hr
      (by
        intro x hx w hw
        obtain ⟨_, _, h3, h4⟩ := (hfine Rt.dflt v hc hlen).1 x hx
        obtain ⟨p, h5, h6, h7⟩ := c.reachNested h x.2 w.2 h3 h4 hw.2
        refine ⟨leb (x.1.toNat * 8 + wire) ++ p, (List.prefix_append_right_inj _).2 h5, by simp [h6], fun m acc xs hi => ?_⟩
        obtain ⟨y, h8, h9⟩ := h7 m (acc.rt.nested x.1)
        refine ⟨(x.1, y), ?_, by simp only [h9, hw.1]⟩
        rw [mapStep_key kt h m acc x xs p hi, h8])
    refine ⟨p, h1, fun m rt => ?_⟩
    obtain ⟨ys, h3, h4⟩ := h2 m ⟨rt, []⟩ p.length (hfine rt v hc hlen) (Nat.le_refl _)
    rw [foldl_snoc_map] at h3
    exact ⟨⟨rt, ys⟩, h3, by simp [h4]⟩

end

end Steit
