import Verif.Lemmas.CutLaw

/-! # What is read from an encoding cut short: implementations -/

namespace Steit
open Spec

section
variable {α : Type} {d : Dict α} {wire : Nat} {enc : α → Bytes} {lo : α → Bool} {strip : α → α} {carried : α → Prop}
  {blank : α → Prop} {rem : α → α → Prop}

/-! ### Sequences -/

/-- What the loops over items need to know of the items to come. -/
def Fine (wire : Nat) (enc : α → Bytes) (carried : α → Prop) (xs : List α) : Prop :=
  ∀ x ∈ xs, carried x ∧ (framed wire (enc x)).length < 2 ^ 32

theorem fine_of {xs : List α} (hc : ∀ x ∈ xs, carried x)
    (hlen : (xs.flatMap (fun x => framed wire (enc x))).length < 2 ^ 32) : Fine wire enc carried xs := fun x hx =>
  ⟨hc x hx, by have := mem_flatMap_length (f := fun x => framed wire (enc x)) hx; omega⟩

theorem Fine.tail {x : α} {xs : List α} (h : Fine wire enc carried (x :: xs)) : Fine wire enc carried xs :=
  fun y hy => h y (by simp [hy])

theorem vec_full (h : DecLaw d wire enc lo strip carried) (m : Mode) (acc : List α) (x : α) (xs : List α) (rest : Bytes)
    (hi : Fine wire enc carried (x :: xs)) :
    ∃ y, vecStep d m acc (framed wire (enc x) ++ rest) = .ok (acc ++ [y]) rest ∧ strip y = strip x ∧
      Fine wire enc carried xs := by
  obtain ⟨y, h1, h2⟩ := h.deserNested m x rest (hi x (by simp)).1 (hi x (by simp)).2
  exact ⟨y, by simp only [vecStep, h1], h2, hi.tail⟩

theorem cutLaw_vec (h : DecLaw d wire enc lo strip carried) (c : CutLaw d wire enc lo strip carried blank rem) :
    CutLaw (vecDict d) 2 (fun v => v.flatMap (fun x => framed wire (enc x)))
      (fun v => (v.flatMap (fun x => framed wire (enc x))).isEmpty) (List.map strip) (fun v => ∀ x ∈ v, carried x)
      (fun v => v = []) (RemainsItems (fun a b => strip a = strip b) rem) :=
  CutLaw.ofSized (readLaw_vec h)
    (fun w rt => ⟨fun h => by rw [h]; rfl, fun h => List.map_eq_nil_iff.1 h⟩)
    (fun w v hs => remainsItems_whole _ _ (fun _ _ h => h) w v hs)
    (by
      intro m rt v p hc hlen hp _
      rcases untilEof_short (vecStep d m) (fun x => framed wire (enc x)) (fun a b => strip a = strip b) rem
        (fun acc y => acc ++ [y]) (fun _ xs => Fine wire enc carried xs) (fun x => h.framed_ne x)
        (fun acc x xs rest hi => vec_full h m acc x xs rest hi)
        (by
          intro acc x xs p hi hp hne
          rcases c.cutDeser h m x p (hi x (by simp)).1 (hi x (by simp)).2 hp hne with ⟨y, h1, h2⟩ | ⟨e, h1, h2⟩
          · exact .inl ⟨y, by simp only [vecStep, h1], h2⟩
          · exact .inr ⟨acc, e, by simp only [vecStep, h1], h2⟩)
        v [] p.length p (fine_of hc hlen) hp (Nat.le_refl _) with ⟨ys, h1, h2⟩ | h1
      · rw [foldl_snoc] at h1
        exact .inl ⟨ys, h1, h2⟩
      · exact .inr h1)
    (by
      intro v w hc hlen hr
      obtain ⟨p, h1, h2⟩ := untilEof_reach (fun x => framed wire (enc x)) (fun a b => strip a = strip b) rem
        (fun acc y => acc ++ [y]) (fun m => vecStep d m) (fun _ _ xs => Fine wire enc carried xs) strip
        (fun x => h.framed_ne x) (fun m acc x xs rest hi => vec_full h m acc x xs rest hi) (fun _ _ h => h) v w hr
        (by
          intro x hx w hw
          obtain ⟨p, h1, h2, h3⟩ := c.reachDeser h x w (fine_of hc hlen x hx).1 (fine_of hc hlen x hx).2 hw
          refine ⟨p, h1, h2, fun m acc xs _ => ?_⟩
          obtain ⟨y, h4, h5⟩ := h3 m
          exact ⟨y, by simp only [vecStep, h4], h5⟩)
      refine ⟨p, h1, fun m rt => ?_⟩
      obtain ⟨ys, h3, h4⟩ := h2 m [] p.length (fine_of hc hlen) (Nat.le_refl _)
      rw [foldl_snoc] at h3
      exact ⟨ys, h3, h4⟩)

theorem list_full (h : DecLaw d wire enc lo strip carried) (m : Mode) (acc : ListV α) (x : α) (xs : List α) (rest : Bytes)
    (hi : Fine wire enc carried (x :: xs)) :
    ∃ y, listStep d m acc (framed wire (enc x) ++ rest) = .ok { acc with items := acc.items ++ [y] } rest ∧
      strip y = strip x ∧ Fine wire enc carried xs := by
  obtain ⟨y, h1, h2⟩ := h.roundNested m (acc.rt.nested (fieldNo acc.items.length)) x rest (hi x (by simp)).1
    (hi x (by simp)).2
  exact ⟨y, by simp only [listStep, h1], h2, hi.tail⟩

theorem cutLaw_list (h : DecLaw d wire enc lo strip carried) (c : CutLaw d wire enc lo strip carried blank rem) :
    CutLaw (listDict d) 2 (fun v : ListV α => v.items.flatMap (fun x => framed wire (enc x)))
      (fun v => (v.items.flatMap (fun x => framed wire (enc x))).isEmpty) (fun v => ⟨Rt.dflt, v.items.map strip⟩)
      (fun v => ∀ x ∈ v.items, carried x) (fun v => v.items = [])
      (fun w v => RemainsItems (fun a b => strip a = strip b) rem w.items v.items) :=
  CutLaw.ofSized (readLaw_list h)
    (fun w rt => ⟨fun h => by rw [h]; rfl, fun h => List.map_eq_nil_iff.1 (ListV.mk.inj h).2⟩)
    (fun w v hs => remainsItems_whole _ _ (fun _ _ h => h) w.items v.items (ListV.mk.inj hs).2)
    (by
      intro m rt v p hc hlen hp _
      rcases untilEof_short (listStep d m) (fun x => framed wire (enc x)) (fun a b => strip a = strip b) rem
        (fun (a : ListV α) y => { a with items := a.items ++ [y] }) (fun _ xs => Fine wire enc carried xs)
        (fun x => h.framed_ne x) (fun acc x xs rest hi => list_full h m acc x xs rest hi)
        (by
          intro acc x xs p hi hp hne
          rcases c.cutNested h m (acc.rt.nested (fieldNo acc.items.length)) x p (hi x (by simp)).1 (hi x (by simp)).2 hp hne
            with ⟨y, h1, h2⟩ | ⟨y, e, h1, h2⟩
          · exact .inl ⟨y, by simp only [listStep, h1], h2⟩
          · exact .inr ⟨acc, e, by simp only [listStep, h1], h2⟩)
        v.items ⟨rt, []⟩ p.length p (fine_of hc hlen) hp (Nat.le_refl _) with ⟨ys, h1, h2⟩ | h1
      · rw [foldl_snoc_list] at h1
        exact .inl ⟨⟨rt, ys⟩, h1, h2⟩
      · exact .inr h1)
    (by
      intro v w hc hlen hr
      obtain ⟨p, h1, h2⟩ := untilEof_reach (fun x => framed wire (enc x)) (fun a b => strip a = strip b) rem
        (fun (a : ListV α) y => { a with items := a.items ++ [y] }) (fun m => listStep d m)
        (fun _ _ xs => Fine wire enc carried xs) strip
        (fun x => h.framed_ne x) (fun m acc x xs rest hi => list_full h m acc x xs rest hi) (fun _ _ h => h) v.items w.items hr
        (by
          intro x hx w hw
          obtain ⟨p, h1, h2, h3⟩ := c.reachNested h x w (fine_of hc hlen x hx).1 (fine_of hc hlen x hx).2 hw
          refine ⟨p, h1, h2, fun m acc xs _ => ?_⟩
          obtain ⟨y, h4, h5⟩ := h3 m (acc.rt.nested (fieldNo acc.items.length))
          exact ⟨y, by simp only [listStep, h4], h5⟩)
      refine ⟨p, h1, fun m rt => ?_⟩
      obtain ⟨ys, h3, h4⟩ := h2 m ⟨rt, []⟩ p.length (fine_of hc hlen) (Nat.le_refl _)
      rw [foldl_snoc_list] at h3
      exact ⟨⟨rt, ys⟩, h3, by simp [h4]⟩)

theorem cutLaw_option (h : DecLaw d wire enc lo strip carried) (c : CutLaw d wire enc lo strip carried blank rem) :
    CutLaw (optionDict d) 2 (fun v => v.toList.flatMap (fun x => framed wire (enc x)))
      (fun v => (v.toList.flatMap (fun x => framed wire (enc x))).isEmpty) (Option.map strip) (fun v => ∀ x ∈ v, carried x)
      (fun v => v = none) (fun w v => RemainsItems (fun a b => strip a = strip b) rem w.toList v.toList) :=
  CutLaw.ofSized (readLaw_option h)
    (fun w rt => ⟨fun h => by rw [h]; rfl, fun h => Option.map_eq_none_iff.1 h⟩)
    (by
      intro w v hs
      refine remainsItems_whole (f := strip) _ _ (fun _ _ h => h) _ _ ?_
      cases w <;> cases v <;> simp_all)
    (by
      intro m rt v p hc hlen hp hne
      cases v with
      | none => 
        exact absurd (List.prefix_nil.1 hp) hne
      | some x =>
        simp only [Option.toList_some, List.flatMap_cons, List.flatMap_nil, List.append_nil] at hlen hp hne
        by_cases hp0 : p = []
        · subst hp0
          exact .inl ⟨none, untilEof_nil _ _ _, trivial⟩
        show CutRes _ (untilEof (optionStep d m) p.length none p)
        have h0 := c.cutNested h m Rt.dflt x p (hc x rfl) hlen hp hne
        rw [← h.dflt_eq] at h0
        rcases h0 with ⟨y, h1, h2⟩ | ⟨y, e, h1, h2⟩
        · have hs : optionStep d m none p = .ok (some y) [] := by
            unfold optionStep
            rw [Option.getD_none, h1]; rfl
          obtain ⟨f, _, he⟩ := untilEof_step (optionStep d m) _ none (some y) _ [] hp0 hs
            (List.length_pos_iff.2 hp0) (Nat.le_refl _)
          exact .inl ⟨some y, by rw [he, untilEof_nil], .inr ⟨rfl, h2⟩⟩
        · have hs : optionStep d m none p = .err (some y) e := by
            unfold optionStep
            rw [Option.getD_none, h1]; rfl
          exact .inr ⟨_, e, untilEof_err hp0 (Nat.le_refl _) hs, h2⟩)
    (by
      intro v w hc hlen hr
      cases w with
      | none => exact ⟨[], List.nil_prefix, fun m rt => ⟨none, untilEof_nil _ _ _, rfl⟩⟩
      | some w =>
        cases v with
        | none => exact hr.elim
        | some x =>
          simp only [Option.toList_some, List.flatMap_cons, List.flatMap_nil, List.append_nil] at hlen
          have hr : rem w x := by
            rcases hr with ⟨h1, _⟩ | ⟨_, h1⟩
            · exact c.whole _ _ h1
            · exact h1
          obtain ⟨p, h1, h2, h3⟩ := c.reachNested h x w (hc x rfl) hlen hr
          refine ⟨p, by simpa using h1, fun m rt => ?_⟩
          obtain ⟨y, h4, h5⟩ := h3 m Rt.dflt
          have hs : optionStep d m none p = .ok (some y) [] := by
            unfold optionStep
            rw [Option.getD_none, h.dflt_eq, h4]; rfl
          obtain ⟨f, _, he⟩ := untilEof_step (optionStep d m) _ none (some y) _ [] h2 hs
            (List.length_pos_iff.2 h2) (Nat.le_refl _)
          refine ⟨some y, ?_, by simp [h5]⟩
          show untilEof (optionStep d m) _ none _ = _
          rw [he, untilEof_nil])

/-! ### Arrays -/

theorem arrayLoop_cut (h : DecLaw d wire enc lo strip carried) (c : CutLaw d wire enc lo strip carried blank rem) (m : Mode) :
    ∀ (xs : List α) (todo done : List α) (p : Bytes), todo.length = xs.length → (∀ t ∈ todo, blank t) →
      Fine wire enc carried xs → p <+: xs.flatMap (fun x => framed wire (enc x)) →
      (∃ ys hys, arrayLoop d m done todo p = .ok ⟨done ++ ys, hys⟩ [] ∧
        RemainsArray (fun a b => strip a = strip b) rem blank ys xs) ∨
      ∃ v e, arrayLoop d m done todo p = .err v e ∧ Refused e := by
  intro xs
  induction xs with
  | nil =>
    intro todo done p hl _ _ hp
    have : todo = [] := List.length_eq_zero_iff.1 hl
    subst this
    rw [List.flatMap_nil, List.prefix_nil] at hp
    subst hp
    exact .inl ⟨[], by simp, by simp [arrayLoop], trivial⟩
  | cons x xs ih =>
    intro todo done p hl hb hi hp
    cases todo with
    | nil => simp at hl
    | cons t todo =>
      cases p with
      | nil =>
        exact .inl ⟨t :: todo, by simp, by simp [arrayLoop], .inr ⟨.inr (hb t (by simp)), fun z hz => hb z (by simp [hz])⟩⟩
      | cons b bs =>
        rw [List.flatMap_cons] at hp
        rcases prefix_append_cases hp with ⟨h1, h2⟩ | ⟨q, h1, h2⟩
        · rcases c.cutDeser h m x _ (hi x (by simp)).1 (hi x (by simp)).2 h1 h2 with ⟨y, h3, h4⟩ | ⟨e, h3, h4⟩
          · have h5 : ∃ hys, arrayLoop d m (done ++ [y]) todo [] = .ok ⟨done ++ [y] ++ todo, hys⟩ [] := by
              cases todo with
              | nil => exact ⟨by simp, by simp [arrayLoop]⟩
              | cons t' todo => exact ⟨by simp only [List.length_append, List.length_cons, List.length_nil], by simp [arrayLoop]⟩
            obtain ⟨hys, h5⟩ := h5
            refine .inl ⟨y :: todo, by simp, ?_, .inr ⟨.inl h4, fun z hz => hb z (by simp [hz])⟩⟩
            simp only [arrayLoop, h3, h5, Res.map]
            simp
          · exact .inr ⟨⟨done ++ t :: todo, by simp⟩, e, by simp only [arrayLoop, h3], h4⟩
        · obtain ⟨y, h3, h4⟩ := h.deserNested m x q (hi x (by simp)).1 (hi x (by simp)).2
          rw [← h1] at h3
          rcases ih todo (done ++ [y]) q (by simpa using hl) (fun z hz => hb z (by simp [hz])) hi.tail h2 with
            ⟨ys, hys, h5, h6⟩ | ⟨v, e, h5, h6⟩
          · refine .inl ⟨y :: ys, by simp at hys ⊢; omega, ?_, .inl ⟨h4, h6⟩⟩
            simp only [arrayLoop, h3, h5, Res.map]
            simp
          · exact .inr ⟨⟨v.1, by have := v.2; simp at this ⊢; omega⟩, e, by simp only [arrayLoop, h3, h5, Res.map], h6⟩

theorem arrayLoop_reach (h : DecLaw d wire enc lo strip carried) (c : CutLaw d wire enc lo strip carried blank rem) :
    ∀ (xs ws : List α), ws.length = xs.length → Fine wire enc carried xs →
      RemainsArray (fun a b => strip a = strip b) rem blank ws xs →
      ∃ p, p <+: xs.flatMap (fun x => framed wire (enc x)) ∧ ∀ m todo done, todo.length = xs.length → (∀ t ∈ todo, blank t) →
        ∃ ys hys, arrayLoop d m done todo p = .ok ⟨done ++ ys, hys⟩ [] ∧ ys.map strip = ws.map strip := by
  intro xs
  have hbl : ∀ (as bs : List α), as.length = bs.length → (∀ a ∈ as, blank a) → (∀ b ∈ bs, blank b) →
      as.map strip = bs.map strip := by
    intro as
    induction as with
    | nil => intro bs hl _ _; rw [List.length_eq_zero_iff.1 hl.symm]
    | cons a as ih =>
      intro bs hl ha hb
      cases bs with
      | nil => simp at hl
      | cons b bs =>
        rw [List.map_cons, List.map_cons, ih bs (by simpa using hl) (fun x hx => ha x (by simp [hx])) (fun x hx => hb x (by simp [hx])),
          (c.blank_iff a Rt.dflt).1 (ha a (by simp)), (c.blank_iff b Rt.dflt).1 (hb b (by simp))]
  induction xs with
  | nil =>
    intro ws hl _ _
    have : ws = [] := List.length_eq_zero_iff.1 hl
    subst this
    refine ⟨[], List.nil_prefix, fun m todo done ht _ => ?_⟩
    have : todo = [] := List.length_eq_zero_iff.1 ht
    subst this
    exact ⟨[], by simp, by simp [arrayLoop], rfl⟩
  | cons x xs ih =>
    intro ws hl hi hr
    cases ws with
    | nil => simp at hl
    | cons w ws =>
      rcases hr with ⟨h1, h2⟩ | ⟨h1 | h1, h2⟩
      · obtain ⟨p, h3, h4⟩ := ih ws (by simpa using hl) hi.tail h2
        refine ⟨framed wire (enc x) ++ p, ?_, fun m todo done ht hb => ?_⟩
        · rw [List.flatMap_cons]; exact (List.prefix_append_right_inj _).2 h3
        · cases todo with
          | nil => simp at ht
          | cons t todo =>
            obtain ⟨y, h5, h6⟩ := h.deserNested m x p (hi x (by simp)).1 (hi x (by simp)).2
            obtain ⟨ys, hys, h7, h8⟩ := h4 m todo (done ++ [y]) (by simpa using ht) (fun z hz => hb z (by simp [hz]))
            refine ⟨y :: ys, by simp at hys ⊢; omega, ?_, by simp [h8, h6, h1]⟩
            have hne := h.framed_ne x
            revert h5
            generalize hbs : framed wire (enc x) ++ p = bs
            intro h5
            cases bs with
            | nil => simp [hne] at hbs
            | cons b bs =>
              simp only [arrayLoop, h5, h7, Res.map]
              simp
      · obtain ⟨p, h3, h4, h5⟩ := c.reachDeser h x w (hi x (by simp)).1 (hi x (by simp)).2 h1
        refine ⟨p, ?_, fun m todo done ht hb => ?_⟩
        · rw [List.flatMap_cons]; exact h3.trans (List.prefix_append _ _)
        · cases todo with
          | nil => simp at ht
          | cons t todo =>
            obtain ⟨y, h6, h7⟩ := h5 m
            have h8 : ∃ hys, arrayLoop d m (done ++ [y]) todo [] = .ok ⟨done ++ [y] ++ todo, hys⟩ [] := by
              cases todo with
              | nil => exact ⟨by simp, by simp [arrayLoop]⟩
              | cons t' todo => exact ⟨by simp only [List.length_append, List.length_cons, List.length_nil], by simp [arrayLoop]⟩
            obtain ⟨hys, h8⟩ := h8
            refine ⟨y :: todo, by simp, ?_, ?_⟩
            · cases p with
              | nil => exact absurd rfl h4
              | cons b bs =>
                simp only [arrayLoop, h6, h8, Res.map]
                simp
            · rw [List.map_cons, List.map_cons, h7, hbl todo ws (by simp at ht hl; omega) (fun z hz => hb z (by simp [hz])) h2]
      · refine ⟨[], List.nil_prefix, fun m todo done ht hb => ?_⟩
        cases todo with
        | nil => simp at ht
        | cons t todo =>
          refine ⟨t :: todo, by simp, by simp [arrayLoop], ?_⟩
          refine hbl _ _ (by simp at ht hl ⊢; omega) hb ?_
          intro z hz
          rcases List.mem_cons.1 hz with rfl | hz
          · exact h1
          · exact h2 z hz

theorem remainsArray_whole : ∀ ws xs : List α, ws.map strip = xs.map strip →
    RemainsArray (fun a b => strip a = strip b) rem blank ws xs
  | [], _, _ => trivial
  | _ :: _, [], h => by simp at h
  | w :: ws, x :: xs, h => by
    simp only [List.map_cons, List.cons.injEq] at h
    exact .inl ⟨h.1, remainsArray_whole ws xs h.2⟩

theorem map_strip_dflt (c : CutLaw d wire enc lo strip carried blank rem) : ∀ (n : Nat) (xs : List α), xs.length = n →
    ((∀ x ∈ xs, blank x) ↔ xs.map strip = (List.replicate n (d.withRuntime Rt.dflt)).map strip)
  | 0, xs, h => by rw [List.length_eq_zero_iff.1 h]; simp
  | n + 1, [], h => by simp at h
  | n + 1, x :: xs, h => by
    rw [List.replicate_succ, List.map_cons, List.map_cons, List.cons.injEq, ← map_strip_dflt c n xs (by simpa using h),
      ← c.blank_iff x Rt.dflt]
    simp

theorem cutLaw_array (n : Nat) (h : DecLaw d wire enc lo strip carried) (c : CutLaw d wire enc lo strip carried blank rem)
    (strip' : ArrayV α n → ArrayV α n) (hs : ∀ v, (strip' v).1 = v.1.map strip) :
    CutLaw (arrayDict n d) 2 (fun v => v.1.flatMap (fun x => framed wire (enc x)))
      (fun v => (v.1.flatMap (fun x => framed wire (enc x))).isEmpty) strip' (fun v => ∀ x ∈ v.1, carried x)
      (fun v => ∀ x ∈ v.1, blank x) (fun w v => RemainsArray (fun a b => strip a = strip b) rem blank w.1 v.1) :=
  CutLaw.ofSized (readLaw_array n h strip' strip' hs hs)
    (by
      intro w rt
      rw [map_strip_dflt c n w.1 w.2, ← h.dflt_eq, ← hs]
      constructor
      · intro h1; exact Subtype.ext (by rw [h1, hs]; rfl)
      · intro h1; rw [h1, hs]; rfl)
    (by
      intro w v h1
      have := congrArg Subtype.val h1
      rw [hs, hs] at this
      exact remainsArray_whole _ _ this)
    (by
      intro m rt v p hc hlen hp _
      have hb : ∀ t ∈ List.replicate n d.dflt, blank t := by
        intro t ht
        rw [(List.mem_replicate.1 ht).2, h.dflt_eq]
        exact (c.blank_iff _ Rt.dflt).2 rfl
      rcases arrayLoop_cut h c m v.1 (List.replicate n d.dflt) [] p (by simp [v.2]) hb (fine_of hc hlen) hp with
        ⟨ys, hys, h1, h2⟩ | ⟨w, e, h1, h2⟩
      · refine .inl ⟨⟨ys, by simpa using hys⟩, ?_, h2⟩
        simp only [arrayDict, plainDict]
        rw [h1]; rfl
      · refine .inr ⟨⟨w.1, by have := w.2; simp_all⟩, e, ?_, h2⟩
        simp only [arrayDict, plainDict]
        rw [h1]; rfl)
    (by
      intro v w hc hlen hr
      obtain ⟨p, h1, h2⟩ := arrayLoop_reach h c v.1 w.1 (by rw [v.2, w.2]) (fine_of hc hlen) hr
      refine ⟨p, h1, fun m rt => ?_⟩
      have hb : ∀ t ∈ List.replicate n d.dflt, blank t := by
        intro t ht
        rw [(List.mem_replicate.1 ht).2, h.dflt_eq]
        exact (c.blank_iff _ Rt.dflt).2 rfl
      obtain ⟨ys, hys, h3, h4⟩ := h2 m (List.replicate n d.dflt) [] (by simp [v.2]) hb
      refine ⟨⟨ys, by simpa using hys⟩, ?_, ?_⟩
      · simp only [arrayDict, plainDict]
        rw [h3]; rfl
      · apply Subtype.ext; rw [hs, hs]; exact h4)

end

end Steit
