import Verif.Spec.Compact
import Verif.Lemmas.PartSame
import Verif.Lemmas.RedoTy
import Verif.Lemmas.Serial
import Verif.Props.Collections

/-! # Entries beside an object -/

namespace Steit
open Spec

/-- `h` does the same whatever the part is, and leaves it as it is; or fails whatever the part is. -/
def KeepsPart {τ σ : Type} (P : τ → σ → (σ → τ) → Prop) (put : σ → τ) (h : τ → Res τ) : Prop :=
  (∃ put' rest, ∀ y, h (put y) = .ok (put' y) rest ∧ P (put' y) y put') ∨ ∀ y, ∃ v' e, h (put y) = .err v' e

theorem KeepsPart.map {τ τ' σ : Type} {P : τ → σ → (σ → τ) → Prop} {Q : τ' → σ → (σ → τ') → Prop} {put : σ → τ} {put' : σ → τ'}
    {h : τ → Res τ} {h' : τ' → Res τ'} (f : τ → τ') (hh : ∀ y, h' (put' y) = (h (put y)).map f)
    (hP : ∀ v y g, P v y g → Q (f v) y (fun x => f (g x))) (hk : KeepsPart P put h) : KeepsPart Q put' h' := by
  rcases hk with ⟨g, rest, hk⟩ | hk
  · refine .inl ⟨fun y => f (g y), rest, fun y => ⟨?_, hP _ _ _ (hk y).2⟩⟩
    rw [hh, (hk y).1]
    rfl
  · refine .inr (fun y => ?_)
    obtain ⟨v', e, h1⟩ := hk y
    exact ⟨f v', e, by rw [hh, h1]; rfl⟩

/-- What `q`, `kind` and `key` of an entry have to be for it to leave the object at `p` alone. -/
def AsideAt (p q : List U32) (kind : LogKind) (key : Option U32) : Prop :=
  (¬ p <+: q ∧ ¬ q <+: p) ∨
    (q <+: p ∧ q ≠ p ∧ (kind = .listPush ∨ (kind = .mapRemove ∧ ∃ k, key = some k ∧ ¬ q ++ [k] <+: p)))

/-! ### Fields -/

theorem field_aside {fs : Fields} {v : fs.El} {tag : U32} {s : Ty} {u : s.El} {put : s.El → fs.El}
    (h : FieldPart fs v tag s u put) (tag' : U32) (hne : tag' ≠ tag) (m : Mode) (q : List U32) (kind : LogKind)
    (key : Option U32) (bs : Bytes) :
    (∃ put' rest, ∀ y, (fs.dict true).handleField m tag' (put y) q kind key bs = some (.ok (put' y) rest) ∧
        FieldPart fs (put' y) tag s y put') ∨
      (∀ y, ∃ v' e, (fs.dict true).handleField m tag' (put y) q kind key bs = some (.err v' e)) ∨
      ∀ y, (fs.dict true).handleField m tag' (put y) q kind key bs = none := by
  induction h with
  | @head tag attrs t fs v hs =>
    have hstep : ∀ y : t.El, ((Fields.cons tag attrs t fs).dict true).handleField m tag' (y, v.2) q kind key bs =
        ((fs.dict true).handleField m tag' v.2 q kind key bs).map (fun r => r.map (fun z => (y, z))) := by
      intro y
      show (if tag' = tag then _ else _) = _
      rw [if_neg hne]
    cases hr : (fs.dict true).handleField m tag' v.2 q kind key bs with
    | none => exact .inr (.inr (fun y => by rw [hstep, hr]; rfl))
    | some r =>
      cases r with
      | ok z rest =>
        exact .inl ⟨fun y => (y, z), rest, fun y => ⟨by rw [hstep, hr]; rfl, .head (v := (y, z)) hs⟩⟩
      | err z e => exact .inr (.inl (fun y => ⟨(y, z), e, by rw [hstep, hr]; rfl⟩))
  | @tail tag tag0 attrs t fs v s u put hp ih =>
    by_cases h0 : tag' = tag0
    · have hstep : ∀ y : s.El, ((Fields.cons tag0 attrs t fs).dict true).handleField m tag' (v.1, put y) q kind key bs =
          some (if (true && !attrs.noState) = true then (t.dict.handle m v.1 q kind key bs).map (fun x => (x, put y)) else .ok (v.1, put y) bs) := by
        intro y
        show (if tag' = tag0 then _ else _) = _
        rw [if_pos h0]
      by_cases hst : (true && !attrs.noState) = true
      · cases hr : t.dict.handle m v.1 q kind key bs with
        | ok x rest =>
          exact .inl ⟨fun y => (x, put y), rest, fun y => ⟨by rw [hstep, if_pos hst, hr]; rfl, .tail (v := (x, put y)) (field_put hp y)⟩⟩
        | err x e => exact .inr (.inl (fun y => ⟨(x, put y), e, by rw [hstep, if_pos hst, hr]; rfl⟩))
      · exact .inl ⟨fun y => (v.1, put y), bs, fun y => ⟨by rw [hstep, if_neg hst], .tail (v := (v.1, put y)) (field_put hp y)⟩⟩
    · have hstep : ∀ y : s.El, ((Fields.cons tag0 attrs t fs).dict true).handleField m tag' (v.1, put y) q kind key bs =
          ((fs.dict true).handleField m tag' (put y) q kind key bs).map (fun r => r.map (fun z => (v.1, z))) := by
        intro y
        show (if tag' = tag0 then _ else _) = _
        rw [if_neg h0]
      rcases ih hne with ⟨put', rest, h1⟩ | h1 | h1
      · exact .inl ⟨fun y => (v.1, put' y), rest, fun y => ⟨by rw [hstep, (h1 y).1]; rfl, .tail (v := (v.1, put' y)) (h1 y).2⟩⟩
      · refine .inr (.inl (fun y => ?_))
        obtain ⟨v', e, h2⟩ := h1 y
        exact ⟨(v.1, v'), e, by rw [hstep, h2]; rfl⟩
      · exact .inr (.inr (fun y => by rw [hstep, h1 y]; rfl))

theorem variant_aside {vs : Variants} {v : vs.El} {vtag tag : U32} {s : Ty} {u : s.El} {put : s.El → vs.El}
    (h : VariantPart vs v vtag tag s u put) (q : List U32) (hq : ¬ [tag] <+: q) (m : Mode) (kind : LogKind) (key : Option U32)
    (bs : Bytes) :
    KeepsPart (fun v y g => VariantPart vs v vtag tag s y g) put (fun v => (vs.dict true).handleFields m v q kind key bs) := by
  induction h with
  | @here vtag tag cached fs vs v s u put hp =>
    refine KeepsPart.map (P := fun v y g => FieldPart fs v tag s y g) (put := put) (h := fun v => variantHandle (fs.dict true) m v q kind key bs)
      Sum.inl (fun y => rfl) (fun _ _ _ h => .here h) ?_
    cases q with
    | nil => exact .inr (fun y => ⟨_, _, rfl⟩)
    | cons tag' q =>
      have hne : tag' ≠ tag := fun h => hq ⟨q, by rw [h]; rfl⟩
      rcases field_aside hp tag' hne m q kind key bs with ⟨put', rest, h1⟩ | h1 | h1
      · exact .inl ⟨put', rest, fun y => ⟨by simp only [variantHandle, (h1 y).1], (h1 y).2⟩⟩
      · refine .inr (fun y => ?_)
        obtain ⟨v', e, h2⟩ := h1 y
        exact ⟨v', e, by simp only [variantHandle, h2]⟩
      · exact .inr (fun y => ⟨_, _, by simp only [variantHandle, h1 y]; rfl⟩)
  | @there vtag vtag' tag cached fs vs v s u put hp ih =>
    exact KeepsPart.map (put := put) (h := fun v => (vs.dict true).handleFields m v q kind key bs) Sum.inr (fun y => rfl)
      (fun _ _ _ h => .there h) (ih hq)

/-! ### Maps -/

theorem entriesGet_beside {α : Type} {pre post : List (U32 × α)} {k j : U32} (hne : j ≠ k) (x y : α) :
    entriesGet j (pre ++ (k, x) :: post) = entriesGet j (pre ++ (k, y) :: post) := by
  induction pre with
  | nil => simp only [List.nil_append, entriesGet, if_neg (Ne.symm hne)]
  | cons e pre ih =>
    obtain ⟨k', z⟩ := e
    simp only [List.cons_append, entriesGet, ih]

/-- Inserting another key: the entries around change. -/
theorem entriesInsert_beside {α : Type} {k j : U32} (hne : j ≠ k) (z : α) : ∀ (pre post : List (U32 × α)), (∀ e ∈ pre, e.1 ≠ k) →
    ∃ pre' post', (∀ e ∈ pre', e.1 ≠ k) ∧ ∀ y, entriesInsert j z (pre ++ (k, y) :: post) = pre' ++ (k, y) :: post'
  | [], post, _ => ⟨[], entriesInsert j z post, (fun _ h => nomatch h), fun y => by
      simp only [List.nil_append, entriesInsert, if_neg (Ne.symm hne)]⟩
  | (k', z') :: pre, post, h => by
    by_cases hj : k' = j
    · refine ⟨(k', z) :: pre, post, ?_, fun y => by simp only [List.cons_append, entriesInsert, if_pos hj]⟩
      intro e he
      rcases List.mem_cons.1 he with rfl | he
      · exact h (k', z') (List.mem_cons_self ..)
      · exact h e (List.mem_cons_of_mem _ he)
    · obtain ⟨pre', post', h1, h2⟩ := entriesInsert_beside hne z pre post (fun e he => h e (List.mem_cons_of_mem _ he))
      refine ⟨(k', z') :: pre', post', ?_, fun y => by simp only [List.cons_append, entriesInsert, if_neg hj, h2 y]⟩
      intro e he
      rcases List.mem_cons.1 he with rfl | he
      · exact h _ (List.mem_cons_self ..)
      · exact h1 e he

theorem not_mem_keys {α : Type} {k : U32} {es : List (U32 × α)} (h : ∀ e ∈ es, e.1 ≠ k) : k ∉ es.map (·.1) := by
  intro hk
  obtain ⟨e, he, rfl⟩ := List.mem_map.1 hk
  exact h e he rfl

/-- Removing another key: the entries around change. -/
theorem entriesRemove_beside {α : Type} {k j : U32} (hne : j ≠ k) (pre post : List (U32 × α))
    (hn : (pre.map (·.1) ++ k :: post.map (·.1)).Nodup) :
    ∃ pre' post', (∀ e ∈ pre', e.1 ≠ k) ∧ ∀ y, entriesRemove j (pre ++ (k, y) :: post) = pre' ++ (k, y) :: post' := by
  have hpre : ∀ e ∈ pre, e.1 ≠ k := by
    rintro e he rfl
    exact (List.nodup_append.1 hn).2.2 e.1 (List.mem_map_of_mem he) e.1 (List.mem_cons_self ..) rfl
  have hpost : ∀ e ∈ post, e.1 ≠ k := by
    rintro e he rfl
    exact (List.nodup_cons.1 (List.nodup_append.1 hn).2.1).1 (List.mem_map_of_mem he)
  by_cases h1 : j ∈ pre.map (·.1)
  · obtain ⟨xs, x, ys, rfl, hx⟩ := entries_split h1
    rcases List.eq_nil_or_concat post with rfl | ⟨zs, z, rfl⟩
    · refine ⟨xs, ys, fun e he => hpre e (by simp [he]), fun y => ?_⟩
      rw [List.append_assoc, List.cons_append, entriesRemove_at j x xs _ hx, List.getLast?_append]
      show xs ++ (k, y) :: (ys ++ [(k, y)]).dropLast = _
      rw [List.dropLast_concat]
    · rw [List.concat_eq_append] at hpost ⊢
      refine ⟨xs ++ z :: ys, zs, fun e he => ?_, fun y => ?_⟩
      · rcases List.mem_append.1 he with he | he
        · exact hpre e (by simp [he])
        · rcases List.mem_cons.1 he with rfl | he
          · exact hpost e (by simp)
          · exact hpre e (by simp [he])
      · rw [List.append_assoc, List.cons_append, entriesRemove_at j x xs _ hx, ← List.cons_append, ← List.append_assoc,
          List.getLast?_append]
        show xs ++ z :: (ys ++ (k, y) :: zs ++ [z]).dropLast = _
        rw [List.dropLast_concat]
        simp
  · by_cases h2 : j ∈ post.map (·.1)
    · obtain ⟨xs, x, ys, rfl, hx⟩ := entries_split h2
      have hx' : ∀ y, j ∉ (pre ++ (k, y) :: xs).map (·.1) := by
        intro y h
        rw [List.map_append, List.map_cons] at h
        rcases List.mem_append.1 h with h | h
        · exact h1 h
        · rcases List.mem_cons.1 h with h | h
          · exact hne h
          · exact hx h
      rcases List.eq_nil_or_concat ys with rfl | ⟨zs, z, rfl⟩
      · refine ⟨pre, xs, hpre, fun y => ?_⟩
        have := entriesRemove_at j x (pre ++ (k, y) :: xs) [] (hx' y)
        rw [List.append_assoc, List.cons_append] at this
        exact this
      · refine ⟨pre, xs ++ z :: zs, hpre, fun y => ?_⟩
        have := entriesRemove_at j x (pre ++ (k, y) :: xs) (zs.concat z) (hx' y)
        rw [List.append_assoc, List.cons_append] at this
        rw [this]
        simp
    · refine ⟨pre, post, hpre, fun y => entriesRemove_absent j _ (fun h => ?_)⟩
      rw [List.map_append, List.map_cons] at h
      rcases List.mem_append.1 h with h | h
      · exact h1 h
      · rcases List.mem_cons.1 h with h | h
        · exact hne h
        · exact h2 h

/-! ### Children -/

theorem item_set {t : Ty} {l : ListV t.El} {i : Nat} {x : t.El} (hi : i < 2 ^ 32) (hx : l.items[i]? = some x) {items : List t.El → List t.El}
    (hget : ∀ y, (items (l.items.set i y))[i]? = some y)
    (hset : ∀ y z, (items (l.items.set i y)).set i z = items (l.items.set i z)) (y : t.El) :
    Child (.list t) (⟨l.rt, items (l.items.set i y)⟩ : ListV t.El) [BitVec.ofNat 32 i] t y
      (fun z => (⟨l.rt, items (l.items.set i z)⟩ : ListV t.El)) := by
  have h := Child.item (t := t) (l := ⟨l.rt, items (l.items.set i y)⟩) hi (hget y)
  have hf : (fun z => { (⟨l.rt, items (l.items.set i y)⟩ : ListV t.El) with items := (items (l.items.set i y)).set i z }) =
      (fun z => (⟨l.rt, items (l.items.set i z)⟩ : ListV t.El)) := by
    funext z
    rw [hset]
  rw [hf] at h
  exact h

theorem child_aside {t : Ty} {v : t.El} {p : List U32} {s : Ty} {u : s.El} {put : s.El → t.El} (h : Child t v p s u put) {rt : Rt}
    (hat : At t rt v) (m : Mode) (q : List U32) (kind : LogKind) (key : Option U32) (bs : Bytes) (hq : AsideAt p q kind key) :
    KeepsPart (fun v y g => Child t v p s y g) put (fun v => t.dict.handle m v q kind key bs) := by
  have hnp : ¬ p <+: q := by
    rcases hq with hq | ⟨h1, h2, -⟩
    · exact hq.1
    · exact fun h => h2 (h1.eq_of_length (Nat.le_antisymm h1.length_le h.length_le))
  cases h with
  | @item _ l i _ hi hx =>
    have hlt : i < l.items.length := (List.getElem?_eq_some_iff.1 hx).1
    cases q with
    | nil =>
      rcases hq with hq | ⟨-, -, rfl | ⟨rfl, -⟩⟩
      · exact absurd (List.nil_prefix) hq.2
      · show KeepsPart _ _ (fun v => listHandle s.dict m v [] .listPush key bs)
        cases hr : s.dict.merge m (s.dict.withRuntime (l.rt.nested (fieldNo l.items.length))) bs with
        | ok item rest =>
          refine .inl ⟨fun y => ⟨l.rt, l.items.set i y ++ [item]⟩, rest, fun y => ⟨?_, ?_⟩⟩
          · simp only [listHandle, List.length_set, hr]
          · refine item_set hi hx (items := fun xs => xs ++ [item]) (fun y => ?_) (fun y z => ?_) y
            · rw [List.getElem?_append_left (by rw [List.length_set]; exact hlt), List.getElem?_set_self hlt]
            · show (l.items.set i y ++ [item]).set i z = _
              rw [List.set_append_left _ _ (by rw [List.length_set]; exact hlt), List.set_set]
        | err item e => exact .inr (fun y => ⟨_, e, by simp only [listHandle, List.length_set, hr]; rfl⟩)
      · exact .inr (fun y => ⟨_, _, rfl⟩)
    | cons j q =>
      show KeepsPart _ _ (fun v => listHandle s.dict m v (j :: q) kind key bs)
      have hne : i ≠ j.toNat := by
        rintro rfl
        refine hnp ⟨q, ?_⟩
        show _ :: q = _
        rw [BitVec.ofNat_toNat, BitVec.setWidth_eq]
      have hget : ∀ y : s.El, (l.items.set i y)[j.toNat]? = l.items[j.toNat]? := fun y => List.getElem?_set_ne hne
      cases hj : l.items[j.toNat]? with
      | none => exact .inr (fun y => ⟨_, _, by simp only [listHandle, hget, hj]; rfl⟩)
      | some z =>
        cases hr : s.dict.handle m z q kind key bs with
        | ok z' rest =>
          refine .inl ⟨fun y => ⟨l.rt, (l.items.set i y).set j.toNat z'⟩, rest, fun y => ⟨?_, ?_⟩⟩
          · simp only [listHandle, hget, hj, hr]; rfl
          · refine item_set hi hx (items := fun xs => xs.set j.toNat z') (fun y => ?_) (fun y z => ?_) y
            · rw [List.getElem?_set_ne (Ne.symm hne), List.getElem?_set_self hlt]
            · show ((l.items.set i y).set j.toNat z').set i z = (l.items.set i z).set j.toNat z'
              rw [List.set_comm _ _ hne, List.set_set, List.set_comm _ _ hne]
        | err z' e => exact .inr (fun y => ⟨_, e, by simp only [listHandle, hget, hj, hr]; rfl⟩)
  | @value kt _ v pre post k _ hx hk =>
    cases q with
    | nil =>
      show KeepsPart _ _ (fun v => mapHandle kt s.dict m v [] kind key bs)
      rcases hq with hq | ⟨-, -, rfl | ⟨rfl, j, rfl, hj⟩⟩
      · exact absurd (List.nil_prefix) hq.2
      · exact .inr (fun y => ⟨_, _, rfl⟩)
      · have hne : j ≠ k := fun h => hj ⟨[], by rw [h]; rfl⟩
        have hn : (pre.map (·.1) ++ k :: post.map (·.1)).Nodup := by
          have h1 := hat.2.1
          rw [hx, List.map_append, List.map_cons] at h1
          exact h1
        obtain ⟨pre', post', h1, h2⟩ := entriesRemove_beside hne pre post hn
        cases hg : entriesGet j (pre ++ (k, u) :: post) with
        | none => exact .inr (fun y => ⟨_, _, by simp only [mapHandle, entriesGet_beside hne y u, hg]; rfl⟩)
        | some z =>
          refine .inl ⟨fun y => ⟨v.rt, pre' ++ (k, y) :: post'⟩, bs, fun y => ⟨?_, ?_⟩⟩
          · simp only [mapHandle, entriesGet_beside hne y u, hg, h2]
          · exact .value (v := ⟨v.rt, pre' ++ (k, y) :: post'⟩) rfl h1
    | cons j q =>
      show KeepsPart _ _ (fun v => mapHandle kt s.dict m v (j :: q) kind key bs)
      have hne : j ≠ k := fun h => hnp ⟨q, by rw [h]; rfl⟩
      cases hg : entriesGet j (pre ++ (k, u) :: post) with
      | some z =>
        cases hr : s.dict.handle m z q kind key bs with
        | ok z' rest =>
          obtain ⟨pre', post', h1, h2⟩ := entriesInsert_beside hne z' pre post hk
          refine .inl ⟨fun y => ⟨v.rt, pre' ++ (k, y) :: post'⟩, rest, fun y => ⟨?_, ?_⟩⟩
          · simp only [mapHandle, entriesGet_beside hne y u, hg, hr, Res.map, h2]
          · exact .value (v := ⟨v.rt, pre' ++ (k, y) :: post'⟩) rfl h1
        | err z' e => exact .inr (fun y => ⟨_, e, by simp only [mapHandle, entriesGet_beside hne y u, hg, hr]; rfl⟩)
      | none =>
        by_cases hc : kind = .update ∧ q = []
        · cases hr : s.dict.merge m (s.dict.withRuntime (v.rt.nested j)) bs with
          | ok z' rest =>
            obtain ⟨pre', post', h1, h2⟩ := entriesInsert_beside hne z' pre post hk
            refine .inl ⟨fun y => ⟨v.rt, pre' ++ (k, y) :: post'⟩, rest, fun y => ⟨?_, ?_⟩⟩
            · simp only [mapHandle, entriesGet_beside hne y u, hg, if_pos hc, hr, h2]
            · exact .value (v := ⟨v.rt, pre' ++ (k, y) :: post'⟩) rfl h1
          | err z' e => exact .inr (fun y => ⟨_, e, by simp only [mapHandle, entriesGet_beside hne y u, hg, if_pos hc, hr]; rfl⟩)
        · exact .inr (fun y => ⟨_, _, by simp only [mapHandle, entriesGet_beside hne y u, hg, if_neg hc]; rfl⟩)
  | @field cached fs v tag s u put hf =>
    show KeepsPart _ _ (fun v => structHandle (fs.dict true) m v q kind key bs)
    cases q with
    | nil =>
      rcases hq with hq | ⟨-, -, rfl | ⟨rfl, -⟩⟩
      · exact absurd (List.nil_prefix) hq.2
      · exact .inr (fun y => ⟨_, _, rfl⟩)
      · exact .inr (fun y => ⟨_, _, rfl⟩)
    | cons tag' q =>
      have hne : tag' ≠ tag := fun h => hnp ⟨q, by rw [h]; rfl⟩
      rcases field_aside hf tag' hne m q kind key bs with ⟨put', rest, h1⟩ | h1 | h1
      · refine .inl ⟨fun y => ⟨v.rt, put' y⟩, rest, fun y => ⟨by simp only [structHandle, (h1 y).1]; rfl, ?_⟩⟩
        exact .field (v := ⟨v.rt, put' y⟩) (h1 y).2
      · refine .inr (fun y => ?_)
        obtain ⟨v', e, h2⟩ := h1 y
        exact ⟨_, e, by simp only [structHandle, h2]; rfl⟩
      · exact .inr (fun y => ⟨_, _, by simp only [structHandle, h1 y]; rfl⟩)
  | @variant cached fs vs v vtag tag s u put hv =>
    show KeepsPart _ _ (fun v => enumHandle ((allVariants cached fs vs).dict true) (fun rt => .inl ((fs.dict true).init rt)) m v q kind key bs)
    cases q with
    | nil =>
      rcases hq with hq | ⟨-, -, rfl | ⟨rfl, -⟩⟩
      · exact absurd (List.nil_prefix) hq.2
      · exact .inr (fun y => ⟨_, _, rfl⟩)
      · exact .inr (fun y => ⟨_, _, rfl⟩)
    | cons vtag' q =>
      have htag : ∀ y, ((allVariants cached fs vs).dict true).tagOf (put y) = vtag := fun y => variantPart_tag (variant_put hv y)
      by_cases hv' : vtag' = vtag
      · subst hv'
        have hq' : ¬ [tag] <+: q := fun ⟨r, hr⟩ => hnp ⟨r, by rw [← hr]; rfl⟩
        refine KeepsPart.map (put := put) (h := fun v => ((allVariants cached fs vs).dict true).handleFields m v q kind key bs)
          (fun val => { v with val }) (fun y => ?_) (fun val y g h => ?_) (variant_aside hv q hq' m kind key bs)
        · simp only [enumHandle]
          rw [if_pos (htag y).symm]
        · exact .variant (v := ⟨v.rt, val⟩) h
      · refine .inr (fun y => ⟨⟨v.rt, put y⟩, .invalidData, ?_⟩)
        simp only [enumHandle]
        rw [if_neg (by rw [htag]; exact hv')]

theorem aside_inside {p1 p2 q : List U32} {kind : LogKind} {key : Option U32} (h : AsideAt (p1 ++ p2) (p1 ++ q) kind key) : AsideAt p2 q kind key := by
  rcases h with h | ⟨h1, h2, h3⟩
  · exact .inl ⟨fun h' => h.1 ((List.prefix_append_right_inj p1).2 h'), fun h' => h.2 ((List.prefix_append_right_inj p1).2 h')⟩
  · refine .inr ⟨(List.prefix_append_right_inj p1).1 h1, fun h => h2 (by rw [h]), ?_⟩
    rcases h3 with h3 | ⟨h3, k, h4, h5⟩
    · exact .inl h3
    · refine .inr ⟨h3, k, h4, fun h => h5 ?_⟩
      rw [List.append_assoc]
      exact (List.prefix_append_right_inj p1).2 h

theorem aside_outside {p1 p2 q : List U32} {kind : LogKind} {key : Option U32} (h : AsideAt (p1 ++ p2) q kind key) (hq : ¬ p1 <+: q) :
    AsideAt p1 q kind key := by
  rcases h with h | ⟨h1, h2, h3⟩
  · exact .inl ⟨hq, fun h' => h.2 (h'.trans (List.prefix_append ..))⟩
  · refine .inr ⟨?_, fun h => hq ⟨[], by rw [h, List.append_nil]⟩, ?_⟩
    · rcases List.prefix_or_prefix_of_prefix h1 (List.prefix_append p1 p2) with h | h
      · exact h
      · exact absurd h hq
    · rcases h3 with h3 | ⟨h3, k, h4, h5⟩
      · exact .inl h3
      · exact .inr ⟨h3, k, h4, fun h => h5 (h.trans (List.prefix_append ..))⟩

theorem part_aside {t : Ty} {v : t.El} {p : List U32} {s : Ty} {u : s.El} {put : s.El → t.El} (h : Part t v p s u put) (ht : t.WF)
    {rt : Rt} (hat : At t rt v) (m : Mode) (q : List U32) (kind : LogKind) (key : Option U32) (bs : Bytes) (hq : AsideAt p q kind key) :
    KeepsPart (fun v y g => Part t v p s y g) put (fun v => t.dict.handle m v q kind key bs) := by
  induction h generalizing q rt with
  | self =>
    rcases hq with hq | ⟨h1, h2, -⟩
    · exact absurd (List.nil_prefix) hq.1
    · exact absurd (List.prefix_nil.1 h1) h2
  | box _ ih =>
    exact KeepsPart.map (fun v => v) (fun y => (Res.map_id _).symm) (fun _ _ _ h => .box h) (ih ht hat q hq)
  | @inside t v p1 p2 c x put s u put1 hc hp ih =>
    by_cases hpq : p1 <+: q
    · obtain ⟨q', rfl⟩ := hpq
      refine KeepsPart.map put (fun y => handle_child (child_put hc (put1 y)) ht m q' kind key bs) (fun w y g h => ?_)
        (ih (wf_child hc ht).1 (at_child hc hat) q' (aside_inside hq))
      exact .inside (child_put hc w) h
    · rcases child_aside hc hat m q kind key bs (aside_outside hq hpq) with ⟨put', rest, h1⟩ | h1
      · refine .inl ⟨fun y => put' (put1 y), rest, fun y => ⟨(h1 (put1 y)).1, .inside (h1 (put1 y)).2 (part_put hp y)⟩⟩
      · exact .inr (fun y => h1 (put1 y))

/-! ### Entries that replace or remove the object -/

theorem variant_nil {vs : Variants} {v : vs.El} {vtag tag : U32} {s : Ty} {u : s.El} {put : s.El → vs.El}
    (h : VariantPart vs v vtag tag s u put) (m : Mode) (kind : LogKind) (key : Option U32) (bs : Bytes) :
    ∃ v' e, (vs.dict true).handleFields m v [] kind key bs = .err v' e := by
  induction h with
  | here hp => exact ⟨_, _, rfl⟩
  | @there vtag vtag' tag cached fs vs v s u put _ ih =>
    obtain ⟨v', e, h⟩ := ih
    refine ⟨Sum.inr v', e, ?_⟩
    show ((vs.dict true).handleFields m v [] kind key bs).map Sum.inr = _
    rw [h]
    rfl

/-- Part of the way to a child there is nothing: only a variant has a path of two elements. -/
theorem between_child {t : Ty} {v : t.El} {p : List U32} {s : Ty} {u : s.El} {put : s.El → t.El} (h : Child t v p s u put) (m : Mode)
    {k : U32} {q : List U32} (hq : k :: q <+: p) (hp : ¬ p <+: k :: q) (kind : LogKind) (key : Option U32) (bs : Bytes) :
    ∃ v' e, t.dict.handle m v (k :: q) kind key bs = .err v' e := by
  have one : ∀ a : U32, p = [a] → False := by
    rintro a rfl
    obtain ⟨r, hr⟩ := hq
    obtain ⟨rfl, hr⟩ := List.cons.inj hr
    exact hp ⟨q, rfl⟩
  cases h with
  | item _ _ => exact (one _ rfl).elim
  | value _ _ => exact (one _ rfl).elim
  | field _ => exact (one _ rfl).elim
  | @variant cached fs vs v vtag tag s u put hv =>
    obtain ⟨r, hr⟩ := hq
    obtain ⟨rfl, hr'⟩ := List.cons.inj hr
    cases q with
    | cons a q =>
      obtain ⟨rfl, -⟩ := List.cons.inj hr'
      exact absurd ⟨q, rfl⟩ hp
    | nil =>
      obtain ⟨v', e, h⟩ := variant_nil hv m kind key bs
      refine ⟨{ v with val := v' }, e, ?_⟩
      show enumHandle ((allVariants cached fs vs).dict true) (fun rt => .inl ((fs.dict true).init rt)) m v [k] kind key bs = _
      simp only [enumHandle]
      rw [if_pos (variantPart_tag hv).symm]
      show (((allVariants cached fs vs).dict true).handleFields m v.val [] kind key bs).map _ = _
      rw [show ((allVariants cached fs vs).dict true).handleFields m v.val [] kind key bs = .err v' e from h]
      rfl

theorem part_update {t : Ty} {v : t.El} {p : List U32} {s : Ty} {u : s.El} {put : s.El → t.El} (h : Part t v p s u put) (ht : t.WF)
    (hs : t.isState = true) {rt : Rt} (m : Mode) (x y : s.El) (hx : At t rt (put x)) (hy : At t rt (put y)) (q : List U32) (hq : q <+: p)
    (b : Bytes) : stepD t.dict m (put x) (q, b) = stepD t.dict m (put y) (q, b) := by
  induction h generalizing q rt with
  | self =>
    obtain rfl := List.prefix_nil.1 hq
    rw [whole_write _ ht hs m rt _ b hx, whole_write _ ht hs m rt _ b hy]
  | box _ ih => exact ih ht hs x y hx hy q hq
  | @inside t v p1 p2 c z put s u put1 hc hp ih =>
    cases q with
    | nil => rw [whole_write _ ht hs m rt _ b hx, whole_write _ ht hs m rt _ b hy]
    | cons k q =>
      by_cases hpq : p1 <+: k :: q
      · obtain ⟨q', hq'⟩ := hpq
        rw [← hq'] at hq ⊢
        have h1 : ∀ y, stepD t.dict m (put (put1 y)) (p1 ++ q', b) = (stepD c.dict m (put1 y) (q', b)).map put := by
          intro y
          simp only [stepD]
          rw [handle_child (child_put hc (put1 y)) ht]
          cases c.dict.handle m (put1 y) q' .update none b <;> rfl
        rw [h1, h1, ih (wf_child hc ht).1 (wf_child hc ht).2 x y (at_child (child_put hc _) hx) (at_child (child_put hc _) hy) q'
          ((List.prefix_append_right_inj p1).1 hq)]
      · have h2 : k :: q <+: p1 := by
          rcases List.prefix_or_prefix_of_prefix hq (List.prefix_append p1 p2) with h | h
          · exact h
          · exact absurd h hpq
        have h3 : ∀ z, stepD t.dict m (put z) (k :: q, b) = none := by
          intro z
          obtain ⟨v', e, h⟩ := between_child (child_put hc z) m h2 hpq .update none b
          simp only [stepD, h]
          rfl
        rw [h3, h3]

theorem part_mapRemove {t : Ty} {v : t.El} {p : List U32} {s : Ty} {u : s.El} {put : s.El → t.El} (h : Part t v p s u put) (ht : t.WF)
    (m : Mode) (x y : s.El) (q : List U32) (k : U32) (hq : q ++ [k] <+: p) :
    (t.dict.handle m (put x) q .mapRemove (some k) []).got = (t.dict.handle m (put y) q .mapRemove (some k) []).got := by
  induction h generalizing q with
  | self => exact absurd (congrArg List.length (List.prefix_nil.1 hq)) (by simp)
  | box _ ih => exact ih ht x y q hq
  | @inside t v p1 p2 c z put s u put1 hc hp ih =>
    by_cases hpq : p1 <+: q
    · obtain ⟨q', rfl⟩ := hpq
      have h1 : ∀ y, (t.dict.handle m (put (put1 y)) (p1 ++ q') .mapRemove (some k) []).got =
          ((c.dict.handle m (put1 y) q' .mapRemove (some k) []).got).map put := by
        intro y
        rw [handle_child (child_put hc (put1 y)) ht]
        cases c.dict.handle m (put1 y) q' .mapRemove (some k) [] <;> rfl
      rw [List.append_assoc] at hq
      rw [h1, h1, ih (wf_child hc ht).1 x y q' ((List.prefix_append_right_inj p1).1 hq)]
    · have h2 : q <+: p1 := by
        rcases List.prefix_or_prefix_of_prefix ((List.prefix_append q [k]).trans hq) (List.prefix_append p1 p2) with h | h
        · exact h
        · exact absurd h hpq
      cases q with
      | cons j q =>
        have h3 : ∀ z, (t.dict.handle m (put z) (j :: q) .mapRemove (some k) []).got = none := by
          intro z
          obtain ⟨v', e, h⟩ := between_child (child_put hc z) m h2 hpq .mapRemove (some k) []
          rw [h]
          rfl
        rw [h3, h3]
      | nil =>
        cases hc with
        | item _ _ => rfl
        | field _ => rfl
        | variant _ => rfl
        | @value kt _ v pre post j _ hx hk =>
          obtain ⟨r, hr⟩ := hq
          obtain rfl : k = j := (List.cons.inj hr).1
          have h3 : ∀ z, (mapHandle kt c.dict m (⟨v.rt, pre ++ (k, z) :: post⟩ : MapV c.El) [] .mapRemove (some k) []).got =
              some ⟨v.rt, match post.getLast? with
                | none => pre
                | some last => pre ++ last :: post.dropLast⟩ := by
            intro z
            simp only [mapHandle, entriesGet_split hk, entriesRemove_at k z pre post (not_mem_keys hk)]
            cases post.getLast? <;> rfl
          exact (h3 _).trans (h3 _).symm

theorem got_erases {t : Ty} {v : t.El} {p : List U32} {s : Ty} {u : s.El} {put : s.El → t.El} (h : Part t v p s u put) (ht : t.WF)
    (hs : t.isState = true) {rt : Rt} (m : Mode) (x y : s.El) (hx : At t rt (put x)) (hy : At t rt (put y)) {e : Entry} (he : Erases p e) :
    (applyE (t.dict.handle m) (put x) e).got = (applyE (t.dict.handle m) (put y) e).got := by
  cases e with
  | update q b => exact part_update h ht hs m x y hx hy q he b
  | listPush _ _ => exact nomatch he
  | listPop _ => exact nomatch he
  | mapRemove q k => exact part_mapRemove h ht m x y q k he

theorem aside_entry {p : List U32} {e : Entry} (h : Aside p e) : ∃ kind key b, e.unpack = (kind, address e, key, b) ∧ AsideAt p (address e) kind key := by
  cases e with
  | update q b => exact ⟨_, _, _, rfl, .inl h⟩
  | listPop q => exact ⟨_, _, _, rfl, .inl h⟩
  | listPush q b =>
    refine ⟨_, _, _, rfl, ?_⟩
    by_cases hq : q <+: p
    · exact .inr ⟨hq, fun h' => h ⟨[], by rw [List.append_nil]; exact h'.symm⟩, .inl rfl⟩
    · exact .inl ⟨h, hq⟩
  | mapRemove q k =>
    refine ⟨_, _, _, rfl, ?_⟩
    by_cases hq : q <+: p
    · exact .inr ⟨hq, fun h' => h.1 ⟨[], by rw [List.append_nil]; exact h'.symm⟩, .inr ⟨rfl, k, rfl, h.2⟩⟩
    · exact .inl ⟨h.1, hq⟩

theorem applyE_aside {t : Ty} {v : t.El} {p : List U32} {s : Ty} {u : s.El} {put : s.El → t.El} (h : Part t v p s u put) (ht : t.WF)
    {rt : Rt} (hat : At t rt v) (m : Mode) {e : Entry} (he : Aside p e) :
    KeepsPart (fun v y g => Part t v p s y g) put (fun v => applyE (t.dict.handle m) v e) := by
  obtain ⟨kind, key, b, h1, h2⟩ := aside_entry he
  have := part_aside h ht hat m (address e) kind key (b.getD []) h2
  unfold applyE
  rw [h1]
  exact this

theorem within_under {p : List U32} {e : Entry} (h : Within p e) : ∃ e', e = under p e' := by
  cases e with
  | update q b => obtain ⟨r, rfl⟩ := h; exact ⟨.update r b, rfl⟩
  | listPush q b => obtain ⟨r, rfl⟩ := h; exact ⟨.listPush r b, rfl⟩
  | listPop q => obtain ⟨r, rfl⟩ := h; exact ⟨.listPop r, rfl⟩
  | mapRemove q k => obtain ⟨r, rfl⟩ := h; exact ⟨.mapRemove r k, rfl⟩

/-! ### Logs -/

/-- A log of entries inside of the object and entries beside it falls apart into the two. -/
theorem applies_split {t : Ty} (ht : t.WF) (hs : t.isState = true) {rt : Rt} (m : Mode) {p : List U32} {s : Ty} : ∀ {es : List Entry},
    (∀ e ∈ es, Within p e ∨ Aside p e) → ∀ {v v' : t.El} {u : s.El} {put : s.El → t.El}, Part t v p s u put → At t rt v →
    Applies (t.dict.handle m) v es v' →
    ∃ u' put', (∃ A, (es.filter (fun e => decide (Within p e))) = A.map (under p) ∧ Applies (s.dict.handle m) u A u') ∧
      (∀ y, Applies (t.dict.handle m) (put y) (without p es) (put' y) ∧ Part t (put' y) p s y put') ∧ v' = put' u'
  | [], _, v, v', u, put, h, _, ha => by
    cases ha
    exact ⟨u, put, ⟨[], rfl, rfl⟩, fun y => ⟨rfl, part_put h y⟩, (part_self h).symm⟩
  | e :: es, he, v, v', u, put, h, hat, ha => by
    obtain ⟨v1, r, h1, h2⟩ := ha
    have hat1 : At t rt v1 := applies_at ht hs hat (es := [e]) ⟨v1, r, h1, rfl⟩
    have he' : ∀ e ∈ es, Within p e ∨ Aside p e := fun e h => he e (List.mem_cons_of_mem _ h)
    by_cases hw : Within p e
    · obtain ⟨e', rfl⟩ := within_under hw
      rw [applyE_part h ht] at h1
      obtain ⟨u1, h3, rfl⟩ := Res.map_ok h1
      obtain ⟨u', put', ⟨A, h4, h5⟩, h6, h7⟩ := applies_split ht hs m he' (part_put h u1) hat1 h2
      refine ⟨u', put', ⟨e' :: A, ?_, u1, r, h3, h5⟩, ?_, h7⟩
      · rw [List.filter_cons_of_pos (by simpa using hw), h4]; rfl
      · have : without p (under p e' :: es) = without p es := List.filter_cons_of_neg (by simpa using hw)
        rw [this]
        exact h6
    · have hb : Aside p e := (he e (List.mem_cons_self ..)).resolve_left hw
      rcases applyE_aside h ht hat m hb with ⟨put1, rest, h3⟩ | h3
      · have h3u := (h3 u).1
        rw [part_self h] at h3u
        simp only at h3u
        rw [h1] at h3u
        cases h3u
        obtain ⟨u', put', ⟨A, h4, h5⟩, h6, h7⟩ := applies_split ht hs m he' (h3 u).2 hat1 h2
        refine ⟨u', put', ⟨A, ?_, h5⟩, fun y => ⟨?_, (h6 y).2⟩, h7⟩
        · rw [List.filter_cons_of_neg (by simpa using hw), h4]
        · have : without p (e :: es) = e :: without p es := List.filter_cons_of_pos (by simpa using hw)
          rw [this]
          exact ⟨put1 y, r, (h3 y).1, (h6 y).1⟩
      · obtain ⟨v', e', h4⟩ := h3 u
        rw [part_self h] at h4
        simp only at h4
        rw [h1] at h4
        cases h4

/-- And the two can be put together again in any way. -/
theorem applies_join {t : Ty} (ht : t.WF) (hs : t.isState = true) {rt : Rt} (m : Mode) {p : List U32} {s : Ty} : ∀ {es : List Entry},
    (∀ e ∈ es, Within p e ∨ Aside p e) → ∀ {v : t.El} {u u' : s.El} {put put' : s.El → t.El} {A : List Entry}, Part t v p s u put → At t rt v →
    (es.filter (fun e => decide (Within p e))) = A.map (under p) → Applies (s.dict.handle m) u A u' →
    (∀ y, Applies (t.dict.handle m) (put y) (without p es) (put' y)) → Applies (t.dict.handle m) v es (put' u')
  | [], _, v, u, u', put, put', A, h, _, hA, ha, hb => by
    obtain rfl : A = [] := List.map_eq_nil_iff.1 hA.symm
    cases ha
    show put' u = v
    rw [show put' u = put u from hb u]
    exact part_self h
  | e :: es, he, v, u, u', put, put', A, h, hat, hA, ha, hb => by
    have he' : ∀ e ∈ es, Within p e ∨ Aside p e := fun e h => he e (List.mem_cons_of_mem _ h)
    by_cases hw : Within p e
    · rw [List.filter_cons_of_pos (by simpa using hw)] at hA
      obtain ⟨e', A', rfl, rfl, hA'⟩ := List.map_eq_cons_iff.1 hA.symm
      obtain ⟨u1, r, h1, h2⟩ := ha
      have h3 : applyE (t.dict.handle m) v (under p e') = .ok (put u1) r := by rw [applyE_part h ht, h1]; rfl
      have : without p (under p e' :: es) = without p es := List.filter_cons_of_neg (by simpa using hw)
      rw [this] at hb
      exact ⟨put u1, r, h3, applies_join ht hs m he' (part_put h u1) (applies_at ht hs hat (es := [_]) ⟨_, r, h3, rfl⟩) hA'.symm h2 hb⟩
    · have hbs : Aside p e := (he e (List.mem_cons_self ..)).resolve_left hw
      have : without p (e :: es) = e :: without p es := List.filter_cons_of_pos (by simpa using hw)
      rw [this] at hb
      rw [List.filter_cons_of_neg (by simpa using hw)] at hA
      rcases applyE_aside h ht hat m hbs with ⟨put1, rest, h3⟩ | h3
      · have h3u := (h3 u).1
        rw [part_self h] at h3u
        refine ⟨put1 u, rest, h3u, applies_join ht hs m he' (h3 u).2 (applies_at ht hs hat (es := [_]) ⟨_, rest, h3u, rfl⟩) hA ha (fun y => ?_)⟩
        obtain ⟨w, r, h4, h5⟩ := hb y
        have h6 := (h3 y).1
        simp only at h6
        rw [h4] at h6
        cases h6
        exact h5
      · obtain ⟨v', e', h4⟩ := h3 u
        obtain ⟨w, r, h5, -⟩ := hb u
        simp only at h4
        rw [h5] at h4
        cases h4

end Steit
