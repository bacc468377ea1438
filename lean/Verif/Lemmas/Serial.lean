import Verif.Lemmas.Interleave
import Verif.Lemmas.PartSame

/-!
# Patches to unrelated objects, interleaved
-/

namespace Steit
open Spec

/-! ### `Applies` is a partial function -/

theorem Applies.det {α : Type} {h : α → List U32 → LogKind → Option U32 → Bytes → Res α} {es : List Entry} :
    ∀ {v v1 v2 : α}, Applies h v es v1 → Applies h v es v2 → v1 = v2 := by
  induction es with
  | nil => intro v v1 v2 h1 h2; cases h1; cases h2; rfl
  | cons e es ih =>
    intro v v1 v2 ⟨u, rest, h1, h1'⟩ ⟨u', rest', h2, h2'⟩
    rw [h1] at h2
    cases h2
    exact ih h1' h2'

theorem Applies.split {α : Type} {h : α → List U32 → LogKind → Option U32 → Bytes → Res α} {es es' : List Entry} :
    ∀ {v v' : α}, Applies h v (es ++ es') v' → ∃ u, Applies h v es u ∧ Applies h u es' v' := by
  induction es with
  | nil => intro v v' h; exact ⟨v, rfl, h⟩
  | cons e es ih =>
    intro v v' ⟨u, rest, h1, h2⟩
    obtain ⟨x, h3, h4⟩ := ih h2
    exact ⟨x, ⟨u, rest, h1, h3⟩, h4⟩

/-! ### Patches -/

/-- Entries for one object, which turn `old` into `new`. -/
structure Patch extends Change where
  es : List Entry

/-- As entries for the whole state. -/
def Patch.entries (j : Patch) : List Entry := j.es.map (under j.path)

/-- The patch can be applied to the state. -/
def Patch.Ok (t : Ty) (m : Mode) (r : t.El) (j : Patch) : Prop :=
  (∃ put, Part t r j.path j.t j.old put) ∧ Applies (j.t.dict.handle m) j.old j.es j.new

/-- Neither leads through the other. -/
def Patch.Away (j k : Patch) : Prop := ¬ j.path <+: k.path ∧ ¬ k.path <+: j.path

theorem Patch.Away.symm {j k : Patch} (h : j.Away k) : k.Away j := ⟨h.2, h.1⟩

theorem Patch.ok_put {t : Ty} (ht : t.WF) {m : Mode} {r : t.El} {j k : Patch} {put : j.t.El → t.El}
    (h : Part t r j.path j.t j.old put) (hk : k.Ok t m r) (hjk : j.Away k) (x : j.t.El) : k.Ok t m (put x) := by
  obtain ⟨⟨put', h'⟩, ha⟩ := hk
  obtain ⟨put2, _, _, h3, _⟩ := part_pair h h' ht hjk.1 hjk.2
  exact ⟨⟨_, h3 x⟩, ha⟩

/-- One after the other. -/
theorem patches_seq {t : Ty} (ht : t.WF) (m : Mode) : ∀ (js : List Patch) (r : t.El), (∀ j ∈ js, j.Ok t m r) →
    js.Pairwise Patch.Away →
    ∃ r', Applies (t.dict.handle m) r (js.flatMap Patch.entries) r' ∧ Replaced t r (js.map Patch.toChange) r' := by
  intro js
  induction js with
  | nil => intro r _ _; exact ⟨r, rfl, .nil r⟩
  | cons j js ih =>
    intro r hok hp
    obtain ⟨⟨put, h⟩, ha⟩ := hok j List.mem_cons_self
    obtain ⟨hj, hp⟩ := List.pairwise_cons.1 hp
    obtain ⟨r', h1, h2⟩ := ih (put j.new)
      (fun k hk => Patch.ok_put ht h (hok k (List.mem_cons_of_mem _ hk)) (hj k hk) j.new) hp
    exact ⟨r', (applies_part ht m h ha).trans h1, .cons h h2⟩

/-- An entry for one object can go before patches for other objects. -/
theorem patches_hop {t : Ty} (ht : t.WF) (m : Mode) (j : Patch) (e : Entry) (y : j.t.El) (rest : Bytes)
    (he : applyE (j.t.dict.handle m) j.old e = .ok y rest) :
    ∀ (js : List Patch) (r v1 v2 : t.El) (put : j.t.El → t.El), Part t r j.path j.t j.old put → (∀ k ∈ js, k.Ok t m r) →
      (∀ k ∈ js, j.Away k) → js.Pairwise Patch.Away → Applies (t.dict.handle m) r (js.flatMap Patch.entries) v1 →
      Applies (t.dict.handle m) v1 [under j.path e] v2 → Applies (t.dict.handle m) (put y) (js.flatMap Patch.entries) v2 := by
  intro js
  induction js with
  | nil =>
    intro r v1 v2 put h _ _ _ h1 h2
    cases h1
    have h3 : Applies (t.dict.handle m) r [under j.path e] (put y) :=
      applies_part ht m (es := [e]) h ⟨y, rest, he, rfl⟩
    exact h2.det h3
  | cons k js ih =>
    intro r v1 v2 put h hok haway hp h1 h2
    obtain ⟨⟨putk, hk⟩, ha⟩ := hok k List.mem_cons_self
    obtain ⟨hkj, hp⟩ := List.pairwise_cons.1 hp
    have hjk := haway k List.mem_cons_self
    obtain ⟨put2, _, _, h3, h4⟩ := part_pair h hk ht hjk.1 hjk.2
    obtain ⟨x, h5, h6⟩ := Applies.split h1
    have hx : x = putk k.new := h5.det (applies_part ht m hk ha)
    subst hx
    have h7 := ih _ v1 v2 _ (h4 k.new)
      (fun k' hk' => Patch.ok_put ht hk (hok k' (List.mem_cons_of_mem _ hk')) (hkj k' hk') k.new)
      (fun k' hk' => haway k' (List.mem_cons_of_mem _ hk')) hp h6 h2
    exact (applies_part ht m (h3 y) ha).trans h7

theorem split_at {β : Type} {l : List β} {i : Nat} {a : β} (h : l[i]? = some a) :
    ∃ pre post, l = pre ++ a :: post ∧ ∀ b, l.set i b = pre ++ b :: post := by
  induction l generalizing i with
  | nil => simp at h
  | cons x xs ih =>
    cases i with
    | zero => simp at h; subst h; exact ⟨[], xs, rfl, fun b => rfl⟩
    | succ i =>
      simp at h
      obtain ⟨pre, post, h1, h2⟩ := ih h
      exact ⟨x :: pre, post, congrArg (x :: ·) h1, fun b => congrArg (x :: ·) (h2 b)⟩

/-- In any order that keeps the order within each patch, the result is the same. -/
theorem patches_merge {t : Ty} (ht : t.WF) (m : Mode) {ls : List (List Entry)} {L : List Entry} (h : Merge ls L) :
    ∀ (js : List Patch) (r r' : t.El), ls = js.map Patch.entries → (∀ j ∈ js, j.Ok t m r) → js.Pairwise Patch.Away →
      Applies (t.dict.handle m) r (js.flatMap Patch.entries) r' → Applies (t.dict.handle m) r L r' := by
  induction h with
  | done h =>
    intro js r r' hls _ _ ha
    subst hls
    have : js.flatMap Patch.entries = [] := by
      rw [List.flatMap_eq_nil_iff]
      exact fun j hj => h _ (List.mem_map.2 ⟨j, hj, rfl⟩)
    rw [this] at ha
    exact ha
  | @take ls i a l out hi _ ih =>
    intro js r r' hls hok hp ha
    subst hls
    rw [List.getElem?_map] at hi
    cases hj : js[i]? with
    | none => rw [hj] at hi; cases hi
    | some j =>
      rw [hj] at hi
      have he : j.entries = a :: l := Option.some.inj hi
      obtain ⟨pre, post, h1, h2⟩ := split_at hj
      have hjm : j ∈ js := by rw [h1]; exact List.mem_append_right _ List.mem_cons_self
      obtain ⟨⟨put, hput⟩, hja⟩ := hok j hjm
      cases hes : j.es with
      | nil => simp [Patch.entries, hes] at he
      | cons e es =>
        have he' : under j.path e = a ∧ es.map (under j.path) = l := by
          simpa [Patch.entries, hes] using he
        rw [hes] at hja
        obtain ⟨y, rest, hy, hys⟩ := hja
        let j' : Patch := ⟨⟨j.path, j.t, y, j.new⟩, es⟩
        have hp' := hp
        rw [h1] at hp' hok
        obtain ⟨hp1, hp2, hp3⟩ := List.pairwise_append.1 hp'
        obtain ⟨hp4, hp5⟩ := List.pairwise_cons.1 hp2
        have hpre : ∀ k ∈ pre, j.Away k := fun k hk => (hp3 k hk j List.mem_cons_self).symm
        have hset : js.set i j' = pre ++ j' :: post := h2 j'
        refine ⟨put y, rest, ?_, ih (js.set i j') (put y) r' ?_ ?_ ?_ ?_⟩
        · rw [← he'.1, applyE_part hput ht, hy]
          rfl
        · rw [List.map_set]
          exact congrArg (fun x => (js.map Patch.entries).set i x) he'.2.symm
        · rw [hset]
          intro k hk
          rcases List.mem_append.1 hk with hk | hk
          · exact Patch.ok_put ht hput (hok k (List.mem_append_left _ hk)) (hpre k hk) y
          · rcases List.mem_cons.1 hk with hk | hk
            · rw [hk]
              exact ⟨⟨put, part_put hput y⟩, hys⟩
            · exact Patch.ok_put ht hput (hok k (List.mem_append_right _ (List.mem_cons_of_mem _ hk))) (hp4 k hk) y
        · rw [hset]
          exact List.pairwise_append.2 ⟨hp1, List.pairwise_cons.2 ⟨hp4, hp5⟩, fun k hk k' hk' => by
            rcases List.mem_cons.1 hk' with hk' | hk'
            · rw [hk']
              exact (hpre k hk).symm
            · exact hp3 k hk k' (List.mem_cons_of_mem _ hk')⟩
        · rw [hset]
          rw [h1] at ha
          simp only [List.flatMap_append, List.flatMap_cons] at ha ⊢
          obtain ⟨v1, ha1, ha2⟩ := Applies.split ha
          have hje : j.entries = [under j.path e] ++ j'.entries := by simp [Patch.entries, hes, j']
          rw [hje, List.append_assoc] at ha2
          obtain ⟨v2, ha3, ha4⟩ := Applies.split ha2
          exact (patches_hop ht m j e y rest hy pre r v1 v2 put hput (fun k hk => hok k (List.mem_append_left _ hk)) hpre hp1
            ha1 ha3).trans ha4

/-! ### Merging the blocks of a log -/

theorem merge_append {β : Type} {i : Nat} {b : List β} : ∀ {ls : List (List β)} {l out : List β}, ls[i]? = some (b ++ l) →
    Merge (ls.set i l) out → Merge ls (b ++ out) := by
  induction b with
  | nil =>
    intro ls l out hi h
    rw [List.nil_append] at hi
    rw [set_same hi] at h
    exact h
  | cons a b ih =>
    intro ls l out hi h
    have hlt := (List.getElem?_eq_some_iff.1 hi).1
    refine .take hi (ih (l := l) (List.getElem?_set_self hlt) ?_)
    rw [List.set_set]
    exact h

theorem merge_flatten {β : Type} {bss : List (List (List β))} {B : List (List β)} (h : Merge bss B) :
    Merge (bss.map List.flatten) B.flatten := by
  induction h with
  | @done ls h =>
    refine .done (fun l hl => ?_)
    obtain ⟨x, hx, rfl⟩ := List.mem_map.1 hl
    rw [h x hx]
    rfl
  | @take ls i a l out hi _ ih =>
    rw [List.flatten_cons]
    refine merge_append (i := i) (l := l.flatten) ?_ ?_
    · rw [List.getElem?_map, hi]
      rfl
    · rw [List.map_set] at ih
      exact ih

end Steit
