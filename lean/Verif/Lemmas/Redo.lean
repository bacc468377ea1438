import Verif.Lemmas.Replay
import Verif.Lemmas.AnyTy
import Verif.Lemmas.PartPair

/-! # Writing the same twice -/

namespace Steit
open Spec

/-- A write: where, and what. -/
abbrev Write := List U32 × Bytes

section
variable {α β : Type}

/-- Writes, one after the other. -/
def runW (step : α → Write → Option α) : List Write → α → Option α
  | [], v => some v
  | w :: U, v => (step v w).bind (runW step U)

theorem runW_cons {step : α → Write → Option α} {w : Write} {U : List Write} {v v' : α} :
    runW step (w :: U) v = some v' ↔ ∃ u, step v w = some u ∧ runW step U u = some v' := by
  simp only [runW, Option.bind_eq_some_iff]

theorem runW_append {step : α → Write → Option α} {A B : List Write} : ∀ {v v' : α},
    runW step (A ++ B) v = some v' ↔ ∃ u, runW step A v = some u ∧ runW step B u = some v' := by
  induction A with
  | nil => intro v v'; simp [runW]
  | cons w A ih =>
    intro v v'
    rw [List.cons_append, runW_cons]
    constructor
    · rintro ⟨u, h1, h2⟩
      obtain ⟨x, h3, h4⟩ := ih.1 h2
      exact ⟨x, runW_cons.2 ⟨u, h1, h3⟩, h4⟩
    · rintro ⟨x, h1, h2⟩
      obtain ⟨u, h3, h4⟩ := runW_cons.1 h1
      exact ⟨u, h3, ih.2 ⟨x, h4, h2⟩⟩

/-- Making the same writes again changes nothing but what `E` does not see, if they can be made. -/
def Redoes (step : α → Write → Option α) (I : α → Prop) (E : α → α → Prop) : Prop :=
  ∀ U v v1 v2, I v → runW step U v = some v1 → runW step U v1 = some v2 → E v2 v1

/-- What a write says to a part. -/
def sub (q : U32 → Bool) : Write → Option Write
  | ([], _) => none
  | (k :: p, b) => if q k then some (p, b) else none

theorem runW_inv {step : α → Write → Option α} {I : α → Prop} (hI : ∀ v w v', I v → step v w = some v' → I v') {U : List Write} :
    ∀ {v v' : α}, I v → runW step U v = some v' → I v' := by
  induction U with
  | nil => intro v v' hv h; cases h; exact hv
  | cons w U ih =>
    intro v v' hv h
    obtain ⟨u, h1, h2⟩ := runW_cons.1 h
    exact ih (hI _ _ _ hv h1) h2

/-- Once the whole object is written, it does not matter what it was. -/
theorem redo_whole {step : α → Write → Option α} {I : α → Prop} {E : α → α → Prop} (W : Write → Prop) (hE : ∀ v, E v v)
    (hI : ∀ v w v', I v → step v w = some v' → I v')
    (hroot : ∀ v v' w x, W w → I v → I v' → step v w = some x → step v' w = some x)
    (hin : ∀ U v v1 v2, (∀ w ∈ U, ¬ W w) → I v → runW step U v = some v1 → runW step U v1 = some v2 → E v2 v1) :
    Redoes step I E := by
  intro U v v1 v2 hv h1 h2
  by_cases hU : ∃ w ∈ U, W w
  · obtain ⟨w, hw, hp⟩ := hU
    obtain ⟨A, B, rfl⟩ := List.append_of_mem hw
    obtain ⟨a1, h3, h4⟩ := runW_append.1 h1
    obtain ⟨a2, h5, h6⟩ := runW_append.1 h2
    obtain ⟨x1, h7, h8⟩ := runW_cons.1 h4
    obtain ⟨x2, h9, h10⟩ := runW_cons.1 h6
    have ha1 := runW_inv hI hv h3
    have ha2 := runW_inv hI (runW_inv hI hv h1) h5
    have := hroot a1 a2 w x1 hp ha1 ha2 h7
    rw [this] at h9
    cases h9
    rw [h8] at h10
    cases h10
    exact hE _
  · exact hin U v v1 v2 (fun w hw hp => hU ⟨w, hw, hp⟩) hv h1 h2

theorem redo_node {step : α → Write → Option α} {I : α → Prop} {E : α → α → Prop} (hE : ∀ v, E v v)
    (hI : ∀ v w v', I v → step v w = some v' → I v')
    (hroot : ∀ v v' b x, I v → I v' → step v ([], b) = some x → step v' ([], b) = some x)
    (hin : ∀ U v v1 v2, (∀ w ∈ U, w.1 ≠ []) → I v → runW step U v = some v1 → runW step U v1 = some v2 → E v2 v1) :
    Redoes step I E :=
  redo_whole (fun w => w.1 = []) hE hI (fun v v' w x hw hv hv' h => by
    obtain ⟨p, b⟩ := w
    cases hw
    exact hroot v v' b x hv hv' h) hin

/-- Objects where nothing but the whole can be written. -/
theorem redo_leaf {step : α → Write → Option α} {E : α → α → Prop} (hE : ∀ v, E v v)
    (hroot : ∀ v v' b x, step v ([], b) = some x → step v' ([], b) = some x)
    (hin : ∀ v w v', w.1 ≠ [] → step v w = some v' → v' = v) (I : α → Prop) : Redoes step I E := by
  intro U v v1 v2 _ h1 h2
  refine redo_node (I := fun _ => True) hE (fun _ _ _ _ _ => trivial) (fun v v' b x _ _ => hroot v v' b x) ?_ U v v1 v2 trivial h1 h2
  have key : ∀ {U : List Write} {v v' : α}, (∀ w ∈ U, w.1 ≠ []) → runW step U v = some v' → v' = v := by
    intro U
    induction U with
    | nil => intro v v' _ h; cases h; rfl
    | cons w U ih =>
      intro v v' hU h
      obtain ⟨u, h3, h4⟩ := runW_cons.1 h
      rw [ih (fun w hw => hU w (by simp [hw])) h4, hin v w u (hU w (by simp)) h3]
  intro U v v1 v2 hU _ h1 h2
  rw [key hU h2]
  exact hE _

/-- Two parts side by side. -/
theorem redo_pair {f : α → Write → Option α} {g : β → Write → Option β} {S : α × β → Write → Option (α × β)} (q : U32 → Bool)
    {I : α → Prop} {J : β → Prop} {E : α → α → Prop} {F : β → β → Prop} (hf : Redoes f I E) (hg : Redoes g J F)
    (hS : ∀ v k p b v', S v (k :: p, b) = some v' →
      if q k then f v.1 (p, b) = some v'.1 ∧ v'.2 = v.2 else v'.1 = v.1 ∧ g v.2 (k :: p, b) = some v'.2)
    (hnil : ∀ v b, S v ([], b) = none) : Redoes S (fun v => I v.1 ∧ J v.2) (fun v' v => E v'.1 v.1 ∧ F v'.2 v.2) := by
  have key : ∀ {U : List Write} {v v' : α × β}, runW S U v = some v' →
      runW f (U.filterMap (sub q)) v.1 = some v'.1 ∧ runW g (U.filter (fun w => !(sub q w).isSome)) v.2 = some v'.2 := by
    intro U
    induction U with
    | nil => intro v v' h; cases h; exact ⟨rfl, rfl⟩
    | cons w U ih =>
      intro v v' h
      obtain ⟨u, h1, h2⟩ := runW_cons.1 h
      obtain ⟨h3, h4⟩ := ih h2
      obtain ⟨p, b⟩ := w
      cases p with
      | nil => rw [hnil] at h1; cases h1
      | cons k p =>
        have h5 := hS v k p b u h1
        by_cases hq : q k = true
        · rw [if_pos hq] at h5
          refine ⟨?_, ?_⟩
          · rw [List.filterMap_cons_some (b := (p, b)) (by simp [sub, hq])]
            exact runW_cons.2 ⟨_, h5.1, h3⟩
          · rw [List.filter_cons_of_neg (by simp [sub, hq]), ← h5.2]
            exact h4
        · rw [if_neg hq] at h5
          refine ⟨?_, ?_⟩
          · rw [List.filterMap_cons_none (by simp [sub, hq]), ← h5.1]
            exact h3
          · rw [List.filter_cons_of_pos (by simp [sub, hq])]
            exact runW_cons.2 ⟨_, h5.2, h4⟩
  intro U v v1 v2 hv h1 h2
  obtain ⟨h3, h4⟩ := key h1
  obtain ⟨h5, h6⟩ := key h2
  exact ⟨hf _ _ _ _ hv.1 h3 h5, hg _ _ _ _ hv.2 h4 h6⟩

/-- Items of a list. -/
theorem redo_items {f : α → Write → Option α} {S : List α → Write → Option (List α)} {I : Nat → α → Prop} {E : α → α → Prop}
    (hf : ∀ i, Redoes f (I i) E)
    (hS : ∀ l k p b l', S l (k :: p, b) = some l' → l'.length = l.length ∧ ∀ i x, l[i]? = some x →
      ∃ x', l'[i]? = some x' ∧ if k.toNat = i then f x (p, b) = some x' else x' = x)
    (U : List Write) (l l1 l2 : List α) (hU : ∀ w ∈ U, w.1 ≠ []) (hl : ∀ i x, l[i]? = some x → I i x)
    (h1 : runW S U l = some l1) (h2 : runW S U l1 = some l2) :
    l2.length = l1.length ∧ ∀ (i : Nat) x y, l1[i]? = some x → l2[i]? = some y → E y x := by
  have key : ∀ {U : List Write} {l l' : List α}, (∀ w ∈ U, w.1 ≠ []) → runW S U l = some l' → l'.length = l.length ∧
      ∀ i x, l[i]? = some x → ∃ x', l'[i]? = some x' ∧ runW f (U.filterMap (sub (fun k => k.toNat == i))) x = some x' := by
    intro U
    induction U with
    | nil => intro l l' _ h; cases h; exact ⟨rfl, fun i x hx => ⟨x, hx, rfl⟩⟩
    | cons w U ih =>
      intro l l' hU h
      obtain ⟨u, h1, h2⟩ := runW_cons.1 h
      obtain ⟨h3, h4⟩ := ih (fun w hw => hU w (by simp [hw])) h2
      obtain ⟨p, b⟩ := w
      cases p with
      | nil => exact absurd rfl (hU ([], b) (by simp))
      | cons k p =>
        obtain ⟨h5, h6⟩ := hS l k p b u h1
        refine ⟨h3.trans h5, fun i x hx => ?_⟩
        obtain ⟨y, hy, h7⟩ := h6 i x hx
        obtain ⟨x', hx', h8⟩ := h4 i y hy
        refine ⟨x', hx', ?_⟩
        by_cases hk : k.toNat = i
        · rw [if_pos hk] at h7
          rw [List.filterMap_cons_some (b := (p, b)) (by simp [sub, hk])]
          exact runW_cons.2 ⟨_, h7, h8⟩
        · rw [if_neg hk] at h7
          rw [List.filterMap_cons_none (by simp [sub, hk]), ← h7]
          exact h8
  obtain ⟨hlen1, h3⟩ := key hU h1
  obtain ⟨hlen2, h4⟩ := key hU h2
  refine ⟨hlen2, fun i x1 y hx hy => ?_⟩
  have hi : i < l.length := by have := (List.getElem?_eq_some_iff.1 hx).1; omega
  obtain ⟨x1', h5, h6⟩ := h3 i l[i] (by simp [hi])
  rw [hx] at h5
  cases h5
  obtain ⟨x2, h7, h8⟩ := h4 i x1 hx
  rw [hy] at h7
  cases h7
  exact hf i _ _ _ _ (hl i _ (by simp [hi])) h6 h8

/-- Writes to what is under a key, if anything. -/
def stepO (f : α → Write → Option α) (fresh : Bytes → Option α) (below : Option (Option α)) : Option α → Write → Option (Option α)
  | none, ([], b) => (fresh b).map some
  | none, (_ :: _, _) => below
  | some x, w => (f x w).map some

theorem runO_some {f : α → Write → Option α} {fresh : Bytes → Option α} {below : Option (Option α)} {U : List Write} :
    ∀ {x : α} {o : Option α}, runW (stepO f fresh below) U (some x) = some o → ∃ y, o = some y ∧ runW f U x = some y := by
  induction U with
  | nil => intro x o h; cases h; exact ⟨x, rfl, rfl⟩
  | cons w U ih =>
    intro x o h
    obtain ⟨u, h1, h2⟩ := runW_cons.1 h
    have h1 : (f x w).map some = some u := h1
    rw [Option.map_eq_some_iff] at h1
    obtain ⟨z, h3, rfl⟩ := h1
    obtain ⟨y, rfl, h4⟩ := ih h2
    exact ⟨y, rfl, runW_cons.2 ⟨z, h3, h4⟩⟩

/-- Values under a key. -/
theorem redo_key {f : α → Write → Option α} {fresh : Bytes → Option α} {below : Option (Option α)} {I : α → Prop} {E : α → α → Prop}
    (hE : ∀ v, E v v) (hI : ∀ v w v', I v → f v w = some v' → I v') (hf : Redoes f I E) (hnew : ∀ b x, fresh b = some x → I x)
    (hfresh : ∀ b x y, I y → fresh b = some x → f y ([], b) = some x) (hbelow : below = none ∨ below = some none)
    (hroot : ∀ v v' b x, I v → I v' → f v ([], b) = some x → f v' ([], b) = some x)
    (U : List Write) (o o1 o2 : Option α) (ho : ∀ x, o = some x → I x)
    (h1 : runW (stepO f fresh below) U o = some o1) (h2 : runW (stepO f fresh below) U o1 = some o2) :
    (o1 = none ∧ o2 = none) ∨ ∃ x y, o1 = some x ∧ o2 = some y ∧ E y x := by
  have fromNone : ∀ {U : List Write} {o1 : Option α}, runW (stepO f fresh below) U none = some o1 →
      (o1 = none ∧ ∀ w ∈ U, w.1 ≠ []) ∨ ∃ A b B x x1, U = A ++ ([], b) :: B ∧ fresh b = some x ∧ runW f B x = some x1 ∧ o1 = some x1 := by
    intro U
    induction U with
    | nil => intro o1 h; cases h; exact .inl ⟨rfl, by simp⟩
    | cons w U ih =>
      intro o1 h
      obtain ⟨u, h3, h4⟩ := runW_cons.1 h
      obtain ⟨p, b⟩ := w
      cases p with
      | nil =>
        have h3 : (fresh b).map some = some u := h3
        rw [Option.map_eq_some_iff] at h3
        obtain ⟨x, hx, rfl⟩ := h3
        obtain ⟨y, rfl, h5⟩ := runO_some h4
        exact .inr ⟨[], b, U, x, y, rfl, hx, h5, rfl⟩
      | cons k p =>
        have h3 : below = some u := h3
        rcases hbelow with hb | hb
        · rw [hb] at h3; cases h3
        · rw [hb] at h3
          cases h3
          rcases ih h4 with ⟨h5, h6⟩ | ⟨A, b', B, x, x1, rfl, h6⟩
          · refine .inl ⟨h5, fun w hw => ?_⟩
            rcases List.mem_cons.1 hw with rfl | hw
            · simp
            · exact h6 w hw
          · exact .inr ⟨(k :: p, b) :: A, b', B, x, x1, rfl, h6⟩
  cases o with
  | some x =>
    obtain ⟨x1, rfl, h3⟩ := runO_some h1
    obtain ⟨x2, rfl, h4⟩ := runO_some h2
    exact .inr ⟨x1, x2, rfl, rfl, hf _ _ _ _ (ho x rfl) h3 h4⟩
  | none =>
    rcases fromNone h1 with ⟨rfl, hU⟩ | ⟨A, b, B, x, x1, rfl, hx, h3, rfl⟩
    · rcases fromNone h2 with ⟨rfl, _⟩ | ⟨A, b, B, x, x1, rfl, _⟩
      · exact .inl ⟨rfl, rfl⟩
      · exact absurd rfl (hU ([], b) (by simp))
    · obtain ⟨x2, rfl, h4⟩ := runO_some h2
      obtain ⟨a, h5, h6⟩ := runW_append.1 h4
      obtain ⟨x', h7, h8⟩ := runW_cons.1 h6
      have hx1 : I x1 := runW_inv hI (hnew b x hx) h3
      have ha : I a := runW_inv hI hx1 h5
      rw [hfresh b x a ha hx] at h7
      cases h7
      rw [h3] at h8
      cases h8
      exact .inr ⟨x1, x1, rfl, rfl, hE _⟩

/-- Entries of a map. -/
theorem redo_entries {δ : Type} (get : U32 → δ → Option α) {f : α → Write → Option α} {fresh : U32 → Bytes → Option α} {below : Option (Option α)}
    {S : δ → Write → Option δ} (P : δ → Prop) {I : U32 → α → Prop} {E : α → α → Prop}
    (hE : ∀ v, E v v) (hI : ∀ k v w v', I k v → f v w = some v' → I k v') (hf : ∀ k, Redoes f (I k) E)
    (hnew : ∀ k b x, fresh k b = some x → I k x)
    (hfresh : ∀ k b x y, I k y → fresh k b = some x → f y ([], b) = some x) (hbelow : below = none ∨ below = some none)
    (hroot : ∀ k v v' b x, I k v → I k v' → f v ([], b) = some x → f v' ([], b) = some x)
    (hS : ∀ d k p b d', P d → S d (k :: p, b) = some d' → stepO f (fresh k) below (get k d) (p, b) = some (get k d') ∧
      (∀ j, j ≠ k → get j d' = get j d) ∧ P d')
    (U : List Write) (d d1 d2 : δ) (hp : P d) (hU : ∀ w ∈ U, w.1 ≠ []) (hd : ∀ k x, get k d = some x → I k x)
    (h1 : runW S U d = some d1) (h2 : runW S U d1 = some d2) (k : U32) :
    (get k d1 = none ∧ get k d2 = none) ∨ ∃ x y, get k d1 = some x ∧ get k d2 = some y ∧ E y x := by
  have key : ∀ {U : List Write} {d d' : δ}, P d → (∀ w ∈ U, w.1 ≠ []) → runW S U d = some d' →
      runW (stepO f (fresh k) below) (U.filterMap (sub (fun j => j == k))) (get k d) = some (get k d') ∧ P d' := by
    intro U
    induction U with
    | nil => intro d d' hp _ h; cases h; exact ⟨rfl, hp⟩
    | cons w U ih =>
      intro d d' hp hU h
      obtain ⟨u, h3, h4⟩ := runW_cons.1 h
      obtain ⟨p, b⟩ := w
      cases p with
      | nil => exact absurd rfl (hU ([], b) (by simp))
      | cons j p =>
        obtain ⟨h6, h7, h8⟩ := hS d j p b u hp h3
        obtain ⟨h5, h9⟩ := ih h8 (fun w hw => hU w (by simp [hw])) h4
        refine ⟨?_, h9⟩
        by_cases hj : j = k
        · subst hj
          rw [List.filterMap_cons_some (b := (p, b)) (by simp [sub])]
          exact runW_cons.2 ⟨_, h6, h5⟩
        · rw [List.filterMap_cons_none (by simp [sub, hj]), ← h7 k (Ne.symm hj)]
          exact h5
  exact redo_key hE (hI k) (hf k) (hnew k) (hfresh k) hbelow (hroot k) _ _ _ _ (hd k) (key hp hU h1).1 (key (key hp hU h1).2 hU h2).1

end

end Steit
