import Verif.Model.Prog

/-!
# A program logic for cache programs

`Sound σ K p Q`: `p` may be run when every cell in `K` holds its true size (`σ`); it then never fails, only stores true
sizes, only loads cells already known to hold them, and ends in a state `K'`, with a result, satisfying `Q`.
-/

namespace Steit

/-- The true content of each cache cell (`none`: no cell there). -/
abbrev CellMap := Loc → Option Nat

namespace Prog
variable {α β : Type}

/-- See the head of the file. -/
def Sound (σ : CellMap) : (Loc → Prop) → Prog α → ((Loc → Prop) → α → Prop) → Prop
  | K, pure a, Q => Q K a
  | _, fail _, _ => False
  | K, load l k, Q => K l ∧ ∃ n, σ l = some n ∧ Sound σ K (k n) Q
  | K, store l n k, Q => σ l = some n ∧ Sound σ (fun x => K x ∨ x = l) k Q

theorem bind_eq (p : Prog α) (f : α → Prog β) : (p >>= f) = bind p f := rfl
theorem pure_eq (a : α) : (Pure.pure a : Prog α) = pure a := rfl

theorem run_bind (p : Prog α) (f : α → Prog β) (μ : Mem) : (p >>= f).run μ =
    match p.run μ with
    | (.ok a, μ') => (f a).run μ'
    | (.error e, μ') => (.error e, μ') := by
  rw [bind_eq]
  induction p generalizing μ with
  | pure a => rfl
  | fail e => rfl
  | load l k ih => exact ih _ _
  | store l n k ih => exact ih _

theorem Sound.weaken {σ : CellMap} {p : Prog α} : ∀ {K : Loc → Prop} {Q R : (Loc → Prop) → α → Prop},
    Sound σ K p Q → (∀ K' a, (∀ x, K x → K' x) → Q K' a → R K' a) → Sound σ K p R := by
  induction p with
  | pure a => intro K Q R h i; exact i _ _ (fun _ h => h) h
  | fail e => intro K Q R h i; exact h
  | load l k ih =>
    intro K Q R h i
    obtain ⟨h1, n, h2, h3⟩ := h
    exact ⟨h1, n, h2, ih n h3 i⟩
  | store l n k ih =>
    intro K Q R h i
    exact ⟨h.1, ih h.2 (fun K' a hK q => i K' a (fun x hx => hK x (Or.inl hx)) q)⟩

theorem Sound.bind {σ : CellMap} {p : Prog α} {f : α → Prog β} : ∀ {K : Loc → Prop} {Q : (Loc → Prop) → α → Prop}
    {R : (Loc → Prop) → β → Prop},
    Sound σ K p Q → (∀ K' a, (∀ x, K x → K' x) → Q K' a → Sound σ K' (f a) R) → Sound σ K (p >>= f) R := by
  induction p with
  | pure a => intro K Q R h i; exact i _ _ (fun _ h => h) h
  | fail e => intro K Q R h i; exact h
  | load l k ih =>
    intro K Q R h i
    obtain ⟨h1, n, h2, h3⟩ := h
    exact ⟨h1, n, h2, ih n h3 i⟩
  | store l n k ih =>
    intro K Q R h i
    exact ⟨h.1, ih h.2 (fun K' a hK q => i K' a (fun x hx => hK x (Or.inl hx)) q)⟩

theorem Sound.unwrap {σ : CellMap} {p : Prog α} : ∀ {K : Loc → Prop} {Q : (Loc → Prop) → α → Prop},
    Sound σ K p Q → Sound σ K p.unwrap Q := by
  induction p with
  | pure a => intro K Q h; exact h
  | fail e => intro K Q h; exact h
  | load l k ih =>
    intro K Q h
    obtain ⟨h1, n, h2, h3⟩ := h
    exact ⟨h1, n, h2, ih n h3⟩
  | store l n k ih => intro K Q h; exact ⟨h.1, ih h.2⟩

theorem Sound.pure {σ : CellMap} {K : Loc → Prop} {a : α} {Q : (Loc → Prop) → α → Prop} (h : Q K a) :
    Sound σ K (Pure.pure a) Q := h

theorem Sound.addU32 {σ : CellMap} {K : Loc → Prop} {m : Mode} {a b : Nat} {Q : (Loc → Prop) → Nat → Prop}
    (hlt : a + b < 2 ^ 32) (h : Q K (a + b)) : Sound σ K (addU32 m a b) Q := by
  unfold Prog.addU32
  rw [if_pos hlt]
  exact h

/-- Running a sound program alone from any memory that is right on `K`. -/
theorem Sound.run {σ : CellMap} {p : Prog α} : ∀ {K : Loc → Prop} {Q : (Loc → Prop) → α → Prop} {μ : Mem},
    Sound σ K p Q → (∀ l, K l → σ l = some (μ l)) →
    ∃ K' a, Q K' a ∧ (p.run μ).1 = .ok a ∧ (∀ l, K' l → σ l = some ((p.run μ).2 l)) ∧
      (∀ l, (p.run μ).2 l ≠ μ l → σ l = some ((p.run μ).2 l)) := by
  induction p with
  | pure a => intro K Q μ h hμ; exact ⟨K, a, h, rfl, hμ, fun l hl => absurd rfl hl⟩
  | fail e => intro K Q μ h; exact h.elim
  | load l k ih =>
    intro K Q μ h hμ
    obtain ⟨h1, n, h2, h3⟩ := h
    have : n = μ l := by have := hμ l h1; rw [h2] at this; exact Option.some.inj this
    subst this
    exact ih _ h3 hμ
  | store l n k ih =>
    intro K Q μ h hμ
    have hμ' : ∀ x, (K x ∨ x = l) → σ x = some (if x = l then n else μ x) := by
      intro x hx
      by_cases hxl : x = l
      · subst hxl; simp [h.1]
      · simp only [hxl, or_false, if_false] at hx ⊢; exact hμ x hx
    obtain ⟨K', a, q, r1, r2, r3⟩ := ih (μ := fun x => if x = l then n else μ x) h.2 hμ'
    refine ⟨K', a, q, r1, r2, fun x hx => ?_⟩
    simp only [Prog.run] at hx ⊢
    by_cases hc : (k.run (fun x => if x = l then n else μ x)).2 x = (if x = l then n else μ x)
    · by_cases hxl : x = l
      · subst hxl; rw [hc]; simp [h.1]
      · rw [hc] at hx; simp [hxl] at hx
    · exact r3 x hc

end Prog

/-! ## Cells of composite objects -/

/-- Cells of an object owning `own` whose children, in order, have the cells `kids`. -/
def cellNode (own : Option Nat) (kids : List CellMap) : CellMap
  | [] => own
  | i :: rel => match kids[i]? with
    | some c => c rel
    | none => none

/-- `σ` restricted to the subtree at `l` is `c`. -/
def Agrees (σ : CellMap) (l : Loc) (c : CellMap) : Prop := ∀ rel, σ (l ++ rel) = c rel

/-- All cells of the object at `l`, its own included, are known. -/
def Covers (K : Loc → Prop) (l : Loc) (c : CellMap) : Prop := ∀ rel, (c rel).isSome → K (l ++ rel)

/-- All cells strictly below the object at `l` are known. -/
def CoversBelow (K : Loc → Prop) (l : Loc) (c : CellMap) : Prop := ∀ rel, rel ≠ [] → (c rel).isSome → K (l ++ rel)

/-- `Agrees` for the children from index `i` on. -/
def KidsAgree (σ : CellMap) (l : Loc) : Nat → List CellMap → Prop
  | _, [] => True
  | i, c :: cs => Agrees σ (l ++ [i]) c ∧ KidsAgree σ l (i + 1) cs

/-- `Covers` for the children from index `i` on. -/
def KidsCover (K : Loc → Prop) (l : Loc) : Nat → List CellMap → Prop
  | _, [] => True
  | i, c :: cs => Covers K (l ++ [i]) c ∧ KidsCover K l (i + 1) cs

theorem Covers.mono {K K' : Loc → Prop} {l : Loc} {c : CellMap} (h : Covers K l c) (hK : ∀ x, K x → K' x) :
    Covers K' l c := fun rel hr => hK _ (h rel hr)

theorem CoversBelow.mono {K K' : Loc → Prop} {l : Loc} {c : CellMap} (h : CoversBelow K l c)
    (hK : ∀ x, K x → K' x) : CoversBelow K' l c := fun rel h0 hr => hK _ (h rel h0 hr)

theorem Covers.below {K : Loc → Prop} {l : Loc} {c : CellMap} (h : Covers K l c) : CoversBelow K l c :=
  fun rel _ hr => h rel hr

theorem KidsCover.mono {K K' : Loc → Prop} {l : Loc} {cs : List CellMap} : ∀ {i : Nat},
    KidsCover K l i cs → (∀ x, K x → K' x) → KidsCover K' l i cs := by
  induction cs with
  | nil => intro i _ _; trivial
  | cons c cs ih => intro i h hK; exact ⟨h.1.mono hK, ih h.2 hK⟩

private theorem kidsAgree_of {σ : CellMap} {l : Loc} {cs : List CellMap} : ∀ {i : Nat},
    (∀ j rel, σ (l ++ (i + j) :: rel) = match cs[j]? with | some c => c rel | none => none) → KidsAgree σ l i cs := by
  induction cs with
  | nil => intro i _; trivial
  | cons c cs ih =>
    intro i h
    refine ⟨fun rel => ?_, ih (fun j rel => ?_)⟩
    · have := h 0 rel; simpa using this
    · have := h (j + 1) rel
      simpa [Nat.add_assoc, Nat.add_comm 1 j] using this

theorem Agrees.kids {σ : CellMap} {l : Loc} {own : Option Nat} {cs : List CellMap}
    (h : Agrees σ l (cellNode own cs)) : KidsAgree σ l 0 cs :=
  kidsAgree_of (fun j rel => by simpa [cellNode] using h (j :: rel))

theorem Agrees.own {σ : CellMap} {l : Loc} {c : CellMap} (h : Agrees σ l c) : σ l = c [] := by
  simpa using h []

private theorem covers_kids {K : Loc → Prop} {l : Loc} {cs : List CellMap} : ∀ {i : Nat},
    KidsCover K l i cs → ∀ j rel, ((match cs[j]? with | some c => c rel | none => none) : Option Nat).isSome →
      K (l ++ (i + j) :: rel) := by
  induction cs with
  | nil => intro i _ j rel hs; simp at hs
  | cons c cs ih =>
    intro i h j rel hs
    cases j with
    | zero => have := h.1 rel (by simpa using hs); simpa using this
    | succ j =>
      have := ih h.2 j rel (by simpa using hs)
      simpa [Nat.add_assoc, Nat.add_comm 1 j] using this

theorem KidsCover.below {K : Loc → Prop} {l : Loc} {own : Option Nat} {cs : List CellMap}
    (h : KidsCover K l 0 cs) : CoversBelow K l (cellNode own cs) := by
  intro rel h0 hs
  match rel, h0 with
  | i :: rel, _ =>
    have := covers_kids h i rel (by simpa [cellNode] using hs)
    simpa using this

private theorem kidsCover_of {K : Loc → Prop} {l : Loc} {cs : List CellMap} : ∀ {i : Nat},
    (∀ j rel, ((match cs[j]? with | some c => c rel | none => none) : Option Nat).isSome → K (l ++ (i + j) :: rel)) →
    KidsCover K l i cs := by
  induction cs with
  | nil => intro i _; trivial
  | cons c cs ih =>
    intro i h
    refine ⟨fun rel hs => ?_, ih (fun j rel hs => ?_)⟩
    · have := h 0 rel (by simpa using hs); simpa using this
    · have := h (j + 1) rel (by simpa using hs)
      simpa [Nat.add_assoc, Nat.add_comm 1 j] using this

theorem CoversBelow.kids {K : Loc → Prop} {l : Loc} {own : Option Nat} {cs : List CellMap}
    (h : CoversBelow K l (cellNode own cs)) : KidsCover K l 0 cs :=
  kidsCover_of (fun j rel hs => by
    have := h (j :: rel) (by simp) (by simpa [cellNode] using hs)
    simpa using this)

end Steit
