import Verif.Model.Threads
import Verif.Lemmas.Sound

/-! # Sound programs run concurrently -/

namespace Steit
open Prog

variable {α : Type}

/-- Each thread is sound for what it knows, and what it knows is in memory. -/
def SysOk (σ : CellMap) (Q : α → Prop) (s : Sys α) : Prop :=
  ∀ p ∈ s.threads, ∃ K : Loc → Prop, (∀ l, K l → σ l = some (s.mem l)) ∧ Sound σ K p (fun _ a => Q a)

theorem SysOk.step {σ : CellMap} {Q : α → Prop} {s s' : Sys α} (h : SysOk σ Q s) (hs : Sys.Step s s') :
    SysOk σ Q s' := by
  cases hs with
  | @mk μ μ' ts i p p' hi hp =>
    obtain ⟨K, hK, hsound⟩ := h p (List.mem_of_getElem? hi)
    cases p with
    | pure a => cases hp
    | fail e => cases hp
    | load l k =>
      cases hp
      obtain ⟨h1, n, h2, h3⟩ := hsound
      have : n = μ l := by have := hK l h1; rw [h2] at this; exact Option.some.inj this
      subst this
      intro q hq
      rcases List.mem_or_eq_of_mem_set hq with hq | rfl
      · exact h q hq
      · exact ⟨K, hK, h3⟩
    | store l n k =>
      cases hp
      have hmem : ∀ K' : Loc → Prop, (∀ l', K' l' → σ l' = some (μ l')) →
          ∀ l', K' l' → σ l' = some (if l' = l then n else μ l') := by
        intro K' hK' l' hl'
        split
        · next he => rw [he]; exact hsound.1
        · exact hK' l' hl'
      intro q hq
      rcases List.mem_or_eq_of_mem_set hq with hq | rfl
      · obtain ⟨K', hK', hs'⟩ := h q hq
        exact ⟨K', hmem K' hK', hs'⟩
      · refine ⟨fun x => K x ∨ x = l, ?_, hsound.2⟩
        intro x hx
        simp only
        rcases hx with hx | rfl
        · exact hmem K hK x hx
        · rw [if_pos rfl]; exact hsound.1

theorem SysOk.steps {σ : CellMap} {Q : α → Prop} {s s' : Sys α} (h : SysOk σ Q s) (hs : Sys.Steps s s') :
    SysOk σ Q s' := by
  induction hs with
  | refl => exact h
  | tail _ hstep ih => exact ih.step hstep

/-- A sound program has finished with a right result or can make a step. -/
theorem SysOk.progress {σ : CellMap} {Q : α → Prop} {s : Sys α} (h : SysOk σ Q s) {i : Nat} {p : Prog α}
    (hp : s.threads[i]? = some p) : (∃ a, p = .pure a ∧ Q a) ∨ ∃ s', Sys.Step s s' := by
  obtain ⟨K, _, hs⟩ := h p (List.mem_of_getElem? hp)
  cases p with
  | pure a => exact .inl ⟨a, rfl, hs⟩
  | fail e => exact hs.elim
  | load l k => exact .inr ⟨_, .mk hp rfl⟩
  | store l n k => exact .inr ⟨_, .mk hp rfl⟩

/-! ### Termination -/

/-- `p'` is what remains of `p` after one step. -/
def Next (p' p : Prog α) : Prop := ∃ μ μ', p.step μ = some (p', μ')

theorem Next.acc (p : Prog α) : Acc Next p := by
  induction p with
  | pure a => exact ⟨_, fun q ⟨_, _, h⟩ => by cases h⟩
  | fail e => exact ⟨_, fun q ⟨_, _, h⟩ => by cases h⟩
  | load l k ih => exact ⟨_, fun q ⟨_, _, h⟩ => by cases h; exact ih _⟩
  | store l n k ih => exact ⟨_, fun q ⟨_, _, h⟩ => by cases h; exact ih⟩

/-- One element of a list decreases. -/
def OneLess {β : Type} (r : β → β → Prop) (ts' ts : List β) : Prop :=
  ∃ i p p', ts[i]? = some p ∧ r p' p ∧ ts' = ts.set i p'

theorem OneLess.acc_cons {β : Type} {r : β → β → Prop} {p : β} (hp : Acc r p) :
    ∀ {ts : List β}, Acc (OneLess r) ts → Acc (OneLess r) (p :: ts) := by
  induction hp with
  | intro p _ ihp =>
    intro ts hts
    induction hts with
    | intro ts hacc ihts =>
      refine ⟨_, fun us hus => ?_⟩
      obtain ⟨i, q, q', h1, h2, rfl⟩ := hus
      cases i with
      | zero =>
        simp only [List.getElem?_cons_zero, Option.some.injEq] at h1
        subst h1
        exact ihp q' h2 ⟨ts, hacc⟩
      | succ i =>
        simp only [List.getElem?_cons_succ] at h1
        exact ihts _ ⟨i, q, q', h1, h2, rfl⟩

theorem OneLess.acc {β : Type} {r : β → β → Prop} (hr : ∀ p, Acc r p) (ts : List β) : Acc (OneLess r) ts := by
  induction ts with
  | nil => exact ⟨_, fun us ⟨i, p, p', h, _⟩ => by simp at h⟩
  | cons p ts ih => exact OneLess.acc_cons (hr p) ih

/-- No schedule runs forever. -/
theorem Sys.terminates (s : Sys α) : Acc (fun s' s => Sys.Step s s') s := by
  have : ∀ ts : List (Prog α), Acc (OneLess Next) ts → ∀ μ, Acc (fun s' s => Sys.Step s s') (⟨μ, ts⟩ : Sys α) := by
    intro ts hts
    induction hts with
    | intro ts _ ih =>
      intro μ
      refine ⟨_, fun s' hs' => ?_⟩
      cases hs' with
      | mk hi hp => exact ih _ ⟨_, _, _, hi, ⟨_, _, hp⟩, rfl⟩ _
  exact this s.threads (OneLess.acc Next.acc _) s.mem

/-! ### Relaxed atomics -/

/-- Every store but the initial contents is right, and each thread has observed a store of each cell it relies on. -/
def RSysOk (σ : CellMap) (Q : α → Prop) (s : RSys α) : Prop :=
  (∃ b, ∀ l j, b ≤ j → s.hist l j = none) ∧
  (∀ l j n, j ≠ 0 → s.hist l j = some n → σ l = some n) ∧
  (∀ t ∈ s.threads, (∀ l, (s.hist l (t.view l)).isSome = true) ∧ ∃ K : Loc → Prop, (∀ l, K l → t.view l ≠ 0) ∧
    Sound σ K t.prog (fun _ a => Q a))

theorem RSysOk.step {σ : CellMap} {Q : α → Prop} {s s' : RSys α} (h : RSysOk σ Q s) (hs : RSys.Step s s') :
    RSysOk σ Q s' := by
  cases hs with
  | @mk hh hh' ts i t t' hi hp =>
    obtain ⟨⟨b, hb⟩, hhist, hts⟩ := h
    obtain ⟨hv, K, hK, hsound⟩ := hts t (List.mem_of_getElem? hi)
    cases hp with
    | @load l k view j n hj hn =>
      refine ⟨⟨b, hb⟩, hhist, ?_⟩
      intro q hq
      rcases List.mem_or_eq_of_mem_set hq with hq | rfl
      · exact hts q hq
      · obtain ⟨h1, n', h2, h3⟩ := hsound
        have hl := hK l h1
        have h4 := hhist l j n (by simp only at hl; omega) hn
        rw [h2] at h4
        cases h4
        refine ⟨?_, K, ?_, h3⟩
        · intro x
          simp only
          split
          · next he => rw [he, hn]; rfl
          · exact hv x
        · intro x hx
          simp only
          split
          · simp only at hl; omega
          · exact hK x hx
    | @store l n k view j hj hn =>
      have hsome : ∀ x i, (hh x i).isSome = true → (if x = l ∧ i = j then some n else hh x i).isSome = true := by
        intro x i hx; split
        · rfl
        · exact hx
      refine ⟨⟨max b (j + 1), ?_⟩, ?_, ?_⟩
      · intro x i hi
        simp only
        rw [if_neg (by omega)]
        exact hb x i (by omega)
      · intro x i n' hi0 hx
        simp only at hx
        split at hx
        · next he => cases hx; rw [he.1]; exact hsound.1
        · exact hhist x i n' hi0 hx
      · intro q hq
        rcases List.mem_or_eq_of_mem_set hq with hq | rfl
        · exact ⟨fun x => hsome _ _ ((hts q hq).1 x), (hts q hq).2⟩
        · refine ⟨?_, fun x => K x ∨ x = l, ?_, hsound.2⟩
          · intro x
            simp only
            split
            · next he => rw [if_pos ⟨he, rfl⟩]; rfl
            · exact hsome _ _ (hv x)
          · intro x hx
            simp only
            split
            · omega
            · next he => exact hK x (hx.resolve_right he)

theorem RSysOk.steps {σ : CellMap} {Q : α → Prop} {s s' : RSys α} (h : RSysOk σ Q s) (hs : RSys.Steps s s') :
    RSysOk σ Q s' := by
  induction hs with
  | refl => exact h
  | tail _ hstep ih => exact ih.step hstep

theorem RSysOk.start {σ : CellMap} {Q : α → Prop} {μ : Mem} {ps : List (Prog α)}
    (h : ∀ p ∈ ps, Sound σ (fun _ => False) p (fun _ a => Q a)) : RSysOk σ Q (RSys.start μ ps) := by
  refine ⟨⟨1, ?_⟩, ?_, ?_⟩
  · intro l j hj
    simp only [RSys.start]
    rw [if_neg (by omega)]
  · intro l j n hj hn
    simp only [RSys.start, if_neg hj] at hn
    cases hn
  · intro t ht
    simp only [RSys.start, List.mem_map] at ht
    obtain ⟨p, hp, rfl⟩ := ht
    exact ⟨fun l => rfl, fun _ => False, fun _ h => h.elim, h p hp⟩

theorem RSysOk.progress {σ : CellMap} {Q : α → Prop} {s : RSys α} (h : RSysOk σ Q s) {i : Nat} {t : RThread α}
    (hp : s.threads[i]? = some t) : (∃ a, t.prog = .pure a ∧ Q a) ∨ ∃ s', RSys.Step s s' := by
  obtain ⟨⟨b, hb⟩, _, hts⟩ := h
  obtain ⟨hv, K, _, hs⟩ := hts t (List.mem_of_getElem? hp)
  obtain ⟨p, view⟩ := t
  cases p with
  | pure a => exact .inl ⟨a, rfl, hs⟩
  | fail e => exact hs.elim
  | load l k =>
    obtain ⟨n, hn⟩ := Option.isSome_iff_exists.1 (hv l)
    exact .inr ⟨_, .mk hp (.load (Nat.le_refl _) hn)⟩
  | store l n k =>
    exact .inr ⟨_, .mk hp (.store (j := max b (view l + 1)) (by omega) (hb _ _ (by omega)))⟩

/-- No schedule runs forever. -/
theorem RSys.terminates (s : RSys α) : Acc (fun s' s => RSys.Step s s') s := by
  have h0 : ∀ t : RThread α, Acc (fun t' t : RThread α => Next t'.prog t.prog) t :=
    fun t => InvImage.accessible (fun t : RThread α => t.prog) (Next.acc t.prog)
  have : ∀ ts : List (RThread α), Acc (OneLess (fun t' t : RThread α => Next t'.prog t.prog)) ts →
      ∀ h, Acc (fun s' s => RSys.Step s s') (⟨h, ts⟩ : RSys α) := by
    intro ts hts
    induction hts with
    | intro ts _ ih =>
      intro h
      refine ⟨_, fun s' hs' => ?_⟩
      cases hs' with
      | mk hi hp =>
        refine ih _ ⟨_, _, _, hi, ?_, rfl⟩ _
        cases hp with
        | @load l k view j n _ _ => exact ⟨fun _ => n, _, rfl⟩
        | store _ _ => exact ⟨fun _ => 0, _, rfl⟩
  exact this s.threads (OneLess.acc h0 _) s.hist

end Steit
