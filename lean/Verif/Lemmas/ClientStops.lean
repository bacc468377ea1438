import Verif.Lemmas.CutLog

/-!
# Where a C# client stops in arbitrary bytes
-/

namespace Steit

theorem csVarintLoop_split : ∀ (bs : Bytes) (v : BitVec 64) (off : Nat) {x : BitVec 64} {rest : Bytes},
    csVarintLoop bs v off = .ok (x, rest) → ∃ pre, pre ≠ [] ∧ bs = pre ++ rest ∧ ∀ r, csVarintLoop (pre ++ r) v off = .ok (x, r)
  | [], _, _, _, _, h => by cases h
  | b :: bs, v, off, x, rest, h => by
    simp only [csVarintLoop] at h
    split at h
    · rename_i hb
      cases h
      exact ⟨[b], by simp, rfl, fun r => by simp only [List.cons_append, List.nil_append, csVarintLoop, hb, if_true]⟩
    · rename_i hb
      obtain ⟨pre, _, h2, h3⟩ := csVarintLoop_split bs _ _ h
      exact ⟨b :: pre, by simp, by rw [h2]; rfl, fun r => by simp only [List.cons_append, csVarintLoop, hb, if_false]; exact h3 r⟩

theorem csReadSize_split {bs rest : Bytes} {size : Int} (h : csReadSize bs = .ok (size, rest)) :
    ∃ pre, pre ≠ [] ∧ bs = pre ++ rest ∧ ∀ r, csReadSize (pre ++ r) = .ok (size, r) := by
  unfold csReadSize csReadUInt32 csReadUInt csReadUnsigned at h ⊢
  cases h1 : csVarintLoop bs 0#64 0 with
  | error e => rw [h1] at h; cases h
  | ok x =>
    obtain ⟨x, r1⟩ := x
    obtain ⟨pre, hne, h2, h3⟩ := csVarintLoop_split bs _ _ h1
    rw [h1] at h
    cases h
    refine ⟨pre, hne, h2, fun r => ?_⟩
    rw [h3]
    rfl

theorem csGetNested_split {bs payload rest : Bytes} (h : csGetNested bs = .ok (payload, rest)) :
    ∃ pre, pre ≠ [] ∧ bs = pre ++ rest ∧ ∀ r, csGetNested (pre ++ r) = .ok (payload, r) := by
  unfold csGetNested at h ⊢
  cases h1 : csReadSize bs with
  | error e => rw [h1] at h; cases h
  | ok x =>
    obtain ⟨size, r1⟩ := x
    obtain ⟨pre, hne, h2, h3⟩ := csReadSize_split h1
    rw [h1] at h
    simp only [Bind.bind, Except.bind] at h
    unfold csTake at h
    split at h
    · cases h
    · split at h
      · cases h
      · rename_i hlen hneg
        have hp := congrArg Prod.fst (Except.ok.inj h)
        have hr := congrArg Prod.snd (Except.ok.inj h)
        simp only at hp hr
        have hpl : payload.length = size.toNat := by rw [← hp, List.length_take]; omega
        refine ⟨pre ++ payload, by simp [hne], ?_, fun r => ?_⟩
        · rw [h2, List.append_assoc, ← hp, ← hr, List.take_append_drop]
        · rw [List.append_assoc, h3]
          simp only [Bind.bind, Except.bind]
          unfold csTake
          rw [if_neg (by simp only [List.length_append]; omega), if_neg hneg, ← hpl, List.take_left, List.drop_left]

theorem csReplayStep_split {ρ : Bytes → Str} {t : Ty} {c c' : t.Cs} {bs rest : Bytes} (h : t.csReplayStep ρ c bs = .ok (c', rest)) :
    ∃ pre, pre ≠ [] ∧ bs = pre ++ rest ∧ ∀ r, t.csReplayStep ρ c (pre ++ r) = .ok (c', r) := by
  unfold Ty.csReplayStep at h ⊢
  cases h1 : csGetNested bs with
  | error e => rw [h1] at h; cases h
  | ok x =>
    obtain ⟨payload, r1⟩ := x
    obtain ⟨pre, hne, h2, h3⟩ := csGetNested_split h1
    rw [h1] at h
    simp only [Bind.bind, Except.bind] at h
    cases h4 : logEntryTy.csDeserialize ρ payload with
    | error e => rw [h4] at h; cases h
    | ok y =>
      rw [h4] at h
      simp only at h
      cases h5 : t.csReplayEntry ρ c (.ofCs y.1) with
      | error e => rw [h5] at h; cases h
      | ok z =>
        rw [h5] at h
        cases h
        refine ⟨pre, hne, h2, fun r => ?_⟩
        simp only [Bind.bind, Except.bind, h3, h4, h5]

theorem csReplayLeft_error {ρ : Bytes → Str} {t : Ty} {c : t.Cs} {bs : Bytes} {e : Exn} (h : t.csReplayStep ρ c bs = .error e)
    (hne : bs ≠ []) (n : Nat) : t.csReplayLeft ρ (n + 1) c bs = (c, some e) := by
  cases bs with
  | nil => exact absurd rfl hne
  | cons b bs =>
    unfold Ty.csReplayStep at h
    simp only [Bind.bind, Except.bind] at h
    simp only [Ty.csReplayLeft]
    cases h1 : csGetNested (b :: bs) with
    | error e => rw [h1] at h; cases h; rfl
    | ok x =>
      rw [h1] at h
      simp only at h ⊢
      cases h2 : logEntryTy.csDeserialize ρ x.1 with
      | error e => rw [h2] at h; cases h; rfl
      | ok y =>
        rw [h2] at h
        simp only at h ⊢
        cases h3 : t.csReplayEntry ρ c (.ofCs y.1) with
        | error e => rw [h3] at h; cases h; rfl
        | ok z => rw [h3] at h; cases h

/-- Whatever the bytes: some are replayed, and the rest is nothing or cannot be. -/
theorem csReplayLeft_stops (ρ : Bytes → Str) (t : Ty) : ∀ (n : Nat) (c : t.Cs) (bs : Bytes), bs.length ≤ n →
    ∃ done rest, bs = done ++ rest ∧ Eats (t.csReplayStep ρ) c done (t.csReplayLeft ρ n c bs).1 ∧
      (((t.csReplayLeft ρ n c bs).2 = none ∧ rest = []) ∨
        ∃ e, (t.csReplayLeft ρ n c bs).2 = some e ∧ rest ≠ [] ∧ t.csReplayStep ρ (t.csReplayLeft ρ n c bs).1 rest = .error e)
  | n, c, [], _ => ⟨[], [], rfl, by cases n <;> exact .refl c, .inl ⟨by cases n <;> rfl, rfl⟩⟩
  | 0, c, b :: bs, h => by simp at h
  | n + 1, c, b :: bs, h => by
    cases h1 : t.csReplayStep ρ c (b :: bs) with
    | error e =>
      rw [csReplayLeft_error h1 (by simp) n]
      exact ⟨[], b :: bs, rfl, .refl c, .inr ⟨e, rfl, by simp, h1⟩⟩
    | ok x =>
      obtain ⟨c', rest⟩ := x
      obtain ⟨pre, hne, h2, h3⟩ := csReplayStep_split h1
      rw [csReplayLeft_step h1 (by simp) n]
      have hlen : rest.length ≤ n := by
        have hl := congrArg List.length h2
        have := List.length_pos_iff.2 hne
        simp only [List.length_append, List.length_cons] at hl h
        omega
      obtain ⟨done, r, h4, h5, h6⟩ := csReplayLeft_stops ρ t n c' rest hlen
      exact ⟨pre ++ done, r, by rw [h2, h4, List.append_assoc], (Eats.one hne h3).trans h5, h6⟩

end Steit
