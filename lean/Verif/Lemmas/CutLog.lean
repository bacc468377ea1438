import Verif.Props.Replay
import Verif.Props.Robust
import Verif.Props.CSharpReplay
import Verif.Model.CSharpLeft

/-!
# Logs cut short
-/

namespace Steit
open Spec Prog

/-- Where a cut can fall: between two frames, or inside one. -/
theorem cut_chunks : ∀ (ps : List Bytes) (n : Nat), ∃ k ≤ ps.length, (chunks ps).take n = chunks (ps.take k) ∨
    ∃ p short, ps[k]? = some p ∧ short ≠ [] ∧ short <+: framed 2 p ∧ short ≠ framed 2 p ∧
      (chunks ps).take n = chunks (ps.take k) ++ short
  | [], n => ⟨0, by simp, .inl (by simp [chunks])⟩
  | p :: ps, n => by
    have hc : chunks (p :: ps) = framed 2 p ++ chunks ps := by simp [chunks]
    rcases Nat.lt_or_ge n (framed 2 p).length with h | h
    · refine ⟨0, by simp, ?_⟩
      rw [hc, List.take_append_of_le_length (by omega)]
      cases n with
      | zero => exact .inl (by simp [chunks])
      | succ n =>
        refine .inr ⟨p, (framed 2 p).take (n + 1), rfl, ?_, List.take_prefix _ _, ?_, by simp [chunks]⟩
        · intro h0
          have := congrArg List.length h0
          simp only [List.length_take, List.length_nil] at this
          omega
        · intro h0
          have := congrArg List.length h0
          simp only [List.length_take] at this
          omega
    · obtain ⟨k, hk, hr⟩ := cut_chunks ps (n - (framed 2 p).length)
      have ht : (chunks (p :: ps)).take n = framed 2 p ++ (chunks ps).take (n - (framed 2 p).length) := by
        rw [hc, List.take_append, List.take_of_length_le h]
      have hc' : chunks ((p :: ps).take (k + 1)) = framed 2 p ++ chunks (ps.take k) := by simp [chunks]
      refine ⟨k + 1, by simp only [List.length_cons]; omega, ?_⟩
      rcases hr with hr | ⟨q, short, h1, h2, h3, h4, h5⟩
      · exact .inl (by rw [ht, hr, hc'])
      · exact .inr ⟨q, short, h1, h2, h3, h4, by rw [ht, h5, hc', List.append_assoc]⟩

/-- Where a cut inside a frame can fall: inside the length, or inside the payload. -/
theorem cut_frame {p short : Bytes} (h : short <+: framed 2 p) (hne : short ≠ framed 2 p) :
    (short <+: leb p.length ∧ short ≠ leb p.length) ∨ ∃ q, q <+: p ∧ q ≠ p ∧ short = leb p.length ++ q := by
  have hf : framed 2 p = leb p.length ++ p := by simp [framed]
  rw [hf] at h hne
  rcases Nat.lt_or_ge short.length (leb p.length).length with hl | hl
  · refine .inl ⟨?_, fun h0 => by rw [h0] at hl; omega⟩
    rw [List.prefix_iff_eq_take] at h ⊢
    rw [List.take_append_of_le_length (by omega)] at h
    exact h
  · obtain ⟨tail, ht⟩ := h
    refine .inr ⟨short.drop (leb p.length).length, ?_, ?_, ?_⟩
    · refine ⟨tail, ?_⟩
      have := congrArg (List.drop (leb p.length).length) ht
      rwa [List.drop_append_of_le_length hl, List.drop_append_of_le_length (Nat.le_refl _), List.drop_length, List.nil_append] at this
    · intro h0
      apply hne
      have h1 : short.take (leb p.length).length = leb p.length := by
        have := congrArg (List.take (leb p.length).length) ht
        rwa [List.take_append_of_le_length hl, List.take_append_of_le_length (Nat.le_refl _), List.take_length] at this
      rw [← List.take_append_drop (leb p.length).length short, h1, h0]
    · have h1 : short.take (leb p.length).length = leb p.length := by
        have := congrArg (List.take (leb p.length).length) ht
        rwa [List.take_append_of_le_length hl, List.take_append_of_le_length (Nat.le_refl _), List.take_length] at this
      conv_lhs => rw [← List.take_append_drop (leb p.length).length short, h1]

/-! ## Rust -/

theorem chunkLoop_tail {α : Type} (d : Dict α) (m : Mode) (tail : Bytes) : ∀ (ps : List Bytes) (v : α) (fuel : Nat),
    (∀ p ∈ ps, p.length < 2 ^ 64) → (chunks ps ++ tail).length ≤ fuel →
    ∃ fuel', tail.length ≤ fuel' ∧ untilEof (replayStep d m) fuel v (chunks ps ++ tail) =
      match applyChunks d m v ps with
      | .ok v' => untilEof (replayStep d m) fuel' v' tail
      | .error x => outcome (.error x)
  | [], v, fuel, _, hf => ⟨fuel, by simpa [chunks] using hf, by simp [chunks, applyChunks]⟩
  | p :: ps, v, fuel, h, hf => by
    have hne : framed 2 p ≠ [] := framed_ne_nil (fun h => by cases h)
    have hp : 0 < (framed 2 p).length := List.length_pos_iff.2 hne
    have hc : chunks (p :: ps) ++ tail = framed 2 p ++ (chunks ps ++ tail) := by simp [chunks]
    have hstep := replayStep_chunk d m v p (chunks ps ++ tail) (h p (by simp))
    rw [hc] at hf ⊢
    have stop : ∀ v' e, replayStep d m v (framed 2 p ++ (chunks ps ++ tail)) = .err v' e →
        untilEof (replayStep d m) fuel v (framed 2 p ++ (chunks ps ++ tail)) = .err v' e := by
      intro v' e hs
      cases hb : framed 2 p ++ (chunks ps ++ tail) with
      | nil => exact absurd (List.append_eq_nil_iff.1 hb).1 hne
      | cons b bs =>
        rw [hb] at hf hs
        cases fuel with
        | zero => simp at hf
        | succ fuel => simp only [untilEof, hs]
    simp only [applyChunks]
    cases hq : parseEntry m p with
    | error e =>
      rw [hq] at hstep
      exact ⟨tail.length, Nat.le_refl _, stop v e hstep⟩
    | ok en =>
      rw [hq] at hstep
      simp only at hstep ⊢
      cases ha : applyEntry d m v en with
      | ok v' r =>
        rw [ha] at hstep
        obtain ⟨fuel', hf', he⟩ := untilEof_step (replayStep d m) fuel v v' _ _ (by simp [hne]) hstep
          (by simp only [List.length_append] at hp ⊢; omega) hf
        rw [he]
        exact chunkLoop_tail d m tail ps v' fuel' (fun x hx => h x (by simp [hx])) hf'
      | err v' err =>
        rw [ha] at hstep
        exact ⟨tail.length, Nat.le_refl _, stop v' err hstep⟩

/-- The tail of a log that is cut inside a length. -/
theorem replayStep_short {α : Type} (d : Dict α) (m : Mode) (v : α) {n : Nat} {short : Bytes} (hs : short <+: leb n)
    (hne : short ≠ leb n) (hn : n < 2 ^ 64) : replayStep d m v short = .err v .unexpectedEof := by
  unfold replayStep Dict.deserializeNested
  have hw : logEntryTy.dict.wire = .sized := rfl
  rw [hw, C20_truncated_prefix_fails_partial logEntryTy rfl m _ n short hs hne hn]

/-- The tail of a log that is cut inside a payload. -/
theorem replayStep_cut {α : Type} (d : Dict α) (m : Mode) (v : α) {n : Nat} {q : Bytes} (hq : q.length ≤ n)
    (hn : n < 2 ^ 64) : replayStep d m v (leb n ++ q) = replayStep d m v (framed 2 q) := by
  unfold replayStep Dict.deserializeNested
  have h := C20_truncated_reads_shorter_payload logEntryTy logEntryTy_wf rfl m logEntryTy.dict.dflt n q hq hn
  have hw : logEntryTy.dict.wire = .sized := rfl
  rw [hw, h]
  simp only [framed, if_neg (show ¬ (2 : Nat) = 0 by decide)]

theorem parseEntry_nil (m : Mode) : parseEntry m [] = .error .unexpectedEof := by cases m <;> rfl

theorem merge_nil : (t : Ty) → t.isState = true → shape t = .plain → ∀ m v, t.dict.merge m v [] = .ok v []
  | .box t, hs, hp, m, v => merge_nil t hs hp m v
  | .list t, _, _, m, v => rfl
  | .map k t, _, _, m, v => rfl
  | .struct true cached fs, _, _, m, v => rfl
  | .enum true _ _ _, _, hp, _, _ => nomatch hp
  | .uint _, _, hp, _, _ => nomatch hp
  | .sint _, _, hp, _, _ => nomatch hp
  | .bool, _, hp, _, _ => nomatch hp

/-! ## C# -/

theorem csReplayLeft_step {ρ : Bytes → Str} {t : Ty} {c c' : t.Cs} {bs rest : Bytes} (h : t.csReplayStep ρ c bs = .ok (c', rest))
    (hne : bs ≠ []) (n : Nat) : t.csReplayLeft ρ (n + 1) c bs = t.csReplayLeft ρ n c' rest := by
  cases bs with
  | nil => exact absurd rfl hne
  | cons b bs =>
    unfold Ty.csReplayStep at h
    simp only [Bind.bind, Except.bind] at h
    simp only [Ty.csReplayLeft]
    cases h1 : csGetNested (b :: bs) with
    | error e => rw [h1] at h; cases h
    | ok x =>
      rw [h1] at h
      simp only at h ⊢
      cases h2 : logEntryTy.csDeserialize ρ x.1 with
      | error e => rw [h2] at h; cases h
      | ok y =>
        rw [h2] at h
        simp only at h ⊢
        cases h3 : t.csReplayEntry ρ c (.ofCs y.1) with
        | error e => rw [h3] at h; cases h
        | ok z =>
          rw [h3] at h
          cases h
          rfl

theorem csReplayLeft_throws {ρ : Bytes → Str} {t : Ty} {c : t.Cs} {bs : Bytes} {e : Exn} (h : csGetNested bs = .error e)
    (hne : bs ≠ []) (n : Nat) : t.csReplayLeft ρ (n + 1) c bs = (c, some e) := by
  cases bs with
  | nil => exact absurd rfl hne
  | cons b bs => simp only [Ty.csReplayLeft, h]

/-- `csReplayLeft` is `csReplay` where that returns. -/
theorem csReplayLeft_ok {ρ : Bytes → Str} {t : Ty} : ∀ (n : Nat) (c c' : t.Cs) (bs : Bytes),
    untilEnd (t.csReplayStep ρ) n c bs = .ok c' → t.csReplayLeft ρ n c bs = (c', none)
  | n, c, c', [], h => by cases n <;> (cases h; rfl)
  | 0, c, c', b :: bs, h => by cases h
  | n + 1, c, c', b :: bs, h => by
    simp only [untilEnd, Bind.bind, Except.bind] at h
    cases h1 : t.csReplayStep ρ c (b :: bs) with
    | error e => rw [h1] at h; cases h
    | ok x =>
      rw [h1] at h
      rw [csReplayLeft_step (c' := x.1) (rest := x.2) h1 (by simp)]
      exact csReplayLeft_ok n x.1 c' x.2 h

theorem csVarintLoop_short (bs : Bytes) (h : ∀ b ∈ bs, 128 ≤ b.toNat) : ∀ v off, csVarintLoop bs v off = .error .endOfStream := by
  induction bs with
  | nil => intro v off; rfl
  | cons b bs ih =>
    intro v off
    have hb : ¬ (b &&& 0x80#8 = 0#8) := by rw [byte_hi]; have := h b (by simp); omega
    simp only [csVarintLoop, hb, if_false]
    exact ih (fun x hx => h x (by simp [hx])) _ _

theorem csGetNested_short {n : Nat} {short : Bytes} (hs : short <+: leb n) (hne : short ≠ leb n) :
    csGetNested short = .error .endOfStream := by
  unfold csGetNested csReadSize csReadUInt32 csReadUInt csReadUnsigned
  rw [csVarintLoop_short short (short_hi hs hne).1]
  rfl

theorem csGetNested_cut {n : Nat} {q : Bytes} (hq : q.length < n) (hn : n < 2 ^ 31) :
    csGetNested (leb n ++ q) = .error .endOfStream := by
  unfold csGetNested csReadSize
  rw [csReadUInt32_leb _ _ (by omega)]
  have hi : (BitVec.ofNat 32 n).toInt = n := by
    rcases toInt_cases (BitVec.ofNat 32 n) with ⟨_, _, hi⟩ | ⟨_, h2, _⟩
    · rw [hi, BitVec.toNat_ofNat, Nat.mod_eq_of_lt (by omega)]
    · rw [BitVec.toNat_ofNat, Nat.mod_eq_of_lt (by omega)] at h2; omega
  simp only [Bind.bind, Except.bind, hi]
  unfold csTake
  rw [if_pos (by omega)]

/-- Whole entries, then some tail. -/
theorem csLeft_steps (ρ : Bytes → Str) (t : Ty) (ht : t.WF) (hm : Mirrored t) (tail : Bytes) {es : List Entry} :
    ∀ {v v' : t.El} {c : t.Cs}, Steps (Means t) v es v' → Shows t v c → (∀ e ∈ es, CsFits e) →
      ∃ c', Shows t v' c' ∧ Eats (t.csReplayStep ρ) c (es.flatMap entryBytes) c' ∧
        ∀ n, (es.flatMap entryBytes ++ tail).length ≤ n →
          ∃ n', tail.length ≤ n' ∧ t.csReplayLeft ρ n c (es.flatMap entryBytes ++ tail) = t.csReplayLeft ρ n' c' tail := by
  induction es with
  | nil => intro v v' c h hs _; cases h; exact ⟨c, hs, .refl c, fun n hn => ⟨n, by simpa using hn, by simp⟩⟩
  | cons e es ih =>
    intro v v' c h hs hf
    obtain ⟨u, h1, h2⟩ := h
    have hfe := hf e List.mem_cons_self
    obtain ⟨c1, h3, h4⟩ := csFollows ρ t ht hm h1 hs (by unfold CsFits at hfe; omega)
    obtain ⟨c', h5, h6, h7⟩ := ih h2 h4 (fun e he => hf e (List.mem_cons_of_mem _ he))
    have hstep := csReplayStep_entry ρ t c c1 e hfe h3
    refine ⟨c', h5, (Eats.one (entryBytes_ne e) hstep).trans h6, fun n hn => ?_⟩
    · have hne := entryBytes_ne e
      have hpos : 0 < (entryBytes e).length := List.length_pos_iff.2 hne
      rw [List.flatMap_cons, List.append_assoc] at hn ⊢
      cases n with
      | zero => simp only [List.length_append] at hn; omega
      | succ n =>
        rw [csReplayLeft_step (hstep _) (by simp [hne])]
        exact h7 n (by simp only [List.length_append] at hn ⊢; omega)

end Steit
