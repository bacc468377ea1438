import Verif.Model.Replay
import Verif.Spec.Log
import Verif.Props.RoundTrip

/-! # Log entries on the wire -/

namespace Steit
open Spec Prog

theorem logEntryTy_wf : logEntryTy.WF := by
  simp only [logEntryTy, Ty.WF, Fields.WF, Variants.WF, Fields.tags, Variants.tags]
  decide

theorem Entry.ofEl_toEl (e : Entry) : Entry.ofEl e.toEl = e := by cases e <;> rfl

theorem Entry.toEl_ofEl (v : logEntryTy.El) : strip logEntryTy (Entry.ofEl v).toEl = strip logEntryTy v := by
  rcases v with ⟨rt, ⟨p, b, ⟨⟩⟩ | ⟨p, b, ⟨⟩⟩ | ⟨p, ⟨⟩⟩ | ⟨p, k, ⟨⟩⟩ | x⟩ <;> first | rfl | exact nomatch x

theorem map_id_fun {α : Type} (l : List α) : l.map (fun x => x) = l := by simp

theorem strip_toEl (e : Entry) : strip logEntryTy e.toEl = e.toEl := by
  cases e with
  | update p b => exact congrArg (fun q => (⟨Rt.dflt, .inl (q, b, ())⟩ : logEntryTy.El)) (map_id_fun p)
  | listPush p b => exact congrArg (fun q => (⟨Rt.dflt, .inr (.inl (q, b, ()))⟩ : logEntryTy.El)) (map_id_fun p)
  | listPop p => exact congrArg (fun q => (⟨Rt.dflt, .inr (.inr (.inl (q, ())))⟩ : logEntryTy.El)) (map_id_fun p)
  | mapRemove p k =>
    exact congrArg (fun q => (⟨Rt.dflt, .inr (.inr (.inr (.inl (q, k, ()))))⟩ : logEntryTy.El)) (map_id_fun p)

theorem ofEl_strip (v : logEntryTy.El) : Entry.ofEl (strip logEntryTy v) = Entry.ofEl v := by
  have := Entry.toEl_ofEl v
  rw [← this, strip_toEl, Entry.ofEl_toEl]

theorem ofEl_of_same {v : logEntryTy.El} {e : Entry} (h : strip logEntryTy v = strip logEntryTy e.toEl) :
    Entry.ofEl v = e := by
  rw [← ofEl_strip, h, ofEl_strip, Entry.ofEl_toEl]

theorem carried_toEl (e : Entry) : Carried logEntryTy e.toEl := by
  cases e <;>
    simp only [logEntryTy, Entry.toEl, Carried, CarriedFields, CarriedVariant, implies_true, and_self]

theorem encode_path_le (p : List U32) : (encode (.vec (.uint .w32)) p).length ≤ 5 * p.length := by
  show (p.flatMap (fun x => framed 0 (leb x.toNat))).length ≤ _
  induction p with
  | nil => simp
  | cons x p ih =>
    simp only [List.flatMap_cons, List.length_append, List.length_cons, framed, if_true]
    have := leb_length_le 4 x.toNat (by have := x.isLt; omega)
    simp only [framed, if_true] at ih
    omega

theorem wireOf_le (t : Ty) : wireOf t ≤ 2 := by
  induction t using wireOf.induct <;> simp_all [wireOf]

theorem field_length_le (t : Ty) (v : t.El) (tag : Nat) (htag : tag < 2 ^ 29) (hl : (encode t v).length < 2 ^ 32) :
    (if leftOut t v (encode t v) = true then ([] : Bytes)
      else leb (tag * 8 + wireOf t) ++ framed (wireOf t) (encode t v)).length ≤ (encode t v).length + 10 := by
  split
  · simp
  · have h1 := leb_length_le 4 (encode t v).length (by omega)
    have h2 := leb_length_le 4 (tag * 8 + wireOf t) (by
      have := wireOf_le t
      omega)
    simp only [List.length_append, framed]
    split
    · omega
    · simp only [List.length_append]; omega

/-- The bytes of an entry. -/
theorem entry_bytes_eq (m : Mode) (μ : Mem) (e : Entry) (h : (encode logEntryTy e.toEl).length + 10 < 2 ^ 32) :
    e.bytes m μ = .ok (framed 2 (encode logEntryTy e.toEl)) := by
  have L := serLaw logEntryTy logEntryTy_wf
  have hc := carried_toEl e
  have hw := carried_writable logEntryTy _ hc
  have h5 := leb_length_le 4 (encode logEntryTy e.toEl).length (by omega)
  have hn : nestedSpec (wireOf logEntryTy) none false (leftOut logEntryTy e.toEl (encode logEntryTy e.toEl))
      (encode logEntryTy e.toEl) = framed 2 (encode logEntryTy e.toEl) := rfl
  have hf : (framed 2 (encode logEntryTy e.toEl)).length < 2 ^ 32 := by
    simp only [framed, if_neg (show ¬ (2 : Nat) = 0 by decide), List.length_append]; omega
  have ha : Agrees (cellsOf logEntryTy e.toEl) [] (cellsOf logEntryTy e.toEl) := fun rel => by simp
  have S : Sound (cellsOf logEntryTy e.toEl) (fun _ => False) (do
      let _ ← logEntryTy.dict.cacheSize m [] e.toEl
      (logEntryTy.dict.serializeNested m [] e.toEl none false).unwrap : Prog Bytes)
      (fun _ bs => bs = framed 2 (encode logEntryTy e.toEl)) := by
    refine Sound.bind (L.cacheSize m [] e.toEl _ _ hw (by omega) ha) ?_
    rintro K n _ ⟨_, hcov⟩
    refine Sound.unwrap ?_
    refine (L.serNested m [] e.toEl _ K none false hw (by simp) (by rw [hn]; exact hf) ha hcov).weaken ?_
    rintro K' bs _ rfl
    exact hn
  obtain ⟨K, a, h1, h2, _⟩ := S.run (μ := μ) (fun _ h => h.elim)
  unfold Entry.bytes
  rw [h2, h1]

theorem encode_entry_le (e : Entry) (h : Fits e) :
    (encode logEntryTy e.toEl).length ≤ 5 * (address e).length + (payload e).length + 40 := by
  have F : ∀ (tag : U32) (t : Ty) (v : t.El), tag.toNat < 2 ^ 29 → (encode t v).length < 2 ^ 32 →
      (if leftOut t v (encode t v) = true then ([] : Bytes)
        else leb (tag.toNat * 8 + wireOf t) ++ framed (wireOf t) (encode t v)).length ≤ (encode t v).length + 10 :=
    fun tag t v h1 h2 => field_length_le t v tag.toNat h1 h2
  unfold Fits at h
  cases e with
  | update p b =>
    simp only [address, payload] at h ⊢
    have hp := encode_path_le p
    have h1 := F 0#32 (.vec (.uint .w32)) p (by decide) (by omega)
    have h2 := F 1#32 .bytes b (by decide) (show b.length < _ by omega)
    have h2' : (encode .bytes b).length = b.length := rfl
    have h3 := leb_length_le 0 0 (by decide)
    show (leb 0 ++ (_ ++ (_ ++ []))).length ≤ _
    simp only [List.length_append, List.length_nil]
    refine Nat.le_trans (Nat.add_le_add h3 (Nat.add_le_add h1 (Nat.add_le_add h2 (Nat.le_refl _)))) ?_
    omega
  | listPush p b =>
    simp only [address, payload] at h ⊢
    have hp := encode_path_le p
    have h1 := F 0#32 (.vec (.uint .w32)) p (by decide) (by omega)
    have h2 := F 1#32 .bytes b (by decide) (show b.length < _ by omega)
    have h2' : (encode .bytes b).length = b.length := rfl
    have h3 := leb_length_le 0 8 (by decide)
    show (leb 8 ++ (_ ++ (_ ++ []))).length ≤ _
    simp only [List.length_append, List.length_nil]
    refine Nat.le_trans (Nat.add_le_add h3 (Nat.add_le_add h1 (Nat.add_le_add h2 (Nat.le_refl _)))) ?_
    omega
  | listPop p =>
    simp only [address, payload] at h ⊢
    have hp := encode_path_le p
    have h1 := F 0#32 (.vec (.uint .w32)) p (by decide) (by omega)
    have h3 := leb_length_le 0 9 (by decide)
    show (leb 9 ++ (_ ++ [])).length ≤ _
    simp only [List.length_append, List.length_nil]
    refine Nat.le_trans (Nat.add_le_add h3 (Nat.add_le_add h1 (Nat.le_refl _))) ?_
    omega
  | mapRemove p k =>
    simp only [address, payload] at h ⊢
    have hp := encode_path_le p
    have h1 := F 0#32 (.vec (.uint .w32)) p (by decide) (by omega)
    have h2' : (encode (.uint .w32) k).length ≤ 5 := leb_length_le 4 k.toNat (by have := k.isLt; omega)
    have h2 := F 1#32 (.uint .w32) k (by decide) (by omega)
    have h3 := leb_length_le 0 12 (by decide)
    show (leb 12 ++ (_ ++ (_ ++ []))).length ≤ _
    simp only [List.length_append, List.length_nil]
    refine Nat.le_trans (Nat.add_le_add h3 (Nat.add_le_add h1 (Nat.add_le_add h2 (Nat.le_refl _)))) ?_
    omega

theorem entry_small {e : Entry} (h : Fits e) : (encode logEntryTy e.toEl).length + 10 < 2 ^ 32 := by
  have := encode_entry_le e h
  unfold Fits at h
  omega

/-- The bytes of an entry within the size limit. -/
def entryBytes (e : Entry) : Bytes := framed 2 (encode logEntryTy e.toEl)

theorem entryBytes_ne (e : Entry) : entryBytes e ≠ [] := framed_ne_nil (fun h => by cases h)

theorem bytesFrom_eq (m : Mode) (μ : Nat → Mem) : ∀ (es : List Entry) (i : Nat), (∀ e ∈ es, Fits e) →
    BufferLogger.bytesFrom m μ i es = .ok (es.flatMap entryBytes)
  | [], _, _ => rfl
  | e :: es, i, h => by
    simp only [BufferLogger.bytesFrom, entry_bytes_eq m _ e (entry_small (h e (by simp))),
      bytesFrom_eq m μ es (i + 1) (fun x hx => h x (by simp [hx]))]
    rfl

theorem bytes_eq (m : Mode) (μ : Nat → Mem) (b : BufferLogger) (h : ∀ e ∈ b.entries, Fits e) :
    b.bytes m μ = .ok (b.entries.flatMap entryBytes) := bytesFrom_eq m μ b.entries 0 h

/-- Reading an entry. -/
theorem read_entry (m : Mode) (e : Entry) (rest : Bytes) (h : Fits e) :
    ∃ v, logEntryTy.dict.deserializeNested m logEntryTy.dict.wire (entryBytes e ++ rest) = .ok (v, rest) ∧
      Entry.ofEl v = e := by
  have hs := entry_small h
  have h5 := leb_length_le 4 (encode logEntryTy e.toEl).length (by omega)
  have hf : (framed 2 (encode logEntryTy e.toEl)).length < 2 ^ 32 := by
    simp only [framed, if_neg (show ¬ (2 : Nat) = 0 by decide), List.length_append]; omega
  obtain ⟨v, h1, h2⟩ := (decLaw logEntryTy logEntryTy_wf).deserNested m e.toEl rest (carried_toEl e) hf
  exact ⟨v, h1, ofEl_of_same h2⟩

/-- Apply entries one after the other, stopping at the first failure. -/
def applyAll {α : Type} (d : Dict α) (m : Mode) : α → List Entry → Except (α × Err) α
  | v, [] => .ok v
  | v, e :: es =>
    match applyEntry d m v e with
    | .ok v' _ => applyAll d m v' es
    | .err v' err => .error (v', err)

theorem applyAll_append {α : Type} (d : Dict α) (m : Mode) (v : α) (es es' : List Entry) :
    applyAll d m v (es ++ es') = (match applyAll d m v es with
      | .ok v' => applyAll d m v' es'
      | .error x => .error x) := by
  induction es generalizing v with
  | nil => rfl
  | cons e es ih =>
    simp only [List.cons_append, applyAll]
    cases applyEntry d m v e with
    | ok v' r => exact ih v'
    | err v' err => rfl

/-- The outcome of a replay as a result of a reader. -/
def outcome {α : Type} : Except (α × Err) α → Res α
  | .ok v => .ok v []
  | .error (v, e) => .err v e

theorem replayLoop_eq {α : Type} (d : Dict α) (m : Mode) : ∀ (es : List Entry) (v : α) (fuel : Nat),
    (∀ e ∈ es, Fits e) → (es.flatMap entryBytes).length ≤ fuel →
    untilEof (replayStep d m) fuel v (es.flatMap entryBytes) = outcome (applyAll d m v es)
  | [], v, fuel, _, _ => untilEof_nil _ _ _
  | e :: es, v, fuel, h, hf => by
    obtain ⟨x, h1, h2⟩ := read_entry m e (es.flatMap entryBytes) (h e (by simp))
    simp only [List.flatMap_cons] at hf ⊢
    have hne := entryBytes_ne e
    have hp : 0 < (entryBytes e).length := List.length_pos_iff.2 hne
    have hstep : replayStep d m v (entryBytes e ++ es.flatMap entryBytes) =
        match applyEntry d m v e with
        | .ok v' _ => .ok v' (es.flatMap entryBytes)
        | .err v' e => .err v' e := by
      unfold replayStep
      rw [h1]
      simp only [h2]
      cases applyEntry d m v e <;> rfl
    simp only [applyAll]
    cases ha : applyEntry d m v e with
    | ok v' r =>
      rw [ha] at hstep
      obtain ⟨fuel', hf', he⟩ := untilEof_step (replayStep d m) fuel v v' _ _ (by simp [hne]) hstep
        (by simp only [List.length_append]; omega) hf
      rw [he]
      exact replayLoop_eq d m es v' fuel' (fun x hx => h x (by simp [hx])) hf'
    | err v' err =>
      rw [ha] at hstep
      cases hb : entryBytes e ++ es.flatMap entryBytes with
      | nil => exact absurd (List.append_eq_nil_iff.1 hb).1 hne
      | cons b bs =>
        rw [hb] at hf hstep
        cases fuel with
        | zero => simp at hf
        | succ fuel =>
          simp only [untilEof, hstep]
          rfl

/-- Replaying the bytes of a log is applying its entries. -/
theorem replay_eq {α : Type} (d : Dict α) (m : Mode) (v : α) (es : List Entry) (h : ∀ e ∈ es, Fits e)
    (hr : d.isRoot v = .ok true) : replay d m v (es.flatMap entryBytes) = outcome (applyAll d m v es) := by
  unfold replay
  rw [hr]
  exact replayLoop_eq d m es v _ h (Nat.le_refl _)

end Steit
