import Verif.Spec.GenFiles

/-! # Lemmas on files -/

namespace Steit.Gen

open Spec

variable {ω : Type} {D : Disk ω}

theorem pathOf_inj {a b : String} (h : pathOf a = pathOf b) : a = b := by
  unfold pathOf at h
  have h := congrArg String.toList h
  simp only [String.toList_append, List.append_cancel_right_eq] at h
  exact String.toList_inj.1 h

theorem set_same (fs : Files) (p : String) (bs : Bytes) : fs.set p bs p = some bs := by simp [Files.set]

theorem set_other (fs : Files) {p q : String} (bs : Bytes) (h : q ≠ p) : fs.set p bs q = fs q := by simp [Files.set, h]

theorem set_set (fs : Files) (p : String) (bs cs : Bytes) : (fs.set p bs).set p cs = fs.set p cs := by
  funext q
  simp only [Files.set]
  split <;> rfl

theorem set_self {fs : Files} {p : String} {bs : Bytes} (h : fs p = some bs) : fs.set p bs = fs := by
  funext q
  simp only [Files.set]
  split
  · rename_i e; rw [e, h]
  · rfl

/-- One write to a file. -/
theorem file_write (path : String) (bs : Bytes) (s : Store ω) {c : Bytes} (hc : s.files path = some c) :
    ∃ s' k, ((D.file path).write bs s = (.ok k, s') ∨ ((D.file path).write bs s = (.error (), s') ∧ k = 0)) ∧ k ≤ bs.length ∧
      s'.files = s.files.set path (c ++ bs.take k) ∧ (Working D → bs ≠ [] → 0 < k) := by
  simp only [Disk.file]
  cases h : D.write path bs s.files s.world with
  | mk r w =>
    cases r with
    | none =>
      refine ⟨⟨s.files, w⟩, 0, .inr ⟨rfl, rfl⟩, Nat.zero_le _, by simp [set_self hc], fun hw hb => ?_⟩
      obtain ⟨n, _, hn⟩ := hw.write path bs s.files s.world hb
      rw [h] at hn
      cases hn
    | some n =>
      refine ⟨_, min n bs.length, .inl rfl, Nat.min_le_right _ _, by rw [hc]; rfl, fun hw hb => ?_⟩
      obtain ⟨n', h0, hn⟩ := hw.write path bs s.files s.world hb
      rw [h] at hn
      cases hn
      have : 0 < bs.length := List.length_pos_iff.2 hb
      omega

/-- `write_all` to a file. -/
theorem file_writeAll (path : String) (fuel : Nat) (bs : Bytes) (hf : bs.length ≤ fuel) (s : Store ω) {c : Bytes}
    (hc : s.files path = some c) :
    ∃ r s' k, (D.file path).writeAll fuel bs s = (r, s') ∧ k ≤ bs.length ∧ s'.files = s.files.set path (c ++ bs.take k) ∧
      (r = .ok () → k = bs.length) ∧ (Working D → r = .ok ()) := by
  induction fuel generalizing bs s c with
  | zero =>
    cases bs with
    | nil => exact ⟨.ok (), s, 0, rfl, Nat.le_refl _, by simp [set_self hc], fun _ => rfl, fun _ => rfl⟩
    | cons b bs => simp at hf
  | succ fuel ih =>
    cases bs with
    | nil => exact ⟨.ok (), s, 0, rfl, Nat.le_refl _, by simp [set_self hc], fun _ => rfl, fun _ => rfl⟩
    | cons b bs =>
      obtain ⟨s', k, hw, hk, hs, hpos⟩ := file_write (D := D) path (b :: bs) s hc
      unfold Sink.writeAll
      rcases hw with hw | ⟨hw, rfl⟩
      · rw [hw]
        by_cases h0 : k = 0
        · subst h0
          simp only [if_true]
          exact ⟨_, s', 0, rfl, Nat.zero_le _, hs, by rintro ⟨⟩, fun h => absurd (hpos h (by simp)) (by simp)⟩
        · simp only [h0, if_false]
          have hk' : k ≤ bs.length + 1 := hk
          simp only [hk', if_true]
          have hc' : s'.files path = some (c ++ (b :: bs).take k) := by rw [hs, set_same]
          obtain ⟨r, s'', j, hr, hj, hs', hok, hwk⟩ := ih ((b :: bs).drop k) (by simp at hf ⊢; omega) s' hc'
          refine ⟨r, s'', k + j, hr, ?_, ?_, fun h => ?_, hwk⟩
          · simp at hj ⊢; omega
          · rw [hs', hs, set_set, List.append_assoc, List.take_add]
          · have := hok h; simp at this ⊢; omega
      · rw [hw]
        exact ⟨_, s', 0, rfl, Nat.zero_le _, hs, by rintro ⟨⟩, fun h => absurd (hpos h (by simp)) (by simp)⟩

/-- Nothing to flush. -/
theorem flush_nil {σ : Type} (S : Sink σ) (s : σ) : flushBuf S ⟨[], s⟩ = (.ok (), ⟨[], s⟩) := by
  simp [flushBuf, Sink.writeAll]

/-- `write_all` through an empty buffer, before the buffer is dropped: the beginning is in the file, the rest in the buffer. -/
theorem bufWriteAll_old (capacity : Nat) (path : String) (fuel : Nat) (bs : Bytes) (hf : bs.length ≤ fuel) (s : Store ω) {c : Bytes}
    (hc : s.files path = some c) :
    ∃ r s' k buf, (bufWrite (D.file path) capacity).writeAll fuel bs ⟨[], s⟩ = (r, ⟨buf, s'⟩) ∧ k ≤ bs.length ∧
      s'.files = s.files.set path (c ++ bs.take k) ∧ (r = .ok () → buf = bs.drop k ∧ (buf = [] ∨ buf.length < capacity)) ∧
      (r ≠ .ok () → buf = []) ∧ (Working D → r = .ok ()) := by
  induction fuel generalizing bs s c with
  | zero =>
    cases bs with
    | nil => exact ⟨.ok (), s, 0, [], rfl, Nat.le_refl _, by simp [set_self hc], fun _ => ⟨rfl, .inl rfl⟩, fun _ => rfl, fun _ => rfl⟩
    | cons b bs => simp at hf
  | succ fuel ih =>
    cases bs with
    | nil => exact ⟨.ok (), s, 0, [], rfl, Nat.le_refl _, by simp [set_self hc], fun _ => ⟨rfl, .inl rfl⟩, fun _ => rfl, fun _ => rfl⟩
    | cons b bs =>
      unfold Sink.writeAll
      have hfl : (if ([] : Bytes).length + (b :: bs).length > capacity then flushBuf (D.file path) ⟨[], s⟩ else (.ok (), ⟨[], s⟩)) =
          (Except.ok (), (⟨[], s⟩ : Buffered (Store ω))) := by
        rw [flush_nil]; split <;> rfl
      by_cases hcap : (b :: bs).length ≥ capacity
      · obtain ⟨s', k, hw, hk, hs, hpos⟩ := file_write (D := D) path (b :: bs) s hc
        rcases hw with hw | ⟨hw, rfl⟩
        · have hbw : (bufWrite (D.file path) capacity).write (b :: bs) ⟨[], s⟩ = (.ok k, ⟨[], s'⟩) := by
            simp only [bufWrite, hfl, hcap, if_true, hw]
          rw [hbw]
          by_cases h0 : k = 0
          · subst h0
            simp only [if_true]
            exact ⟨_, s', 0, [], rfl, Nat.zero_le _, hs, by rintro ⟨⟩, fun _ => rfl, fun h => absurd (hpos h (by simp)) (by simp)⟩
          · simp only [h0, if_false]
            have hk' : k ≤ bs.length + 1 := hk
            simp only [hk', if_true]
            have hc' : s'.files path = some (c ++ (b :: bs).take k) := by rw [hs, set_same]
            obtain ⟨r, s'', j, buf, hr, hj, hs', hok, herr, hwk⟩ := ih ((b :: bs).drop k) (by simp at hf ⊢; omega) s' hc'
            refine ⟨r, s'', k + j, buf, hr, ?_, ?_, fun h => ?_, herr, hwk⟩
            · simp at hj ⊢; omega
            · rw [hs', hs, set_set, List.append_assoc, List.take_add]
            · obtain ⟨h1, h2⟩ := hok h
              exact ⟨by rw [h1, List.drop_drop], h2⟩
        · have hbw : (bufWrite (D.file path) capacity).write (b :: bs) ⟨[], s⟩ = (.error (), ⟨[], s'⟩) := by
            simp only [bufWrite, hfl, hcap, if_true, hw]
          rw [hbw]
          exact ⟨_, s', 0, [], rfl, Nat.zero_le _, hs, by rintro ⟨⟩, fun _ => rfl, fun h => absurd (hpos h (by simp)) (by simp)⟩
      · have hbw : (bufWrite (D.file path) capacity).write (b :: bs) ⟨[], s⟩ = (.ok (bs.length + 1), ⟨b :: bs, s⟩) := by
          simp only [bufWrite, hfl, hcap, if_false, List.nil_append]; rfl
        rw [hbw]
        simp only [Nat.add_one_ne_zero, if_false, Nat.le_refl, if_true]
        have hd : (b :: bs).drop (bs.length + 1) = [] := by simp
        rw [hd]
        refine ⟨.ok (), s, 0, b :: bs, ?_, Nat.zero_le _, by simp [set_self hc], fun _ => ⟨rfl, .inr (by omega)⟩, fun h => absurd rfl h,
          fun _ => rfl⟩
        unfold Sink.writeAll; rfl

/-- The same for both versions of the standard library. -/
theorem bufWriteAll_fresh (whole : Bool) (capacity : Nat) (path : String) (bs : Bytes) (s : Store ω) {c : Bytes}
    (hc : s.files path = some c) :
    ∃ r s' k buf, bufWriteAll whole capacity (D.file path) bs ⟨[], s⟩ = (r, ⟨buf, s'⟩) ∧ k ≤ bs.length ∧
      s'.files = s.files.set path (c ++ bs.take k) ∧ (r = .ok () → buf = bs.drop k ∧ (buf = [] ∨ buf.length < capacity) ∧
        (whole = true → buf = [] ∨ bs.length < capacity)) ∧
      (r ≠ .ok () → buf = []) ∧ (Working D → r = .ok ()) := by
  cases whole with
  | false =>
    obtain ⟨r, s', k, buf, h1, h2, h3, h4, h5, h6⟩ := bufWriteAll_old (D := D) capacity path bs.length bs (Nat.le_refl _) s hc
    exact ⟨r, s', k, buf, by simp [bufWriteAll, h1], h2, h3, fun h => ⟨(h4 h).1, (h4 h).2, by rintro ⟨⟩⟩, h5, h6⟩
  | true =>
    have hfl : (if ([] : Bytes).length + bs.length > capacity then flushBuf (D.file path) ⟨[], s⟩ else (.ok (), ⟨[], s⟩)) =
        (Except.ok (), (⟨[], s⟩ : Buffered (Store ω))) := by
      rw [flush_nil]; split <;> rfl
    simp only [bufWriteAll, if_true, hfl]
    by_cases hcap : bs.length ≥ capacity
    · simp only [hcap, if_true]
      obtain ⟨r, s', k, h1, h2, h3, h4, h5⟩ := file_writeAll (D := D) path bs.length bs (Nat.le_refl _) s hc
      exact ⟨r, s', k, [], by rw [h1], h2, h3, fun h => ⟨by rw [h4 h]; simp, .inl rfl, fun _ => .inl rfl⟩, fun _ => rfl, h5⟩
    · simp only [hcap, if_false]
      exact ⟨.ok (), s, 0, bs, by simp, Nat.zero_le _, by simp [set_self hc], fun _ => ⟨rfl, .inr (by omega), fun _ => .inr (by omega)⟩,
        fun h => absurd rfl h, fun _ => rfl⟩

/-- `File::create` and the writing of a source. -/
theorem writeSource_fresh (whole : Bool) (capacity : Nat) (path : String) (bs : Bytes) (s : Store ω) (hc : s.files path = some []) :
    ∃ ok s' kept lost, writeSource D whole capacity path bs s = (ok, s') ∧ bs = kept ++ lost ∧ s'.files = s.files.set path kept ∧
      (ok = true → (lost = [] ∨ lost.length < capacity) ∧ (whole = true → lost = [] ∨ bs.length < capacity)) ∧
      (Working D → ok = true ∧ lost = []) := by
  obtain ⟨r, s', k, buf, h1, h2, h3, h4, h5, h6⟩ := bufWriteAll_fresh (D := D) whole capacity path bs s hc
  simp only [List.nil_append] at h3
  have hc' : s'.files path = some (bs.take k) := by rw [h3, set_same]
  obtain ⟨r', s'', j, g1, g2, g3, g4, g5⟩ := file_writeAll (D := D) path buf.length buf (Nat.le_refl _) s' hc'
  have hd : dropBuf (D.file path) ⟨buf, s'⟩ = s'' := by simp [dropBuf, flushBuf, g1]
  unfold writeSource
  rw [h1]
  cases r with
  | ok u =>
    obtain ⟨hb, hsz, hwh⟩ := h4 rfl
    refine ⟨true, s'', bs.take (k + j), bs.drop (k + j), by simp only [hd], (List.take_append_drop _ _).symm, ?_, fun _ => ?_, fun hw => ⟨rfl, ?_⟩⟩
    · rw [g3, h3, set_set, hb, List.take_add]
    · have hle : (bs.drop (k + j)).length ≤ buf.length := by rw [hb]; simp; omega
      have hnil : ∀ {xs ys : Bytes}, xs.length ≤ ys.length → ys = [] → xs = [] := by
        rintro xs ys h rfl
        exact List.length_eq_zero_iff.1 (by simpa using h)
      exact ⟨hsz.elim (fun h => .inl (hnil hle h)) fun h => .inr (by omega), fun h => (hwh h).elim (fun h => .inl (hnil hle h)) .inr⟩
    · have := g4 (g5 hw)
      rw [this, hb]
      simp; omega
  | error e =>
    have hb := h5 (by rintro ⟨⟩)
    subst hb
    refine ⟨false, s'', bs.take k, bs.drop k, by simp only [hd], (List.take_append_drop _ _).symm, ?_, (by rintro ⟨⟩), fun hw => ?_⟩
    · rw [g3, h3, set_set]; simp
    · have := h6 hw; cases this

/-- A file is created and written, or not. -/
theorem createFile_eq (path : String) (s : Store ω) :
    (∃ s', D.createFile path s = (true, s') ∧ s'.files = s.files.set path []) ∨
    (∃ s', D.createFile path s = (false, s') ∧ s'.files = s.files ∧ ¬ Working D) := by
  unfold Disk.createFile
  cases h : D.create path s.files s.world with
  | mk r w =>
    cases r with
    | true => exact .inl ⟨_, rfl, rfl⟩
    | false => exact .inr ⟨_, rfl, rfl, fun hw => by have := hw.create path s.files s.world; rw [h] at this; cases this⟩

variable {setting : GenSetting} {src : MessageMeta → Option Text}

/-- Whether a message is skipped, as `generate` asks. -/
theorem generate_skip {name : String} {m : MessageMeta} (h : ¬ Wanted setting.skipBuiltins setting.skipNames name m)
    (es : List (String × MessageMeta)) (names : List String) (s : Store ω) :
    generate D setting src ((name, m) :: es) names s = generate D setting src es names s := by
  rw [generate]
  by_cases h1 : (m.isBuiltin && setting.skipBuiltins) = true
  · simp only [h1, if_true]
  · by_cases h2 : name ∈ setting.skipNames
    · simp only [h1, if_false, h2, if_true, Bool.false_eq_true]
    · refine absurd ⟨h2, fun hb => ?_⟩ h
      cases hm : m.isBuiltin with
      | false => rfl
      | true => exact absurd (by rw [hm, hb]; rfl) h1

/-- One message that is not skipped. -/
theorem generate_step {name : String} {m : MessageMeta} (h : Wanted setting.skipBuiltins setting.skipNames name m)
    (es : List (String × MessageMeta)) (names : List String) (s : Store ω) :
    (generate D setting src ((name, m) :: es) names s = (.panicked, s) ∧ src m = none) ∨
    (∃ text s', src m = some text ∧ generate D setting src ((name, m) :: es) names s = (.failed, s') ∧ ¬ Working D ∧
      (s'.files = s.files ∨ ∃ kept lost, utf8 text = kept ++ lost ∧ s'.files = s.files.set (pathOf name) kept)) ∨
    (∃ text s' kept lost, src m = some text ∧
      generate D setting src ((name, m) :: es) names s = generate D setting src es (names ++ [name]) s' ∧
      utf8 text = kept ++ lost ∧ s'.files = s.files.set (pathOf name) kept ∧ (lost = [] ∨ lost.length < setting.capacity) ∧
      (setting.whole = true → lost = [] ∨ (utf8 text).length < setting.capacity) ∧ (Working D → lost = [])) := by
  have h1 : ¬ (m.isBuiltin && setting.skipBuiltins) = true := by
    intro hb
    obtain ⟨hb, hs⟩ := Bool.and_eq_true_iff.1 hb
    rw [h.2 hs] at hb
    cases hb
  have h2 : name ∉ setting.skipNames := h.1
  rw [generate]
  simp only [h1, if_false, h2, Bool.false_eq_true]
  cases hm : src m with
  | none => exact .inl ⟨rfl, rfl⟩
  | some text =>
    refine .inr ?_
    simp only
    rcases createFile_eq (D := D) (pathOf name) s with ⟨s1, hc, hf⟩ | ⟨s1, hc, hf, hw⟩
    · obtain ⟨ok, s2, kept, lost, hws, hu, hf2, hok, hwk⟩ :=
        writeSource_fresh (D := D) setting.whole setting.capacity (pathOf name) (utf8 text) s1 (by rw [hf, set_same])
      rw [hf, set_set] at hf2
      rw [hc]
      simp only [hws]
      cases ok with
      | true => exact .inr ⟨text, s2, kept, lost, rfl, rfl, hu, hf2, (hok rfl).1, (hok rfl).2, fun h => (hwk h).2⟩
      | false => exact .inl ⟨text, s2, rfl, rfl, (fun h => Bool.noConfusion (hwk h).1), .inr ⟨kept, lost, hu, hf2⟩⟩
    · rw [hc]
      exact .inl ⟨text, s1, rfl, rfl, hw, .inl hf⟩

/-- A path that belongs to none of the messages. -/
def Spec.Apart (es : List (String × MessageMeta)) (path : String) : Prop := ∀ e ∈ es, path ≠ pathOf e.1

theorem apart_of_nodup {name : String} {m : MessageMeta} {es : List (String × MessageMeta)}
    (hn : (((name, m) :: es).map (·.1)).Nodup) : Apart es (pathOf name) := by
  intro e he h
  have := pathOf_inj h
  simp only [List.map_cons, List.nodup_cons] at hn
  exact hn.1 (List.mem_map.2 ⟨e, he, this.symm⟩)

/-- What `generate` leaves alone, however it ends. -/
theorem generate_apart {es : List (String × MessageMeta)} {names : List String} {s s' : Store ω} {r : GenEnd}
    (h : generate D setting src es names s = (r, s')) {path : String}
    (hp : ∀ name m, (name, m) ∈ es → Wanted setting.skipBuiltins setting.skipNames name m → path ≠ pathOf name) :
    s'.files path = s.files path := by
  induction es generalizing names s with
  | nil => cases h; rfl
  | cons e es ih =>
    obtain ⟨name, m⟩ := e
    have hp' : ∀ name m, (name, m) ∈ es → Wanted setting.skipBuiltins setting.skipNames name m → path ≠ pathOf name :=
      fun n m h => hp n m (.tail _ h)
    by_cases hw : Wanted setting.skipBuiltins setting.skipNames name m
    · have hne := hp name m (.head _) hw
      rcases generate_step (D := D) (src := src) hw es names s with ⟨he, _⟩ | ⟨text, s1, _, he, _, hf⟩ |
        ⟨text, s1, kept, lost, _, he, _, hf, _⟩
      · rw [he] at h; cases h; rfl
      · rw [he] at h; cases h
        rcases hf with hf | ⟨kept, lost, _, hf⟩
        · rw [hf]
        · rw [hf, set_other _ _ hne]
      · rw [he] at h
        rw [ih h hp', hf, set_other _ _ hne]
    · rw [generate_skip hw] at h
      exact ih h hp'

/-- Sublists of a list without repetitions are known by their members. -/
theorem sublist_ext {l a b : List String} (hn : l.Nodup) (ha : a.Sublist l) (hb : b.Sublist l) (h : ∀ x, x ∈ a ↔ x ∈ b) : a = b := by
  induction l generalizing a b with
  | nil => rw [List.sublist_nil.1 ha, List.sublist_nil.1 hb]
  | cons x l ih =>
    obtain ⟨hx, hn⟩ := List.nodup_cons.1 hn
    cases ha with
    | cons _ ha =>
      cases hb with
      | cons _ hb => exact ih hn ha hb h
      | cons_cons _ hb => exact absurd (ha.subset ((h x).2 (.head _))) hx
    | cons_cons _ ha =>
      cases hb with
      | cons _ hb => exact absurd (hb.subset ((h x).1 (.head _))) hx
      | cons_cons _ hb =>
        refine congrArg _ (ih hn ha hb fun y => ?_)
        constructor
        · intro hy
          rcases List.mem_cons.1 ((h y).1 (.tail _ hy)) with rfl | h'
          · exact absurd (ha.subset hy) hx
          · exact h'
        · intro hy
          rcases List.mem_cons.1 ((h y).2 (.tail _ hy)) with rfl | h'
          · exact absurd (hb.subset hy) hx
          · exact h'

end Steit.Gen
