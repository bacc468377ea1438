import Verif.Spec.Source

/-! # Reading from a source is reading the bytes it delivers -/

namespace Steit
open Spec

/-- The source went from one state to another in some calls that returned these bytes. -/
inductive Adv {ρ : Type} (R : Source ρ) : ρ → Bytes → ρ → Prop
  | refl (s : ρ) : Adv R s [] s
  | step {n : Nat} {s s1 s2 : ρ} {got used : Bytes} : R.read n s = .ok (got, s1) → Adv R s1 used s2 → Adv R s (got ++ used) s2

section
variable {ρ : Type} {R : Source ρ} {rem : ρ → Bytes}

theorem Adv.one {n : Nat} {s s' : ρ} {got : Bytes} (h : R.read n s = .ok (got, s')) : Adv R s got s' := by
  have := Adv.step h (.refl s')
  rwa [List.append_nil] at this

theorem Adv.trans {s s1 s2 : ρ} {a b : Bytes} (h1 : Adv R s a s1) (h2 : Adv R s1 b s2) : Adv R s (a ++ b) s2 := by
  induction h1 with
  | refl s => exact h2
  | step hr _ ih => rw [List.append_assoc]; exact .step hr (ih h2)

theorem Adv.left (hR : Delivers R rem) {s s' : ρ} {used : Bytes} (h : Adv R s used s') : rem s = used ++ rem s' := by
  induction h with
  | refl s => rfl
  | @step n s s1 s2 got used hr _ ih =>
    obtain ⟨got', s1', h1, h2, _⟩ := hR n s
    rw [hr] at h1
    cases h1
    rw [h2, ih, List.append_assoc]

theorem delivers_take (hR : Delivers R rem) : Delivers R.take (fun s => (rem s.2).take s.1) := by
  intro n s
  by_cases h0 : s.1 = 0
  · refine ⟨[], s, ?_, rfl, by simp, ?_⟩
    · simp [Source.take, h0]
    · intro _ h
      simp [h0] at h
  · obtain ⟨got, s', h1, h2, h3, h4⟩ := hR (min n s.1) s.2
    refine ⟨got, (s.1 - got.length, s'), ?_, ?_, by omega, ?_⟩
    · simp [Source.take, h0, h1]
    · simp only [h2]
      rw [List.take_append, List.take_of_length_le (by omega)]
    · intro hn hne
      refine h4 (by omega) fun he => hne ?_
      simp [he]

theorem delivers_rdr (hR : Delivers R rem) : Delivers R.rdr (Rdr.left rem) := by
  intro n rd
  by_cases h0 : n = 0
  · exact ⟨[], rd, by simp [Source.rdr, h0], rfl, by simp, fun h => absurd h0 (by omega)⟩
  · rcases rd with ⟨_ | b, s⟩
    · obtain ⟨got, s', h1, h2, h3, h4⟩ := hR n s
      refine ⟨got, ⟨none, s'⟩, by simp [Source.rdr, h0, h1], by simpa [Rdr.left] using h2, h3, ?_⟩
      intro hn hne
      exact h4 hn (by simpa [Rdr.left] using hne)
    · exact ⟨[b], ⟨none, s⟩, by simp [Source.rdr, h0], rfl, by simp; omega, fun _ _ => by simp⟩

theorem adv_take {s s' : Nat × ρ} {used : Bytes} (h : Adv R.take s used s') : Adv R s.2 used s'.2 := by
  induction h with
  | refl s => exact .refl _
  | @step n s s1 s2 got used hr _ ih =>
    by_cases h0 : s.1 = 0
    · simp only [Source.take, h0, if_pos, Except.ok.injEq, Prod.mk.injEq] at hr
      obtain ⟨rfl, rfl⟩ := hr
      exact ih
    · simp only [Source.take, h0, if_false] at hr
      cases hr' : R.read (min n s.1) s.2 with
      | error e => rw [hr'] at hr; cases hr
      | ok r =>
        rw [hr'] at hr
        cases hr
        exact .step hr' ih

/-- A reader went from one state to another, returning these bytes. -/
def RAdv (R : Source ρ) (rd : Rdr ρ) (used : Bytes) (rd' : Rdr ρ) : Prop :=
  ∃ u, Adv R rd.raw u rd'.raw ∧ rd.next.toList ++ u = used ++ rd'.next.toList

theorem RAdv.refl (rd : Rdr ρ) : RAdv R rd [] rd := ⟨[], .refl _, by simp⟩

theorem RAdv.trans {rd rd1 rd2 : Rdr ρ} {a b : Bytes} (h1 : RAdv R rd a rd1) (h2 : RAdv R rd1 b rd2) : RAdv R rd (a ++ b) rd2 := by
  obtain ⟨u, hu, eu⟩ := h1
  obtain ⟨w, hw, ew⟩ := h2
  exact ⟨u ++ w, hu.trans hw, by rw [← List.append_assoc, eu, List.append_assoc, ew, List.append_assoc]⟩

theorem RAdv.left (hR : Delivers R rem) {rd rd' : Rdr ρ} {used : Bytes} (h : RAdv R rd used rd') :
    rd.left rem = used ++ rd'.left rem := by
  obtain ⟨u, hu, eu⟩ := h
  simp only [Rdr.left]
  rw [hu.left hR, ← List.append_assoc, eu, List.append_assoc]

theorem RAdv.one {n : Nat} {rd rd' : Rdr ρ} {got : Bytes} (h : R.rdr.read n rd = .ok (got, rd')) : RAdv R rd got rd' := by
  by_cases h0 : n = 0
  · simp only [Source.rdr, h0, if_pos, Except.ok.injEq, Prod.mk.injEq] at h
    obtain ⟨rfl, rfl⟩ := h
    exact .refl _
  · rcases rd with ⟨_ | b, s⟩
    · simp only [Source.rdr, h0, if_false] at h
      cases hr : R.read n s with
      | error e => rw [hr] at h; cases h
      | ok r =>
        rw [hr] at h
        cases h
        exact ⟨_, .one hr, by simp⟩
    · simp only [Source.rdr, h0, if_false, Except.ok.injEq, Prod.mk.injEq] at h
      obtain ⟨rfl, rfl⟩ := h
      exact ⟨[], .refl _, rfl⟩

theorem radv_of_adv {rd rd' : Rdr ρ} {used : Bytes} (h : Adv R.rdr rd used rd') : RAdv R rd used rd' := by
  induction h with
  | refl s => exact .refl _
  | step hr _ ih => exact (RAdv.one hr).trans ih

theorem next_of_adv {rd rd' : Rdr ρ} {used : Bytes} (h : Adv R.rdr rd used rd') (h0 : rd.next = none) : rd'.next = none := by
  induction h with
  | refl s => exact h0
  | @step n rd s1 s2 got used hr _ ih =>
    refine ih ?_
    by_cases hn : n = 0
    · simp only [Source.rdr, hn, if_pos, Except.ok.injEq, Prod.mk.injEq] at hr
      rw [← hr.2, h0]
    · simp only [Source.rdr, hn, if_false, h0] at hr
      cases hr' : R.read n rd.raw with
      | error e => rw [hr'] at hr; cases hr
      | ok r => rw [hr'] at hr; cases hr; rfl

/-! ## Agreement of a reading function with one on bytes -/

/-- A reading function, called on `rd`, returned `r`; the corresponding function on the bytes left returned `p`. `Q` is what else is
known about the reader afterwards. -/
def Alike {α : Type} (R : Source ρ) (rem : ρ → Bytes) (Q : Rdr ρ → Prop) (rd : Rdr ρ) (r : RRes ρ α) (p : Res α) : Prop :=
  match p with
  | .ok v rest => ∃ rd', r = .ok v rd' ∧ (∃ used, RAdv R rd used rd') ∧ rd'.left rem = rest ∧ Q rd'
  | .err v e => e = .diverge ∨ r = .err v (.lib e)

/-- The same for functions returning a value. -/
def AlikeE {α : Type} (R : Source ρ) (rem : ρ → Bytes) (Q : Rdr ρ → Prop) (rd : Rdr ρ) (r : Except IoErr (α × Rdr ρ))
    (p : Except Err (α × Bytes)) : Prop :=
  match p with
  | .ok (v, rest) => ∃ rd', r = .ok (v, rd') ∧ (∃ used, RAdv R rd used rd') ∧ rd'.left rem = rest ∧ Q rd'
  | .error e => e = .diverge ∨ r = .error (.lib e)

/-- No byte is held in advance. -/
def Bare (rd : Rdr ρ) : Prop := rd.next = none

theorem Alike.mono {α : Type} {Q Q' : Rdr ρ → Prop} {rd : Rdr ρ} {r : RRes ρ α} {p : Res α} (h : Alike R rem Q rd r p)
    (hq : ∀ rd', Q rd' → Q' rd') : Alike R rem Q' rd r p := by
  cases p with
  | err v e => exact h
  | ok v rest =>
    obtain ⟨rd', h1, h2, h3, h4⟩ := h
    exact ⟨rd', h1, h2, h3, hq _ h4⟩

theorem Alike.after {α : Type} {Q : Rdr ρ → Prop} {rd rd1 : Rdr ρ} {r : RRes ρ α} {p : Res α} (h : Alike R rem Q rd1 r p)
    (h1 : ∃ used, RAdv R rd used rd1) : Alike R rem Q rd r p := by
  cases p with
  | err v e => exact h
  | ok v rest =>
    obtain ⟨rd', h2, ⟨u, h3⟩, h4, h5⟩ := h
    obtain ⟨u', h1⟩ := h1
    exact ⟨rd', h2, ⟨_, h1.trans h3⟩, h4, h5⟩

theorem AlikeE.after {α : Type} {Q : Rdr ρ → Prop} {rd rd1 : Rdr ρ} {r : Except IoErr (α × Rdr ρ)} {p : Except Err (α × Bytes)}
    (h : AlikeE R rem Q rd1 r p) (h1 : ∃ used, RAdv R rd used rd1) : AlikeE R rem Q rd r p := by
  cases p with
  | error e => exact h
  | ok x =>
    obtain ⟨rd', h2, ⟨u, h3⟩, h4, h5⟩ := h
    obtain ⟨u', h1⟩ := h1
    exact ⟨rd', h2, ⟨_, h1.trans h3⟩, h4, h5⟩

theorem Alike.map {α β : Type} {Q : Rdr ρ → Prop} {rd : Rdr ρ} {r : RRes ρ α} {p : Res α} (h : Alike R rem Q rd r p) (f : α → β) :
    Alike R rem Q rd (r.map f) (p.map f) := by
  cases p with
  | err v e =>
    rcases h with h | h
    · exact .inl h
    · exact .inr (by rw [h]; rfl)
  | ok v rest =>
    obtain ⟨rd', h1, h2⟩ := h
    exact ⟨rd', by rw [h1]; rfl, h2⟩

theorem rem_le (hR : Delivers R rem) {rd rd' : Rdr ρ} (h : ∃ used, RAdv R rd used rd') :
    (rd'.left rem).length ≤ (rd.left rem).length := by
  obtain ⟨u, h⟩ := h
  rw [h.left hR, List.length_append]
  omega

/-! ## The primitives -/

theorem eof_spec (hR : Delivers R rem) (rd : Rdr ρ) :
    ∃ rd', R.eof rd = .ok ((rd.left rem).isEmpty, rd') ∧ (∃ used, RAdv R rd used rd') ∧ rd'.left rem = rd.left rem ∧
      ((rd.left rem).isEmpty = true → Bare rd') := by
  rcases rd with ⟨_ | b, s⟩
  · obtain ⟨got, s', h1, h2, h3, h4⟩ := hR 1 s
    simp only [Rdr.left, Option.toList_none, List.nil_append]
    rcases got with _ | ⟨b, bs⟩
    · have : rem s = [] := by
        refine Classical.byContradiction fun hne => ?_
        exact h4 (by omega) hne rfl
      refine ⟨⟨none, s'⟩, by simp [Source.eof, h1, this], ⟨[], [], .one h1, rfl⟩, ?_, fun _ => rfl⟩
      simpa using h2.symm
    · obtain rfl : bs = [] := by
        cases bs with
        | nil => rfl
        | cons => simp at h3
      refine ⟨⟨some b, s'⟩, by simp [Source.eof, h1, h2], ⟨[], [b], .one h1, rfl⟩, ?_, fun h => ?_⟩
      · simpa [Rdr.left] using h2.symm
      · rw [h2] at h
        simp at h
  · refine ⟨⟨some b, s⟩, rfl, ⟨[], .refl _⟩, rfl, fun h => ?_⟩
    simp [Rdr.left] at h

theorem readByte_spec (hR : Delivers R rem) (rd : Rdr ρ) :
    match rd.left rem with
    | [] => R.readByte rd = .error (.lib .unexpectedEof)
    | b :: bs => ∃ rd', R.readByte rd = .ok (b, rd') ∧ (∃ used, RAdv R rd used rd') ∧ rd'.left rem = bs ∧ Bare rd' := by
  obtain ⟨got, rd', h1, h2, h3, h4⟩ := delivers_rdr hR 1 rd
  cases hb : rd.left rem with
  | nil =>
    rw [hb] at h2
    obtain ⟨rfl, _⟩ := List.append_eq_nil_iff.1 h2.symm
    simp [Source.readByte, h1]
  | cons b bs =>
    rw [hb] at h2 h4
    rcases got with _ | ⟨b', bs'⟩
    · exact absurd rfl (h4 (by omega) (by simp))
    · obtain rfl : bs' = [] := by
        cases bs' with
        | nil => rfl
        | cons => simp at h3
      simp only [List.cons_append, List.nil_append, List.cons.injEq] at h2
      obtain ⟨rfl, rfl⟩ := h2
      refine ⟨rd', by simp [Source.readByte, h1], ⟨_, .one h1⟩, rfl, ?_⟩
      rcases rd with ⟨_ | x, s⟩
      · simp only [Source.rdr, Nat.one_ne_zero, if_false] at h1
        cases hr : R.read 1 s with
        | error e => rw [hr] at h1; cases h1
        | ok r =>
          rw [hr] at h1
          simp only [Except.ok.injEq, Prod.mk.injEq] at h1
          rw [← h1.2]
          rfl
      · simp only [Source.rdr, Nat.one_ne_zero, if_false, Except.ok.injEq, Prod.mk.injEq] at h1
        rw [← h1.2]
        rfl

theorem readToEnd_spec (hR : Delivers R rem) (env : Env) : ∀ (fuel i : Nat) (s : ρ) (acc : Bytes), (rem s).length ≤ fuel →
    ∃ s', R.readToEnd env fuel i s acc = .ok (acc ++ rem s, s') ∧ Adv R s (rem s) s' ∧ rem s' = [] := by
  intro fuel
  induction fuel with
  | zero =>
    intro i s acc hl
    have h0 : rem s = [] := List.eq_nil_of_length_eq_zero (by omega)
    obtain ⟨got, s', h1, h2, _⟩ := hR (env.buffer i + 1) s
    rw [h0] at h2
    obtain ⟨rfl, h3⟩ := List.append_eq_nil_iff.1 h2.symm
    refine ⟨s', by simp [Source.readToEnd, h1, h0], by rw [h0]; exact .one h1, h3⟩
  | succ fuel ih =>
    intro i s acc hl
    obtain ⟨got, s', h1, h2, _, h4⟩ := hR (env.buffer i + 1) s
    rcases got with _ | ⟨b, bs⟩
    · have h0 : rem s = [] := by
        refine Classical.byContradiction fun hne => ?_
        exact h4 (by omega) hne rfl
      rw [h0] at h2
      refine ⟨s', by simp [Source.readToEnd, h1, h0], by rw [h0]; exact .one h1, by simpa using h2.symm⟩
    · have hl' : (rem s').length ≤ fuel := by
        rw [h2] at hl
        simp only [List.cons_append, List.length_cons, List.length_append] at hl
        omega
      obtain ⟨s2, h5, h6, h7⟩ := ih (i + 1) s' (acc ++ b :: bs) hl'
      refine ⟨s2, ?_, ?_, h7⟩
      · rw [Source.readToEnd, h1]
        simp only [h5]
        rw [h2]
        simp
      · rw [h2]
        exact .step h1 h6

/-- `read_to_end` on a reader. -/
theorem drain_spec (hR : Delivers R rem) (env : Env) (rd : Rdr ρ) (hl : (rd.left rem).length ≤ env.fuel) :
    ∃ rd', R.rdr.readToEnd env env.fuel 0 rd [] = .ok (rd.left rem, rd') ∧ (∃ used, RAdv R rd used rd') ∧ rd'.left rem = [] ∧ Bare rd' := by
  obtain ⟨rd', h1, h2, h3⟩ := readToEnd_spec (delivers_rdr hR) env env.fuel 0 rd [] hl
  refine ⟨rd', by simpa using h1, ⟨_, radv_of_adv h2⟩, h3, ?_⟩
  rcases rd' with ⟨_ | b, s⟩
  · rfl
  · simp [Rdr.left] at h3

theorem getLoop_agrees (hR : Delivers R rem) (m : Mode) {w : Nat} : ∀ (fuel : Nat) (rd : Rdr ρ) (value : BitVec w) (offset : Nat),
    (rd.left rem).length ≤ fuel →
    AlikeE R rem Bare rd (R.getLoop m fuel rd value offset) (getLoop m (rd.left rem) value offset) := by
  intro fuel
  induction fuel with
  | zero =>
    intro rd value offset hl
    have h0 : rd.left rem = [] := List.eq_nil_of_length_eq_zero (by omega)
    have := readByte_spec hR rd
    rw [h0] at this ⊢
    exact .inr (by simp only at this; simp [Source.getLoop, this])
  | succ fuel ih =>
    intro rd value offset hl
    have hb := readByte_spec hR rd
    cases h0 : rd.left rem with
    | nil =>
      rw [h0] at hb
      exact .inr (by simp only at hb; simp [Source.getLoop, hb])
    | cons b bs =>
      rw [h0] at hb
      obtain ⟨rd', h1, h2, h3, h4⟩ := hb
      rw [Source.getLoop, h1, getLoop]
      simp only
      cases hs : shlChecked m ((b &&& 0x7f#8).setWidth w) offset with
      | error e => exact .inr rfl
      | ok shifted =>
        simp only
        by_cases hc : b &&& 0x80#8 = 0#8
        · rw [if_pos hc, if_pos hc]
          exact ⟨rd', rfl, h2, h3, h4⟩
        · rw [if_neg hc, if_neg hc]
          have hl' : (rd'.left rem).length ≤ fuel := by
            rw [h3]
            rw [h0] at hl
            simpa using hl
          have := ih rd' (value ||| shifted) (offset + 7) hl'
          rw [h3] at this
          exact this.after h2

theorem getVarint_agrees (hR : Delivers R rem) (env : Env) (m : Mode) (w : Nat) (rd : Rdr ρ) (hl : (rd.left rem).length ≤ env.fuel) :
    AlikeE R rem Bare rd (R.getVarint env m w rd) (getVarint m w (rd.left rem)) :=
  getLoop_agrees hR m env.fuel rd 0#w 0 hl

theorem getBoolLoop_agrees (hR : Delivers R rem) : ∀ (fuel : Nat) (rd : Rdr ρ) (value : Bool),
    (rd.left rem).length ≤ fuel →
    AlikeE R rem Bare rd (R.getBoolLoop fuel rd value) (getBoolLoop (rd.left rem) value) := by
  intro fuel
  induction fuel with
  | zero =>
    intro rd value hl
    have h0 : rd.left rem = [] := List.eq_nil_of_length_eq_zero (by omega)
    have := readByte_spec hR rd
    rw [h0] at this ⊢
    exact .inr (by simp only at this; simp [Source.getBoolLoop, this])
  | succ fuel ih =>
    intro rd value hl
    have hb := readByte_spec hR rd
    cases h0 : rd.left rem with
    | nil =>
      rw [h0] at hb
      exact .inr (by simp only at hb; simp [Source.getBoolLoop, hb])
    | cons b bs =>
      rw [h0] at hb
      obtain ⟨rd', h1, h2, h3, h4⟩ := hb
      rw [Source.getBoolLoop, h1, getBoolLoop]
      simp only
      by_cases hc : b &&& 0x80#8 = 0#8
      · rw [if_pos hc, if_pos hc]
        exact ⟨rd', rfl, h2, h3, h4⟩
      · rw [if_neg hc, if_neg hc]
        have hl' : (rd'.left rem).length ≤ fuel := by
          rw [h3]
          rw [h0] at hl
          simpa using hl
        have := ih rd' (value || (b &&& 0x7f#8 != 0#8)) hl'
        rw [h3] at this
        exact this.after h2

theorem getSigned_agrees (hR : Delivers R rem) (env : Env) (m : Mode) (w : Nat) (rd : Rdr ρ) (hl : (rd.left rem).length ≤ env.fuel) :
    AlikeE R rem Bare rd (R.getSigned env m w rd) (getSigned m w (rd.left rem)) := by
  have h := getVarint_agrees hR env m w rd hl
  unfold Source.getSigned getSigned
  cases hp : getVarint m w (rd.left rem) with
  | error e =>
    rw [hp] at h
    rcases h with h | h
    · exact .inl h
    · exact .inr (by rw [h])
  | ok x =>
    rw [hp] at h
    obtain ⟨rd', h1, h2⟩ := h
    exact ⟨rd', by rw [h1], h2⟩

theorem readTag_agrees (hR : Delivers R rem) (env : Env) (m : Mode) (rd : Rdr ρ) (hl : (rd.left rem).length ≤ env.fuel) :
    AlikeE R rem Bare rd (R.readTag env m rd) (readTag m (rd.left rem)) := by
  have h := getVarint_agrees hR env m 32 rd hl
  unfold Source.readTag readTag
  cases hp : getVarint m 32 (rd.left rem) with
  | error e =>
    rw [hp] at h
    rcases h with h | h
    · exact .inl h
    · exact .inr (by rw [h])
  | ok x =>
    rw [hp] at h
    obtain ⟨rd', h1, h2⟩ := h
    rw [h1]
    simp only [bind, Except.bind]
    cases parseTag x.1 with
    | error e => exact .inr rfl
    | ok tag => exact ⟨rd', rfl, h2⟩

theorem readMapKey_agrees (hR : Delivers R rem) (env : Env) (m : Mode) (kt : KeyTy) (rd : Rdr ρ)
    (hl : (rd.left rem).length ≤ env.fuel) :
    AlikeE R rem Bare rd (readMapKeyR R env m kt rd) (readMapKey m kt (rd.left rem)) := by
  have h := getVarint_agrees hR env m 32 rd hl
  unfold readMapKeyR readMapKey
  cases hp : getVarint m 32 (rd.left rem) with
  | error e =>
    rw [hp] at h
    rcases h with h | h
    · exact .inl h
    · exact .inr (by rw [h])
  | ok x =>
    rw [hp] at h
    obtain ⟨rd', h1, h2⟩ := h
    rw [h1]
    simp only [bind, Except.bind]
    cases parseTag x.1 with
    | error e => exact .inr rfl
    | ok tag =>
      simp only
      cases validateFieldNumber tag.1 with
      | error e => exact .inr rfl
      | ok _ =>
        simp only
        cases kt.tryFromFieldNumber tag.1 with
        | error e => exact .inr rfl
        | ok _ => exact ⟨rd', rfl, h2⟩

/-- Skipping a field. -/
theorem skipField_agrees (hR : Delivers R rem) (env : Env) (m : Mode) (wireType : WireType) (rd : Rdr ρ)
    (hl : (rd.left rem).length ≤ env.fuel) :
    match skipField m wireType (rd.left rem) with
    | .ok rest => ∃ rd', R.skipField env m wireType rd = .ok rd' ∧ (∃ used, RAdv R rd used rd') ∧ rd'.left rem = rest ∧ Bare rd'
    | .error e => e = .diverge ∨ R.skipField env m wireType rd = .error (.lib e) := by
  cases wireType with
  | varint =>
    have h := getVarint_agrees hR env m 8 rd hl
    simp only [Source.skipField, skipField, bind, Except.bind]
    cases hp : getVarint m 8 (rd.left rem) with
    | error e =>
      rw [hp] at h
      rcases h with h | h
      · exact .inl h
      · exact .inr (by rw [h])
    | ok x =>
      rw [hp] at h
      obtain ⟨rd', h1, h2⟩ := h
      exact ⟨rd', by rw [h1], h2⟩
  | sized =>
    have h := getVarint_agrees hR env m 64 rd hl
    simp only [Source.skipField, skipField, bind, Except.bind]
    cases hp : getVarint m 64 (rd.left rem) with
    | error e =>
      rw [hp] at h
      rcases h with h | h
      · exact .inl h
      · exact .inr (by rw [h])
    | ok x =>
      rw [hp] at h
      obtain ⟨rd1, h1, h2, h3, h4⟩ := h
      rw [h1]
      simp only
      by_cases hs : 2 ^ 63 ≤ x.1.toNat
      · rw [if_pos hs, if_pos hs]
        exact .inr rfl
      · rw [if_neg hs, if_neg hs]
        have hl1 : (rd1.left rem).length ≤ env.fuel := Nat.le_trans (rem_le hR h2) hl
        obtain ⟨s', h5, h6, h7⟩ := readToEnd_spec (delivers_take (delivers_rdr hR)) env env.fuel 0 (x.1.toNat, rd1) [] (by
          simp only [List.length_take]; omega)
        rw [h5]
        have h8 := adv_take h6
        have h9 := radv_of_adv h8
        refine ⟨s'.2, rfl, ?_, ?_, next_of_adv h8 h4⟩
        · obtain ⟨u, h2⟩ := h2
          exact ⟨_, h2.trans h9⟩
        · have := h9.left hR
          simp only at this
          have h10 := List.take_append_drop x.1.toNat (rd1.left rem)
          rw [← h3]
          exact (List.append_cancel_left (this.symm.trans h10.symm))

/-- Running a function on a nested reader. -/
theorem withNested_agrees {α : Type} (hR : Delivers R rem) (env : Env) (m : Mode) (v : α) (rd : Rdr ρ)
    (hl : (rd.left rem).length ≤ env.fuel) (body : Rdr (Nat × Rdr ρ) → RRes (Nat × Rdr ρ) α) (pure : Bytes → Res α)
    (hb : ∀ child, (Rdr.left (fun s : Nat × Rdr ρ => (s.2.left rem).take s.1) child).length ≤ env.fuel → Bare child →
      Alike R.rdr.take (fun s => (s.2.left rem).take s.1) Bare child (body child)
        (pure (Rdr.left (fun s : Nat × Rdr ρ => (s.2.left rem).take s.1) child))) :
    Alike R rem Bare rd (R.withNested env m v rd body) (withNested m v (rd.left rem) pure) := by
  have h := getVarint_agrees hR env m 64 rd hl
  unfold Source.withNested withNested
  cases hp : getVarint m 64 (rd.left rem) with
  | error e =>
    rw [hp] at h
    rcases h with h | h
    · exact .inl h
    · exact .inr (by rw [h])
  | ok x =>
    rw [hp] at h
    obtain ⟨rd1, h1, h2, h3, h4⟩ := h
    rw [h1]
    simp only
    have hl1 : (rd1.left rem).length ≤ env.fuel := Nat.le_trans (rem_le hR h2) hl
    have hbare : (⟨none, rd1.raw⟩ : Rdr ρ) = rd1 := by
      rcases rd1 with ⟨_ | b, s⟩
      · rfl
      · cases h4
    have hc := hb (.new (x.1.toNat, Source.asMutRead rd1)) (by
      simp only [Rdr.left, Rdr.new, Source.asMutRead, Option.toList_none, List.nil_append, List.length_take]
      have : (rem rd1.raw).length ≤ (rd1.left rem).length := by simp [Rdr.left]
      omega) rfl
    have hr : Rdr.left (fun s : Nat × Rdr ρ => (s.2.left rem).take s.1) (.new (x.1.toNat, Source.asMutRead rd1)) =
        (rd1.left rem).take x.1.toNat := by
      simp only [Rdr.left, Rdr.new, Source.asMutRead, Option.toList_none, List.nil_append]
      rw [show rd1.next = none from h4]
      rfl
    rw [hr, h3] at hc
    cases hp' : pure (x.2.take x.1.toNat) with
    | err v' e =>
      rw [hp'] at hc
      rcases hc with hc | hc
      · exact .inl hc
      · exact .inr (by rw [hc])
    | ok v' unread =>
      rw [hp'] at hc
      obtain ⟨child, h5, ⟨used, u, h6, h7⟩, h8, h9⟩ := hc
      rw [h5]
      simp only
      have hch : child.next = none := h9
      simp only [Rdr.new, Source.asMutRead, hch, Option.toList_none, List.nil_append, List.append_nil] at h6 h7
      subst h7
      have h10 := adv_take h6
      have h11 := next_of_adv h10 rfl
      have h12 := radv_of_adv h10
      simp only at h12
      rw [hbare] at h12
      have hraw : (⟨rd1.next, child.raw.2.raw⟩ : Rdr ρ) = child.raw.2 := by
        rw [show rd1.next = none from h4, ← h11]
      rw [hraw]
      refine ⟨_, rfl, ?_, ?_, h11⟩
      · obtain ⟨u', h2⟩ := h2
        exact ⟨_, h2.trans h12⟩
      · have e1 := h12.left hR
        have e2 := (h6.left (delivers_take (delivers_rdr hR)))
        simp only [Rdr.left, hch, Option.toList_none, List.nil_append] at h8 e2
        rw [h3] at e1
        have e3 : (rem rd1.raw) = x.2 := by
          rw [← h3, Rdr.left, show rd1.next = none from h4]
          rfl
        rw [e3] at e2
        simp only [Rdr.left] at e1 h8
        rw [h8] at e2
        have e4 := List.take_append_drop x.1.toNat x.2
        rw [e2] at e4
        refine List.append_cancel_left (as := u) ?_
        rw [← List.append_assoc, e4, Rdr.left]
        exact e1.symm

theorem untilEof_agrees {α : Type} (hR : Delivers R rem) (F : Nat) (stepR : α → Rdr ρ → RRes ρ α) (step : α → Bytes → Res α)
    (hstep : ∀ v rd, (rd.left rem).length ≤ F → rd.left rem ≠ [] → Alike R rem Bare rd (stepR v rd) (step v (rd.left rem))) :
    ∀ (fuel fuel' : Nat) (v : α) (rd : Rdr ρ), fuel' ≤ fuel → (rd.left rem).length ≤ F →
      Alike R rem Bare rd (R.untilEof stepR fuel v rd) (untilEof step fuel' v (rd.left rem)) := by
  intro fuel
  induction fuel with
  | zero =>
    intro fuel' v rd hf hl
    obtain rfl : fuel' = 0 := by omega
    obtain ⟨rd', h1, h2, h3, h4⟩ := eof_spec hR rd
    cases hb : rd.left rem with
    | nil =>
      rw [hb] at h1 h3 h4
      rw [Source.untilEof, h1, untilEof]
      exact ⟨rd', rfl, h2, h3, h4 rfl⟩
    | cons b bs => exact .inl rfl
  | succ fuel ih =>
    intro fuel' v rd hf hl
    obtain ⟨rd', h1, h2, h3, h4⟩ := eof_spec hR rd
    cases hb : rd.left rem with
    | nil =>
      rw [hb] at h1 h3 h4
      rw [Source.untilEof, h1, untilEof]
      exact ⟨rd', rfl, h2, h3, h4 rfl⟩
    | cons b bs =>
      cases fuel' with
      | zero => exact .inl rfl
      | succ fuel' =>
        rw [hb] at h1 h3
        rw [Source.untilEof, h1, untilEof]
        simp only [List.isEmpty_cons]
        have hs := hstep v rd' (by rw [h3, ← hb]; exact hl) (by rw [h3]; simp)
        rw [h3] at hs
        cases hp : step v (b :: bs) with
        | err v' e =>
          rw [hp] at hs
          rcases hs with hs | hs
          · exact .inl hs
          · exact .inr (by rw [hs])
        | ok v' rest =>
          rw [hp] at hs
          obtain ⟨rd2, h5, h6, h7, h8⟩ := hs
          rw [h5]
          simp only
          have hl2 : (rd2.left rem).length ≤ F :=
            Nat.le_trans (rem_le hR h6) (by rw [h3, ← hb]; exact hl)
          have := ih fuel' v' rd2 (by omega) hl2
          rw [h7] at this
          refine this.after ?_
          obtain ⟨u1, h2⟩ := h2
          obtain ⟨u2, h6⟩ := h6
          exact ⟨_, h2.trans h6⟩

end

/-! ## The implementations -/

/-- A `merge` over sources agrees with one over bytes: on every source, from every reader, whether it holds a byte or not, and if it
holds one and anything is read, it does not afterwards. -/
def ReadsLike {α : Type} (r : Merging α) (merge : Mode → α → Bytes → Res α) : Prop :=
  ∀ {ρ : Type} (R : Source ρ) (rem : ρ → Bytes), Delivers R rem → ∀ (env : Env) (m : Mode) (v : α) (rd : Rdr ρ),
    (rd.left rem).length ≤ env.fuel → Alike R rem Bare rd (r _ R env m v rd) (merge m v (rd.left rem))

end Steit
