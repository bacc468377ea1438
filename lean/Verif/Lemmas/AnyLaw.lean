import Verif.Lemmas.WireFmt
import Verif.Lemmas.VarintAny
import Verif.Lemmas.DecLaw
import Verif.Spec.Robust

/-! # Reading arbitrary bytes: laws and loops -/

namespace Steit
open Spec

/-- The errors decoding `bs` may end with. -/
def ErrOk (m : Mode) (bs : Bytes) (e : Err) : Prop :=
  e = .unexpectedEof ∨ e = .invalidData ∨ (e = .panic ∧ LongRun (runLimit m) bs)

theorem Spec.LongRun.mono {k : Nat} {bs bs' : Bytes} (h : LongRun k bs) (hi : bs <:+: bs') : LongRun k bs' := by
  obtain ⟨c, h1, h2⟩ := h
  exact ⟨c, h1.trans hi, h2⟩

theorem ErrOk.mono {m : Mode} {bs bs' : Bytes} {e : Err} (h : ErrOk m bs e) (hi : bs <:+: bs') : ErrOk m bs' e := by
  rcases h with h | h | ⟨h, h'⟩
  · exact .inl h
  · exact .inr (.inl h)
  · exact .inr (.inr ⟨h, h'.mono hi⟩)

theorem runLimit_le (m : Mode) : runLimit m ≤ 9 := by cases m <;> decide

theorem longRun_of_prefix {k : Nat} {init rest : Bytes} (hi : ∀ b ∈ init, 128 ≤ b.toNat) (hk : k ≤ init.length) :
    LongRun k (init ++ rest) := by
  refine ⟨init.take k, ?_, by simp; omega, fun b hb => hi b (List.mem_of_mem_take hb)⟩
  exact (List.take_prefix k init).isInfix.trans (List.prefix_append init rest).isInfix

/-- A reader that reads one varint. -/
structure ReadsVarint {α : Type} (m : Mode) (get : Bytes → Except Err (α × Bytes)) : Prop where
  ok : ∀ {bs x rest}, get bs = .ok (x, rest) → ∃ c, bs = c ++ rest ∧ IsVarint c
  err : ∀ {bs e}, get bs = .error e → ErrOk m bs e
  conf : ∀ {c}, IsVarint c → (∃ x, ∀ rest, get (c ++ rest) = .ok (x, rest)) ∨ ∀ rest, get (c ++ rest) = .error .panic
  /-- In a release build every varint is accepted. -/
  rel : m = .release → ∀ {c}, IsVarint c → ∃ x, ∀ rest, get (c ++ rest) = .ok (x, rest)

theorem Spec.IsVarint.ne_nil {c : Bytes} (h : IsVarint c) : c ≠ [] := by
  obtain ⟨init, last, rfl, _⟩ := h
  simp

theorem Spec.IsVarint.length_pos {c : Bytes} (h : IsVarint c) : 0 < c.length := List.length_pos_iff.2 h.ne_nil

theorem Spec.IsVarint.unique {c c' r r' : Bytes} (h : IsVarint c) (h' : IsVarint c') (he : c ++ r = c' ++ r') :
    c = c' ∧ r = r' := by
  obtain ⟨init, last, rfl, h2, h3⟩ := h
  obtain ⟨init', last', rfl, h2', h3'⟩ := h'
  induction init generalizing init' with
  | nil =>
    cases init' with
    | nil => simp at he ⊢; exact ⟨he.1, he.2⟩
    | cons b init' =>
      simp only [List.nil_append, List.cons_append, List.cons.injEq] at he
      have := h2' b (by simp)
      rw [he.1] at h3; omega
  | cons b init ih =>
    cases init' with
    | nil =>
      simp only [List.nil_append, List.cons_append, List.cons.injEq] at he
      have := h2 b (by simp)
      rw [← he.1] at h3'; omega
    | cons b' init' =>
      simp only [List.cons_append, List.cons.injEq] at he
      obtain ⟨h1, h4⟩ := ih (fun x hx => h2 x (by simp [hx])) init' he.2 (fun x hx => h2' x (by simp [hx]))
      exact ⟨by simp [he.1, h1], h4⟩

theorem getVarint_conf (m : Mode) {w : Nat} (hw : 8 ≤ w) {c : Bytes} (hc : IsVarint c) :
    (∃ x, ∀ rest, getVarint m w (c ++ rest) = .ok (x, rest)) ∨
      (m = .debug ∧ 3 ≤ c.length ∧ ∀ rest, getVarint m w (c ++ rest) = .error .panic) := by
  by_cases hlen : 7 * c.length < w + 7
  · exact .inl ⟨_, fun rest => getVarint_varint m c rest hc hlen⟩
  · obtain ⟨init, last, rfl, h2, h3⟩ := hc
    simp only [List.length_append, List.length_singleton] at hlen
    cases m with
    | release =>
      left
      obtain ⟨x, hx⟩ := getLoop_release (w := w) init last [] h2 h3 0#w 0
      refine ⟨x, fun rest => ?_⟩
      have key : ∀ (init : Bytes) (acc : BitVec w) (off : Nat) (x : BitVec w), (∀ b ∈ init, 128 ≤ b.toNat) →
          getLoop .release (init ++ [last]) acc off = .ok (x, []) →
          getLoop .release (init ++ last :: rest) acc off = .ok (x, rest) := by
        intro init
        induction init with
        | nil =>
          intro acc off x _ h
          obtain ⟨y, hy⟩ := shl_release ((last &&& 0x7f#8).setWidth w) off
          simp only [List.nil_append, getLoop, hy, (byte_hi last).2 h3, if_true, Except.ok.injEq, Prod.mk.injEq,
            and_true] at h ⊢
          exact h
        | cons b init ih =>
          intro acc off x hi h
          obtain ⟨y, hy⟩ := shl_release ((b &&& 0x7f#8).setWidth w) off
          have hb : ¬ (b &&& 0x80#8 = 0#8) := by rw [byte_hi]; have := hi b (by simp); omega
          simp only [List.cons_append, getLoop, hy, hb, if_false] at h ⊢
          exact ih _ _ _ (fun x hx => hi x (by simp [hx])) h
      unfold getVarint
      rw [List.append_assoc]
      exact key init _ _ _ h2 hx
    | debug =>
      right
      refine ⟨rfl, by simp only [List.length_append, List.length_singleton]; omega, fun rest => ?_⟩
      unfold getVarint
      rw [List.append_assoc]
      exact getLoop_debug_panic init last rest h2 _ _ (by omega)

theorem readsVarint_uint (m : Mode) {w : Nat} (hw : 8 ≤ w) : ReadsVarint m (getVarint m w) where
  ok := by
    intro bs x rest h
    rcases varint_cases bs with ⟨c, r, rfl, hc⟩ | hn
    · rcases getVarint_conf m hw hc with ⟨y, hy⟩ | ⟨_, _, hy⟩
      · rw [hy] at h
        cases h
        exact ⟨c, rfl, hc⟩
      · rw [hy] at h; cases h
    · exfalso
      cases m with
      | release => unfold getVarint at h; rw [getLoop_eof .release bs hn _ _ (.inl rfl)] at h; cases h
      | debug =>
        by_cases hl : 7 * bs.length < w + 7
        · unfold getVarint at h; rw [getLoop_eof .debug bs hn _ _ (.inr (by omega))] at h; cases h
        · obtain ⟨pre, b, rfl⟩ : ∃ pre b, bs = pre ++ [b] := by
            rcases List.eq_nil_or_concat bs with rfl | ⟨pre, b, rfl⟩
            · simp at hl
            · exact ⟨pre, b, by simp⟩
          unfold getVarint at h
          rw [getLoop_debug_panic pre b [] (fun x hx => hn x (by simp [hx])) _ _
            (by simp only [List.length_append, List.length_singleton] at hl; omega)] at h
          cases h
  err := by
    intro bs e h
    rcases varint_cases bs with ⟨c, r, rfl, hc⟩ | hn
    · rcases getVarint_conf m hw hc with ⟨y, hy⟩ | ⟨hm, hl, hy⟩
      · rw [hy] at h; cases h
      · rw [hy] at h
        cases h
        refine .inr (.inr ⟨rfl, ?_⟩)
        obtain ⟨init, last, rfl, h2, h3⟩ := hc
        rw [List.append_assoc]
        refine longRun_of_prefix h2 ?_
        rw [hm]; simp only [List.length_append, List.length_singleton] at hl; simp only [runLimit]; omega
    · cases m with
      | release =>
        unfold getVarint at h; rw [getLoop_eof .release bs hn _ _ (.inl rfl)] at h; cases h; exact .inl rfl
      | debug =>
        by_cases hl : 7 * bs.length < w + 7
        · unfold getVarint at h; rw [getLoop_eof .debug bs hn _ _ (.inr (by omega))] at h; cases h; exact .inl rfl
        · obtain ⟨pre, b, rfl⟩ : ∃ pre b, bs = pre ++ [b] := by
            rcases List.eq_nil_or_concat bs with rfl | ⟨pre, b, rfl⟩
            · simp at hl
            · exact ⟨pre, b, by simp⟩
          unfold getVarint at h
          simp only [List.length_append, List.length_singleton] at hl
          rw [getLoop_debug_panic pre b [] (fun x hx => hn x (by simp [hx])) _ _ (by omega)] at h
          cases h
          refine .inr (.inr ⟨rfl, longRun_of_prefix (fun x hx => hn x (by simp [hx])) ?_⟩)
          simp only [runLimit]; omega
  conf := by
    intro c hc
    rcases getVarint_conf m hw hc with h | ⟨_, _, h⟩
    · exact .inl h
    · exact .inr h
  rel := by
    intro hm c hc
    rcases getVarint_conf m hw hc with h | ⟨h, _⟩
    · exact h
    · rw [hm] at h; cases h

theorem readsVarint_sint (m : Mode) {w : Nat} (hw : 8 ≤ w) : ReadsVarint m (getSigned m w) where
  ok := by
    intro bs x rest h
    unfold getSigned at h
    split at h
    · cases h
    · next y r hy => cases h; exact (readsVarint_uint m hw).ok hy
  err := by
    intro bs e h
    unfold getSigned at h
    split at h
    · next e' hy => cases h; exact (readsVarint_uint m hw).err hy
    · cases h
  conf := by
    intro c hc
    rcases (readsVarint_uint m hw).conf hc with ⟨x, hx⟩ | hx
    · exact .inl ⟨unzigzag x, fun rest => by unfold getSigned; rw [hx]⟩
    · exact .inr (fun rest => by unfold getSigned; rw [hx])
  rel := by
    intro hm c hc
    obtain ⟨x, hx⟩ := (readsVarint_uint m hw).rel hm hc
    exact ⟨unzigzag x, fun rest => by unfold getSigned; rw [hx]⟩

theorem getBool_conf {c : Bytes} (hc : IsVarint c) : ∃ x, ∀ rest, getBool (c ++ rest) = .ok (x, rest) := by
  obtain ⟨init, last, rfl, h2, h3⟩ := hc
  refine ⟨false || decide (lebValue (init ++ [last]) ≠ 0), fun rest => ?_⟩
  unfold getBool
  rw [List.append_assoc]
  exact getBoolLoop_varint init last rest h2 h3 false

theorem readsVarint_bool (m : Mode) : ReadsVarint m getBool where
  ok := by
    intro bs x rest h
    rcases varint_cases bs with ⟨c, r, rfl, hc⟩ | hn
    · obtain ⟨y, hy⟩ := getBool_conf hc
      rw [hy] at h; cases h
      exact ⟨c, rfl, hc⟩
    · unfold getBool at h; rw [getBoolLoop_eof bs hn] at h; cases h
  err := by
    intro bs e h
    rcases varint_cases bs with ⟨c, r, rfl, hc⟩ | hn
    · obtain ⟨y, hy⟩ := getBool_conf hc
      rw [hy] at h; cases h
    · unfold getBool at h; rw [getBoolLoop_eof bs hn] at h; cases h; exact .inl rfl
  conf := fun hc => .inl (getBool_conf hc)
  rel := fun _ _ hc => getBool_conf hc

/-! ### Tags, sizes, skipping -/

/-- A value of `2^63` or more takes nine continuation bytes. -/
theorem lebValue_lt {c : Bytes} : lebValue c < 128 ^ c.length := by
  induction c with
  | nil => simp [lebValue]
  | cons b c ih =>
    simp only [lebValue, List.length_cons, Nat.pow_succ]
    omega

theorem getVarint64_large (m : Mode) {bs rest : Bytes} {x : BitVec 64} (h : getVarint m 64 bs = .ok (x, rest))
    (hx : 2 ^ 63 ≤ x.toNat) : LongRun 9 bs := by
  obtain ⟨c, rfl, hc⟩ := (readsVarint_uint m (by decide)).ok h
  obtain ⟨init, last, rfl, h2, h3⟩ := id hc
  by_cases hl : 9 ≤ init.length
  · rw [List.append_assoc]
    exact longRun_of_prefix h2 hl
  · exfalso
    rw [getVarint_varint m _ _ hc (by simp only [List.length_append, List.length_singleton]; omega)] at h
    cases h
    have h4 : lebValue (init ++ [last]) < 128 ^ 9 :=
      Nat.lt_of_lt_of_le lebValue_lt (Nat.pow_le_pow_right (by decide)
        (by simp only [List.length_append, List.length_singleton]; omega))
    have : (BitVec.ofNat 64 (lebValue (init ++ [last]))).toNat = lebValue (init ++ [last]) := by
      rw [BitVec.toNat_ofNat, Nat.mod_eq_of_lt (by omega)]
    rw [this] at hx
    omega

theorem Spec.LongRun.weaken {k k' : Nat} {bs : Bytes} (h : LongRun k bs) (hk : k' ≤ k) : LongRun k' bs := by
  obtain ⟨c, h1, h2, h3⟩ := h
  exact ⟨c.take k', (List.take_prefix k' c).isInfix.trans h1, by simp; omega, fun b hb => h3 b (List.mem_of_mem_take hb)⟩

theorem readTag_ok {m : Mode} {bs rest : Bytes} {t : U32 × WireType} (h : readTag m bs = .ok (t, rest)) :
    ∃ c, bs = c ++ rest ∧ IsVarint c := by
  unfold readTag at h
  simp only [bind, Except.bind] at h
  split at h
  · cases h
  · next y hy =>
    split at h
    · cases h
    · cases h
      exact (readsVarint_uint m (by decide)).ok hy

theorem parseTag_err_kind {v : U32} {e : Err} (h : parseTag v = .error e) : e = .invalidData := by
  unfold parseTag at h
  simp only [bind, Except.bind] at h
  split at h
  · next e' he =>
    cases h
    unfold WireType.fromValue at he
    split at he
    · cases he
    · split at he
      · cases he
      · cases he; rfl
  · split at h
    · next e' he =>
      cases h
      unfold validateFieldNumber at he
      split at he
      · cases he; rfl
      · cases he
    · cases h

theorem readTag_err {m : Mode} {bs : Bytes} {e : Err} (h : readTag m bs = .error e) : ErrOk m bs e := by
  unfold readTag at h
  simp only [bind, Except.bind] at h
  split at h
  · next e' he => cases h; exact (readsVarint_uint m (by decide)).err he
  · split at h
    · next e' he => cases h; exact .inr (.inl (parseTag_err_kind he))
    · cases h

theorem skipField_ok {m : Mode} {wt : WireType} {bs rest : Bytes} (h : skipField m wt bs = .ok rest) :
    rest <:+ bs ∧ rest.length < bs.length := by
  cases wt with
  | varint =>
    simp only [skipField, bind, Except.bind] at h
    split at h
    · cases h
    · next y hy =>
      cases h
      obtain ⟨c, rfl, hc⟩ := (readsVarint_uint m (by decide)).ok hy
      exact ⟨List.suffix_append _ _, by have := hc.length_pos; simp only [List.length_append]; omega⟩
  | sized =>
    simp only [skipField, bind, Except.bind] at h
    split at h
    · cases h
    · next y hy =>
      split at h
      · cases h
      · cases h
        obtain ⟨c, rfl, hc⟩ := (readsVarint_uint m (by decide)).ok hy
        refine ⟨(List.drop_suffix _ _).trans (List.suffix_append _ _), ?_⟩
        have := hc.length_pos
        simp only [List.length_append, List.length_drop]; omega

theorem skipField_err {m : Mode} {wt : WireType} {bs : Bytes} {e : Err} (h : skipField m wt bs = .error e) :
    ErrOk m bs e := by
  cases wt with
  | varint =>
    simp only [skipField, bind, Except.bind] at h
    split at h
    · next e' he => cases h; exact (readsVarint_uint m (by decide)).err he
    · cases h
  | sized =>
    simp only [skipField, bind, Except.bind] at h
    split at h
    · next e' he => cases h; exact (readsVarint_uint m (by decide)).err he
    · next y hy =>
      split at h
      · next hs =>
        cases h
        exact .inr (.inr ⟨rfl, (getVarint64_large m hy hs).weaken (runLimit_le m)⟩)
      · cases h

/-! ### Loops -/

theorem untilEof_any {α : Type} (step : α → Bytes → Res α) (m : Mode) (I : α → Prop)
    (hok : ∀ v bs v' rest, I v → step v bs = .ok v' rest → I v' ∧ rest <:+ bs ∧ rest.length < bs.length)
    (herr : ∀ v bs v' e, I v → step v bs = .err v' e → I v' ∧ ErrOk m bs e) :
    ∀ fuel v bs, bs.length ≤ fuel → I v →
      (∃ v', untilEof step fuel v bs = .ok v' [] ∧ I v') ∨
      (∃ v' e, untilEof step fuel v bs = .err v' e ∧ I v' ∧ ErrOk m bs e) := by
  intro fuel
  induction fuel with
  | zero =>
    intro v bs hl hv
    have : bs = [] := List.length_eq_zero_iff.1 (by omega)
    subst this
    exact .inl ⟨v, untilEof_nil _ _ _, hv⟩
  | succ fuel ih =>
    intro v bs hl hv
    cases bs with
    | nil => exact .inl ⟨v, untilEof_nil _ _ _, hv⟩
    | cons b bs =>
      simp only [untilEof]
      cases hs : step v (b :: bs) with
      | ok v' rest =>
        obtain ⟨h1, h2, h3⟩ := hok _ _ _ _ hv hs
        simp only
        rcases ih v' rest (by simp only [List.length_cons] at *; omega) h1 with h | ⟨v'', e, h4, h5, h6⟩
        · exact .inl h
        · exact .inr ⟨v'', e, h4, h5, h6.mono h2.isInfix⟩
      | err v' e =>
        obtain ⟨h1, h2⟩ := herr _ _ _ _ hv hs
        exact .inr ⟨v', e, rfl, h1, h2⟩

theorem untilEof_ok_nil {α : Type} {step : α → Bytes → Res α} : ∀ {fuel : Nat} {v v' : α} {bs rest : Bytes},
    untilEof step fuel v bs = .ok v' rest → rest = [] := by
  intro fuel
  induction fuel with
  | zero =>
    intro v v' bs rest h
    cases bs with
    | nil => cases h; rfl
    | cons b bs => cases h
  | succ fuel ih =>
    intro v v' bs rest h
    cases bs with
    | nil => cases h; rfl
    | cons b bs =>
      simp only [untilEof] at h
      split at h
      · exact ih h
      · cases h

/-! ### The law -/

/-- How a type behaves on arbitrary input. `At rt v` is the address invariant of the type, `st` says whether the `State`
methods are implemented. -/
structure AnyLaw {α : Type} (d : Dict α) (st : Bool) (At : Rt → α → Prop) : Prop where
  dflt_eq : d.dflt = d.withRuntime Rt.dflt
  at_new : ∀ rt, At rt (d.withRuntime rt)
  merge : ∀ m rt v bs, At rt v → (∃ v' rest, d.merge m v bs = .ok v' rest ∧ At rt v') ∨
    (∃ v' e, d.merge m v bs = .err v' e ∧ At rt v' ∧ ErrOk m bs e)
  sized_all : d.wire = .sized → ∀ m v bs v' rest, d.merge m v bs = .ok v' rest → rest = []
  varint : d.wire = .varint → ∀ m, ∃ get, ReadsVarint m get ∧ ∀ v bs, d.merge m v bs =
    match get bs with
    | .ok (x, rest) => .ok x rest
    | .error e => .err v e
  at_set : ∀ rt rt' v, At rt v → At rt' (d.setRuntime rt' v)
  handle : st = true → ∀ m rt v path kind key bs, At rt v →
    (∃ v' rest, d.handle m v path kind key bs = .ok v' rest ∧ At rt v') ∨
    (∃ v' e, d.handle m v path kind key bs = .err v' e ∧ At rt v' ∧ ErrOk m bs e)

theorem anyLaw_plain {α : Type} {ser : SerD α} {om : Mode → Loc → α → Option Nat → Prog Bool} {dflt : α}
    {merge : Mode → α → Bytes → Res α} {P : α → Prop} (h0 : P dflt)
    (h : ∀ m v bs, P v → (∃ v' rest, merge m v bs = .ok v' rest ∧ P v') ∨
      (∃ v' e, merge m v bs = .err v' e ∧ P v' ∧ ErrOk m bs e))
    (hall : ∀ m v bs v' rest, merge m v bs = .ok v' rest → rest = []) :
    AnyLaw (plainDict ser om dflt merge) false (fun _ v => P v) where
  dflt_eq := rfl
  at_new := fun _ => h0
  merge := fun m _ v bs hv => h m v bs hv
  sized_all := fun _ => hall
  varint := fun h => by cases h
  at_set := fun _ _ _ h => h
  handle := fun h => by cases h

section
variable {α : Type} {d : Dict α} {st : Bool} {At : Rt → α → Prop}

theorem AnyLaw.at_dflt (h : AnyLaw d st At) : At Rt.dflt d.dflt := by rw [h.dflt_eq]; exact h.at_new _

theorem AnyLaw.nested (h : AnyLaw d st At) (m : Mode) (rt : Rt) (v : α) (wt : WireType) (bs : Bytes) (hv : At rt v) :
    (∃ v' rest, d.mergeNested m v wt bs = .ok v' rest ∧ At rt v' ∧ rest <:+ bs ∧ rest.length < bs.length) ∨
    (∃ v' e, d.mergeNested m v wt bs = .err v' e ∧ At rt v' ∧ ErrOk m bs e) := by
  unfold Dict.mergeNested
  split
  · cases hs : skipField m wt bs with
    | ok rest => exact .inl ⟨v, rest, rfl, hv, skipField_ok hs⟩
    | error e => exact .inr ⟨v, e, rfl, hv, skipField_err hs⟩
  · next hw =>
    have hw : wt = d.wire := Decidable.of_not_not hw
    cases wt with
    | varint =>
      obtain ⟨get, hg, hm⟩ := h.varint hw.symm m
      rcases h.merge m rt v bs hv with ⟨v', rest, h1, h2⟩ | h1
      · refine .inl ⟨v', rest, h1, h2, ?_⟩
        rw [hm] at h1
        cases hgb : get bs with
        | error e => rw [hgb] at h1; cases h1
        | ok xr =>
          rw [hgb] at h1
          obtain ⟨c, rfl, hc⟩ := hg.ok (rest := xr.2) (x := xr.1) hgb
          cases h1
          exact ⟨List.suffix_append _ _, by have := hc.length_pos; simp only [List.length_append]; omega⟩
      · exact .inr h1
    | sized =>
      simp only [withNested]
      cases hg : getVarint m 64 bs with
      | error e => exact .inr ⟨v, e, rfl, hv, (readsVarint_uint m (by decide)).err hg⟩
      | ok xr =>
        obtain ⟨x, r⟩ := xr
        obtain ⟨c, rfl, hc⟩ := (readsVarint_uint m (by decide)).ok hg
        have hpos := hc.length_pos
        simp only
        rcases h.merge m rt v (r.take x.toNat) hv with ⟨v', rest, h1, h2⟩ | ⟨v', e, h1, h2, h3⟩
        · have := h.sized_all hw.symm _ _ _ _ _ h1
          subst this
          rw [h1]
          refine .inl ⟨v', r.drop x.toNat, rfl, h2, (List.drop_suffix _ _).trans (List.suffix_append _ _), ?_⟩
          simp only [List.length_append, List.length_drop]; omega
        · rw [h1]
          refine .inr ⟨v', e, rfl, h2, h3.mono ?_⟩
          exact (List.take_prefix _ _).isInfix.trans (List.suffix_append c r).isInfix

theorem AnyLaw.deser (h : AnyLaw d st At) (m : Mode) (wt : WireType) (bs : Bytes) :
    (∃ v' rest, d.deserializeNested m wt bs = .ok (v', rest) ∧ At Rt.dflt v' ∧ rest <:+ bs ∧ rest.length < bs.length) ∨
    (∃ e, d.deserializeNested m wt bs = .error e ∧ ErrOk m bs e) := by
  unfold Dict.deserializeNested
  rcases h.nested m Rt.dflt d.dflt wt bs h.at_dflt with ⟨v', rest, h1, h2⟩ | ⟨v', e, h1, _, h2⟩
  · exact .inl ⟨v', rest, by rw [h1], h2⟩
  · exact .inr ⟨e, by rw [h1], h2⟩

/-- Loops over items. -/
theorem loop_any {γ : Type} (step : Mode → γ → Bytes → Res γ) (I : γ → Prop)
    (h : ∀ m v bs, I v → (∃ v' rest, step m v bs = .ok v' rest ∧ I v' ∧ rest <:+ bs ∧ rest.length < bs.length) ∨
      (∃ v' e, step m v bs = .err v' e ∧ I v' ∧ ErrOk m bs e)) (m : Mode) (v : γ) (bs : Bytes) (hv : I v) :
    (∃ v' rest, untilEof (step m) bs.length v bs = .ok v' rest ∧ I v') ∨
    (∃ v' e, untilEof (step m) bs.length v bs = .err v' e ∧ I v' ∧ ErrOk m bs e) := by
  have hok : ∀ v bs v' rest, I v → step m v bs = .ok v' rest → I v' ∧ rest <:+ bs ∧ rest.length < bs.length := by
    intro v bs v' rest hv hs
    rcases h m v bs hv with ⟨v'', r, h1, h2⟩ | ⟨v'', e, h1, _⟩
    · rw [h1] at hs; cases hs; exact h2
    · rw [h1] at hs; cases hs
  have herr : ∀ v bs v' e, I v → step m v bs = .err v' e → I v' ∧ ErrOk m bs e := by
    intro v bs v' e hv hs
    rcases h m v bs hv with ⟨v'', r, h1, _⟩ | ⟨v'', e', h1, h2⟩
    · rw [h1] at hs; cases hs
    · rw [h1] at hs; cases hs; exact h2
  rcases untilEof_any (step m) m I hok herr bs.length v bs (Nat.le_refl _) hv with ⟨v', h1, h2⟩ | h1
  · exact .inl ⟨v', [], h1, h2⟩
  · exact .inr h1

end

end Steit
