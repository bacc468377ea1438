import Verif.Lemmas.AnyImpls
import Verif.Lemmas.Keep
import Verif.Spec.Weight

/-! # Whatever bytes are read, each makes a bounded part of the value -/

namespace Steit
open Spec

/-- How many bytes are left to read; none after a failure. -/
def Res.left {α : Type} : Res α → Nat
  | .ok _ rest => rest.length
  | .err _ _ => 0

/-- Some of `n` bytes have been read, and what was of size `w` has grown by at most `c` for each. -/
def Grown {α : Type} (W : α → Nat) (c w : Nat) (r : Res α) (n : Nat) : Prop :=
  ∃ k, r.left + k = n ∧ W r.target ≤ w + c * k

section
variable {α : Type} {W : α → Nat} {c w : Nat}

theorem grown_ok {v : α} {rest : Bytes} {n : Nat} (h : rest.length ≤ n) (hw : W v ≤ w + c * (n - rest.length)) :
    Grown W c w (.ok v rest) n :=
  ⟨n - rest.length, by simp only [Res.left]; omega, hw⟩

theorem grown_err {v : α} {e : Err} {n : Nat} (hw : W v ≤ w + c * n) : Grown W c w (.err v e) n :=
  ⟨n, by simp only [Res.left]; omega, hw⟩

theorem Grown.mono {c' w' : Nat} {r : Res α} {n : Nat} (h : Grown W c w r n) (hc : c ≤ c') (hw : w ≤ w') :
    Grown W c' w' r n := by
  obtain ⟨k, h1, h2⟩ := h
  exact ⟨k, h1, by have := Nat.mul_le_mul_right k hc; omega⟩

/-- More bytes, of which the first have been read. -/
theorem Grown.more {r : Res α} {n n' : Nat} (h : Grown W c w r n) (hn : n ≤ n') : Grown W c w r n' := by
  obtain ⟨k, h1, h2⟩ := h
  exact ⟨k + (n' - n), by omega, by rw [Nat.mul_add]; omega⟩

theorem Grown.le {r : Res α} {n : Nat} (h : Grown W c w r n) : W r.target ≤ w + c * n := by
  obtain ⟨k, h1, h2⟩ := h
  have := Nat.mul_le_mul_left c (show k ≤ n by omega)
  omega

theorem left_map {β : Type} (f : α → β) (r : Res α) : (r.map f).left = r.left := by cases r <;> rfl

theorem Grown.map {β : Type} {W' : β → Nat} {f : α → β} {w' : Nat} {r : Res α} {n : Nat} (h : Grown W c w r n)
    (hf : ∀ v x, W v ≤ w + x → W' (f v) ≤ w' + x) : Grown W' c w' (r.map f) n := by
  obtain ⟨k, h1, h2⟩ := h
  exact ⟨k, by rw [left_map]; exact h1, by rw [target_map]; exact hf _ _ h2⟩

theorem grown_untilEof {step : α → Bytes → Res α} (h : ∀ v b bs, Grown W c (W v) (step v (b :: bs)) (b :: bs).length) :
    ∀ fuel v bs, Grown W c (W v) (untilEof step fuel v bs) bs.length := by
  intro fuel
  induction fuel with
  | zero =>
    intro v bs
    cases bs with
    | nil => exact grown_ok (by simp) (by omega)
    | cons b bs => exact grown_err (by omega)
  | succ n ih =>
    intro v bs
    cases bs with
    | nil => exact grown_ok (by simp) (by omega)
    | cons b bs =>
      have hs := h v b bs
      unfold untilEof
      revert hs
      cases step v (b :: bs) with
      | err v' e => exact id
      | ok v' rest =>
        rintro ⟨k, h1, h2⟩
        obtain ⟨k', h3, h4⟩ := ih v' rest
        refine ⟨k' + k, ?_, ?_⟩
        · simp only [Res.left] at h1; simp only []; omega
        · simp only [Res.target] at h2; rw [Nat.mul_add]; simp only []; omega

end

/-- What an implementation grows by: `c` for each byte read. -/
structure GrowLaw {α : Type} (d : Dict α) (W : α → Nat) (c : Nat) : Prop where
  dflt : W d.dflt ≤ c
  withRt : ∀ rt, W (d.withRuntime rt) ≤ c
  merge : ∀ m v bs, Grown W c (W v) (d.merge m v bs) bs.length
  pos : d.wire = .varint → ∀ m v b bs, Grown W c (W v) (d.merge m v (b :: bs)) bs.length
  posNil : d.wire = .varint → ∀ m v v' rest, d.merge m v [] ≠ .ok v' rest
  handle : ∀ m v path kind key bs, W (d.handle m v path kind key bs).target ≤ W v + c * (bs.length + 1)

theorem getVarint_consumes {m : Mode} {w : Nat} (hw : 8 ≤ w) {bs rest : Bytes} {x : BitVec w}
    (h : getVarint m w bs = .ok (x, rest)) : rest.length < bs.length := by
  obtain ⟨c, rfl, hc⟩ := (readsVarint_uint m hw).ok h
  have := hc.length_pos
  simp only [List.length_append]; omega

section
variable {α : Type} {d : Dict α} {W : α → Nat} {c : Nat}

/-- A nested value takes at least one byte. -/
theorem GrowLaw.nested (h : GrowLaw d W c) (m : Mode) (v : α) (wt : WireType) (b : Byte) (bs : Bytes) :
    Grown W c (W v) (d.mergeNested m v wt (b :: bs)) bs.length := by
  unfold Dict.mergeNested
  split
  · split
    · next rest hs =>
      have := (skipField_ok hs).2
      simp only [List.length_cons] at this
      exact grown_ok (by omega) (by omega)
    · exact grown_err (by omega)
  · next hwt =>
    have hwt : wt = d.wire := Classical.not_not.1 hwt
    split
    · exact h.pos hwt.symm m v b bs
    · unfold withNested
      split
      · exact grown_err (by omega)
      · next size rest hg =>
        have hlt := getVarint_consumes (by decide) hg
        simp only [List.length_cons] at hlt
        have hm := h.merge m v (rest.take size.toNat)
        have hl : (rest.take size.toNat).length + (rest.drop size.toNat).length = rest.length := by
          rw [← List.length_append, List.take_append_drop]
        revert hm
        cases d.merge m v (rest.take size.toNat) with
        | ok v' unread =>
          rintro ⟨k, h1, h2⟩
          simp only [Res.left] at h1
          refine Grown.more (n := rest.length) ⟨k, ?_, h2⟩ (by omega)
          simp only [Res.left, List.length_append]; omega
        | err v' e =>
          intro hm
          exact grown_err (Nat.le_trans hm.le (Nat.add_le_add_left (Nat.mul_le_mul_left c (by omega)) _))

theorem GrowLaw.nested_nil (h : GrowLaw d W c) (m : Mode) (v v' : α) (wt : WireType) (rest : Bytes) :
    d.mergeNested m v wt [] ≠ .ok v' rest := by
  unfold Dict.mergeNested
  split
  · split
    · next hs => have := (skipField_ok hs).2; simp at this
    · exact fun h => nomatch h
  · next hwt =>
    have hwt : wt = d.wire := Classical.not_not.1 hwt
    split
    · exact h.posNil hwt.symm m v v' rest
    · unfold withNested
      split
      · exact fun h => nomatch h
      · next hg => have := getVarint_consumes (by decide) hg; simp at this

theorem GrowLaw.nested_any (h : GrowLaw d W c) (m : Mode) (v : α) (wt : WireType) (bs : Bytes) :
    Grown W c (W v) (d.mergeNested m v wt bs) bs.length := by
  cases bs with
  | cons b bs => exact (h.nested m v wt b bs).more (by simp)
  | nil =>
    unfold Dict.mergeNested
    split
    · split
      · next hs => have := (skipField_ok hs).2; simp at this
      · exact grown_err (by omega)
    · split
      · exact h.merge m v []
      · unfold withNested
        split
        · exact grown_err (by omega)
        · next hg => have := getVarint_consumes (by decide) hg; simp at this

theorem GrowLaw.deserializeNested (h : GrowLaw d W c) {m : Mode} {wt : WireType} {bs rest : Bytes} {x : α}
    (he : d.deserializeNested m wt bs = .ok (x, rest)) :
    rest.length < bs.length ∧ W x ≤ c * (bs.length - rest.length) := by
  have hd := h.dflt
  unfold Dict.deserializeNested at he
  cases bs with
  | nil =>
    exfalso
    cases hm : d.mergeNested m d.dflt wt [] with
    | ok v r => exact h.nested_nil m _ _ _ _ hm
    | err v e => rw [hm] at he; cases he
  | cons b bs =>
    have hn := h.nested m d.dflt wt b bs
    revert hn he
    cases d.mergeNested m d.dflt wt (b :: bs) with
    | ok v r =>
      rintro he ⟨k, h1, h2⟩
      cases he
      simp only [Res.left] at h1
      refine ⟨by simp only [List.length_cons]; omega, ?_⟩
      have : (b :: bs).length - rest.length = k + 1 := by simp only [List.length_cons]; omega
      rw [this, Nat.mul_add, Nat.mul_one]
      simp only [Res.target] at h2
      omega
    | err v e => intro he; cases he

theorem grow_prim {α : Type} [DecidableEq α] {size : α → Nat} {put : α → Bytes}
    {get : Mode → Bytes → Except Err (α × Bytes)} {dflt : α} (hg : ∀ m, ReadsVarint m (get m)) :
    GrowLaw (primDict size put get dflt) (fun _ => 1) 1 := by
  have hm : ∀ (m : Mode) (v : α) (b : Byte) (bs : Bytes), Grown (fun _ : α => 1) 1 1 (match get m (b :: bs) with
      | .ok (v', rest) => Res.ok v' rest
      | .error e => Res.err v e) bs.length := by
    intro m v b bs
    split
    · next x rest hx =>
      obtain ⟨cc, he, hc⟩ := (hg m).ok hx
      have hp := hc.length_pos
      have := congrArg List.length he
      simp only [List.length_append, List.length_cons] at this
      exact grown_ok (by omega) (by omega)
    · exact grown_err (by omega)
  refine ⟨Nat.le_refl _, fun _ => Nat.le_refl _, fun m v bs => ?_, fun _ m v b bs => hm m v b bs,
    fun _ m v v' rest => ?_, fun m v path kind key bs => by show 1 ≤ _; omega⟩
  rotate_left
  · show (match get m [] with
      | .ok (v', rest) => Res.ok v' rest
      | .error e => Res.err v e) ≠ _
    split
    · next x rest hx =>
      obtain ⟨cc, he, hc⟩ := (hg m).ok hx
      have hp := hc.length_pos
      have := congrArg List.length he
      simp only [List.length_append, List.length_nil] at this
      omega
    · exact fun h => nomatch h
  cases bs with
  | cons b bs => exact (hm m v b bs).more (by simp)
  | nil =>
    show Grown _ _ _ (match get m [] with
      | .ok (v', rest) => Res.ok v' rest
      | .error e => Res.err v e) _
    split
    · next x rest hx =>
      obtain ⟨cc, he, hc⟩ := (hg m).ok hx
      have hp := hc.length_pos
      have := congrArg List.length he
      simp only [List.length_append, List.length_nil] at this
      omega
    · exact grown_err (by omega)

theorem grow_plain {ser : SerD α} {om : Mode → Loc → α → Option Nat → Prog Bool} {dflt : α}
    {merge : Mode → α → Bytes → Res α} (hd : W dflt ≤ c)
    (hm : ∀ m v bs, Grown W c (W v) (merge m v bs) bs.length) : GrowLaw (plainDict ser om dflt merge) W c :=
  ⟨hd, fun _ => hd, hm, fun h => (nomatch h), fun h => (nomatch h), fun m v _ _ _ bs => by show W v ≤ _; omega⟩

theorem grow_string : GrowLaw stringDict (fun v => 1 + v.bytes.length) 1 := by
  refine grow_plain (by simp) (fun m v bs => ?_)
  split
  · exact grown_ok (by simp) (by simp only [List.length_nil]; omega)
  · exact grown_err (by omega)

theorem grow_bytes : GrowLaw bytesDict (fun v => 1 + v.length) 1 :=
  grow_plain (by simp) (fun m v bs => grown_ok (by simp) (by simp only [List.length_nil, List.length_append]; omega))

theorem grow_vec (h : GrowLaw d W c) : GrowLaw (vecDict d) (fun v => 1 + (v.map W).sum) (1 + c) := by
  refine grow_plain (by simp) (fun m v bs => grown_untilEof (W := fun v : List α => 1 + (v.map W).sum)
    (fun v b bs => ?_) _ _ _)
  unfold vecStep
  split
  · next x rest he =>
    obtain ⟨h1, h2⟩ := h.deserializeNested he
    refine grown_ok (by omega) ?_
    simp only [List.map_append, List.sum_append, List.map_cons, List.map_nil, List.sum_cons, List.sum_nil, Nat.add_mul]
    omega
  · exact grown_err (by omega)

theorem grow_arrayLoop (h : GrowLaw d W c) (m : Mode) (todo : List α) : ∀ (done : List α) (bs : Bytes),
    Grown (fun v : { xs : List α // xs.length = done.length + todo.length } => 1 + (v.1.map W).sum) c
      (1 + (done.map W).sum + (todo.map W).sum) (arrayLoop d m done todo bs) bs.length := by
  induction todo with
  | nil =>
    intro done bs
    unfold arrayLoop
    exact grown_ok (by simp) (by simp)
  | cons t todo ih =>
    intro done bs
    cases bs with
    | nil =>
      unfold arrayLoop
      exact grown_ok (by simp) (by simp only [List.map_append, List.sum_append]; omega)
    | cons b bs =>
      unfold arrayLoop
      split
      · exact grown_err (by simp only [List.map_append, List.sum_append]; omega)
      · next y rest he =>
        obtain ⟨h1, h2⟩ := h.deserializeNested he
        obtain ⟨k, h3, h4⟩ := ih (done ++ [y]) rest
        refine ⟨k + ((b :: bs).length - rest.length), ?_, ?_⟩
        · rw [left_map]; simp only [List.length_cons] at h1 ⊢; omega
        · rw [target_map, Nat.mul_add]
          simp only [List.map_append, List.sum_append, List.map_cons, List.map_nil, List.sum_cons, List.sum_nil] at h4 ⊢
          omega

theorem grow_array (n : Nat) (h : GrowLaw d W c) :
    GrowLaw (arrayDict n d) (fun v => 1 + (v.1.map W).sum) (1 + (n + 1) * c) := by
  have hc : c ≤ 1 + (n + 1) * c := by rw [Nat.add_mul]; omega
  refine grow_plain ?_ (fun m v bs => ?_)
  · have : ∀ n, ((List.replicate n d.dflt).map W).sum ≤ n * c := by
      intro n
      induction n with
      | zero => simp
      | succ n ih =>
        have := h.dflt
        simp only [List.replicate_succ, List.map_cons, List.sum_cons, Nat.add_mul] at ih ⊢
        omega
    have := this n
    rw [Nat.add_mul]
    simp only []
    omega
  · have hl := grow_arrayLoop h m v.1 [] bs
    revert hl
    cases arrayLoop d m [] v.1 bs with
    | ok ys rest =>
      intro hl
      have hl := hl.le
      refine (grown_ok (c := c) (by simp) ?_ : Grown _ _ _ _ _).mono hc (Nat.le_refl _)
      simp only [Res.target, List.map_nil, List.sum_nil, List.length_nil] at hl ⊢
      exact hl
    | err ys e =>
      intro hl
      have hl := hl.le
      refine (grown_err (c := c) ?_ : Grown _ _ _ _ _).mono hc (Nat.le_refl _)
      simp only [Res.target, List.map_nil, List.sum_nil] at hl ⊢
      exact hl

theorem grow_option (h : GrowLaw d W c) :
    GrowLaw (optionDict d) (fun v => 1 + (v.toList.map W).sum) (1 + c) := by
  refine grow_plain (by simp) (fun m v bs => grown_untilEof (W := fun v : Option α => 1 + (v.toList.map W).sum)
    (fun v b bs => ?_) _ _ _)
  unfold optionStep
  have hn := h.nested m (v.getD d.dflt) d.wire b bs
  obtain ⟨k, h1, h2⟩ := hn
  refine ⟨k + 1, by rw [left_map]; simp only [List.length_cons]; omega, ?_⟩
  rw [target_map]
  have hd := h.dflt
  cases v with
  | none =>
    simp only [Option.getD_none, Option.toList_some, Option.toList_none, List.map_cons, List.map_nil, List.sum_cons,
      List.sum_nil, Nat.mul_add, Nat.add_mul] at h2 ⊢
    omega
  | some x =>
    simp only [Option.getD_some, Option.toList_some, List.map_cons, List.map_nil, List.sum_cons,
      List.sum_nil, Nat.mul_add, Nat.add_mul] at h2 ⊢
    omega

theorem grow_box (h : GrowLaw d W c) : GrowLaw (boxDict d) W c :=
  ⟨h.dflt, h.withRt, h.merge, h.pos, h.posNil, h.handle⟩

/-! ## Tuples and hash maps -/

/-- Of the components of a tuple. -/
structure TupleGrow {α : Type} (t : TupleD α) (W : α → Nat) (c : Nat) : Prop where
  dflt : W t.dflt ≤ c
  read : ∀ {m bs v rest}, t.read m bs = .ok (v, rest) → rest.length ≤ bs.length ∧ W v ≤ c * (bs.length - rest.length)

theorem tupleGrow_nil : TupleGrow tupleNil (fun _ => 0) 0 :=
  ⟨Nat.le_refl _, fun h => by cases h; exact ⟨Nat.le_refl _, Nat.zero_le _⟩⟩

theorem tupleGrow_cons {β : Type} {t : TupleD β} {V : β → Nat} {c' : Nat} (h : GrowLaw d W c) (ht : TupleGrow t V c') :
    TupleGrow (tupleCons d t) (fun v => W v.1 + V v.2) (c + c') := by
  refine ⟨by have := h.dflt; have := ht.dflt; simp only [tupleCons]; omega, ?_⟩
  intro m bs v rest he
  simp only [tupleCons] at he
  split at he
  · cases he
  · next x r hx =>
    split at he
    · cases he
    · next y r' hy =>
      cases he
      obtain ⟨h1, h2⟩ := h.deserializeNested hx
      obtain ⟨h3, h4⟩ := ht.read hy
      refine ⟨by omega, ?_⟩
      have e1 := Nat.mul_le_mul_left c (show bs.length - r.length ≤ bs.length - rest.length by omega)
      have e2 := Nat.mul_le_mul_left c' (show r.length - rest.length ≤ bs.length - rest.length by omega)
      rw [Nat.add_mul]
      simp only []
      omega

theorem grow_tuple {t : TupleD α} (h : TupleGrow t W c) : GrowLaw (tupleDict t) (fun v => 1 + W v) (1 + c) := by
  refine grow_plain (by have := h.dflt; omega) (fun m v bs => ?_)
  split
  · exact grown_err (by omega)
  · next v' r he =>
    obtain ⟨h1, h2⟩ := h.read he
    refine grown_ok (by simp) ?_
    have e1 := Nat.mul_le_mul_left c (show bs.length - r.length ≤ bs.length by omega)
    simp only [List.length_nil, Nat.add_mul, Nat.sub_zero]
    omega

theorem hashInsert_sum {κ ν : Type} {eq : κ → κ → Bool} (U : κ → Nat) (V : ν → Nat) (k : κ) (v : ν) :
    ∀ es : List (κ × ν), ((hashInsert eq k v es).map (fun e => U e.1 + V e.2)).sum ≤
      (es.map (fun e => U e.1 + V e.2)).sum + (U k + V v)
  | [] => by simp [hashInsert]
  | (k', v') :: es => by
    have ih := hashInsert_sum (eq := eq) U V k v es
    unfold hashInsert
    split
    · simp only [List.map_cons, List.sum_cons]; omega
    · simp only [List.map_cons, List.sum_cons]; omega

theorem grow_hashMap {κ ν : Type} {dk : Dict κ} {dv : Dict ν} {U : κ → Nat} {V : ν → Nat} {c c' : Nat}
    (eq : κ → κ → Bool) (hk : GrowLaw dk U c) (hv : GrowLaw dv V c') :
    GrowLaw (hashMapDict eq dk dv) (fun v => 1 + (v.map (fun e => U e.1 + V e.2)).sum) (1 + c + c') := by
  refine grow_plain (by simp; omega) (fun m v bs => grown_untilEof
    (W := fun v : List (κ × ν) => 1 + (v.map (fun e => U e.1 + V e.2)).sum) (fun v b bs => ?_) _ _ _)
  unfold hashMapStep
  split
  · exact grown_err (by omega)
  · next k r h1 =>
    split
    · exact grown_err (by omega)
    · next w r' h2 =>
      obtain ⟨a1, a2⟩ := hk.deserializeNested h1
      obtain ⟨b1, b2⟩ := hv.deserializeNested h2
      refine grown_ok (by omega) ?_
      have := hashInsert_sum (eq := eq) U V k w v
      have e1 := Nat.mul_le_mul_left c (show (b :: bs).length - r.length ≤ (b :: bs).length - r'.length by omega)
      have e2 := Nat.mul_le_mul_left c' (show r.length - r'.length ≤ (b :: bs).length - r'.length by omega)
      rw [Nat.add_mul, Nat.add_mul]
      omega

/-! ## `List` and `Map` -/

theorem grow_listMerge (h : GrowLaw d W c) (m : Mode) (v : ListV α) (bs : Bytes) :
    Grown (fun v : ListV α => 1 + (v.items.map W).sum) (1 + c) (1 + (v.items.map W).sum) (listMerge d m v bs)
      bs.length := by
  unfold listMerge
  refine grown_untilEof (W := fun v : ListV α => 1 + (v.items.map W).sum) (fun v b bs => ?_) _ _ _
  have hn := h.nested m (d.withRuntime (v.rt.nested (fieldNo v.items.length))) d.wire b bs
  have hw := h.withRt (v.rt.nested (fieldNo v.items.length))
  unfold listStep
  simp only []
  revert hn
  cases d.mergeNested m (d.withRuntime (v.rt.nested (fieldNo v.items.length))) d.wire (b :: bs) with
  | err y e => exact fun _ => grown_err (by omega)
  | ok y rest =>
    rintro ⟨k, h1, h2⟩
    refine ⟨k + 1, by simp only [Res.left, List.length_cons] at h1 ⊢; omega, ?_⟩
    simp only [Res.target, List.map_append, List.sum_append, List.map_cons, List.map_nil, List.sum_cons, List.sum_nil,
      Nat.add_mul, Nat.mul_add] at h2 ⊢
    omega

theorem sum_set_le (xs : List α) (i : Nat) (x : α) {y : α} {n : Nat} (hy : xs[i]? = some y) (h : W x ≤ W y + n) :
    ((xs.set i x).map W).sum ≤ (xs.map W).sum + n := by
  induction xs generalizing i with
  | nil => simp at hy
  | cons z xs ih =>
    cases i with
    | zero =>
      cases hy
      simp only [List.set_cons_zero, List.map_cons, List.sum_cons]; omega
    | succ i =>
      have := ih i hy
      simp only [List.set_cons_succ, List.map_cons, List.sum_cons]; omega

theorem sum_dropLast_le (xs : List α) : (xs.dropLast.map W).sum ≤ (xs.map W).sum := by
  induction xs with
  | nil => simp
  | cons x xs ih =>
    cases xs with
    | nil => simp
    | cons y ys => simp only [List.dropLast_cons_cons, List.map_cons, List.sum_cons] at ih ⊢; omega

theorem grow_list (h : GrowLaw d W c) : GrowLaw (listDict d) (fun v => 1 + (v.items.map W).sum) (1 + c) := by
  refine ⟨by simp [listDict], fun rt => by simp [listDict], fun m v bs => grow_listMerge h m v bs,
    fun h => (nomatch h), fun h => (nomatch h), ?_⟩
  intro m v path kind key bs
  show 1 + ((listHandle d m v path kind key bs).target.items.map W).sum ≤ _
  unfold listHandle
  cases path with
  | cons i rest =>
    simp only []
    cases hg : v.items[i.toNat]? with
    | none => simp only [Res.target]; omega
    | some y =>
      have hh := h.handle m y rest kind key bs
      simp only [target_map]
      have := sum_set_le v.items i.toNat _ hg hh
      rw [Nat.add_mul]
      omega
  | nil =>
    cases kind with
    | update =>
      have := (grow_listMerge h m ⟨v.rt, []⟩ bs).le
      simp only [List.map_nil, List.sum_nil, Nat.mul_add] at this ⊢
      omega
    | listPush =>
      have hn := (h.merge m (d.withRuntime (v.rt.nested (fieldNo v.items.length))) bs).le
      have hw := h.withRt (v.rt.nested (fieldNo v.items.length))
      simp only []
      revert hn
      cases d.merge m (d.withRuntime (v.rt.nested (fieldNo v.items.length))) bs with
      | err y e => intro _; simp only [Res.target]; omega
      | ok y rest =>
        intro hn
        simp only [Res.target, List.map_append, List.sum_append, List.map_cons, List.map_nil, List.sum_cons,
          List.sum_nil, Nat.add_mul, Nat.mul_add] at hn ⊢
        omega
    | listPop =>
      have := sum_dropLast_le (W := W) v.items
      simp only []
      split <;> simp only [Res.target] <;> omega
    | mapRemove => simp only [Res.target]; omega

/-- The size of a map's entries. -/
def entriesWeight (W : α → Nat) (es : List (U32 × α)) : Nat := (es.map (fun e => 1 + W e.2)).sum

theorem entriesInsert_sum (k : U32) (x : α) : ∀ es : List (U32 × α),
    entriesWeight W (entriesInsert k x es) ≤ entriesWeight W es + (1 + W x)
  | [] => by simp [entriesInsert, entriesWeight]
  | (k', v') :: es => by
    have ih := entriesInsert_sum k x es
    unfold entriesWeight at ih ⊢
    unfold entriesInsert
    split <;> simp only [List.map_cons, List.sum_cons] at ih ⊢ <;> omega

theorem entriesInsert_sum_some (k : U32) (x : α) {y : α} {n : Nat} (h : W x ≤ W y + n) : ∀ es : List (U32 × α),
    entriesGet k es = some y → entriesWeight W (entriesInsert k x es) ≤ entriesWeight W es + n
  | [], hy => by cases hy
  | (k', v') :: es, hy => by
    have ih := entriesInsert_sum_some k x h es
    unfold entriesWeight at ih ⊢
    unfold entriesInsert
    unfold entriesGet at hy
    split
    · rename_i hk
      rw [if_pos hk] at hy
      cases hy
      simp only [List.map_cons, List.sum_cons]; omega
    · rename_i hk
      rw [if_neg hk] at hy
      have := ih hy
      simp only [List.map_cons, List.sum_cons] at this ⊢; omega

theorem sublist_sum {xs ys : List α} (h : xs.Sublist ys) : (xs.map W).sum ≤ (ys.map W).sum := by
  induction h with
  | slnil => simp
  | cons a _ ih => simp only [List.map_cons, List.sum_cons]; omega
  | cons_cons a _ ih => simp only [List.map_cons, List.sum_cons]; omega

theorem entriesRemove_sum (k : U32) (es : List (U32 × α)) :
    entriesWeight W (entriesRemove k es) ≤ entriesWeight W es := by
  have drop : ∀ xs : List (U32 × α), entriesWeight W xs.dropLast ≤ entriesWeight W xs :=
    fun xs => sum_dropLast_le (W := fun e : U32 × α => 1 + W e.2) xs
  unfold entriesRemove
  split
  · exact Nat.le_refl _
  · next i hi =>
    split
    · exact drop es
    · next hne =>
      split
      · exact Nat.le_refl _
      · next last hl =>
        have hlt : i < es.length := by
          have := List.findIdx?_eq_some_iff_getElem.1 hi
          exact this.1
        have hp := set_last_dropLast_perm es i (by omega) last hl
        have h1 := ((hp.map (fun e : U32 × α => 1 + W e.2)).sum_nat)
        have h2 := sublist_sum (W := fun e : U32 × α => 1 + W e.2) (List.eraseIdx_sublist es i)
        unfold entriesWeight
        omega

theorem grow_mapMerge (kt : KeyTy) (h : GrowLaw d W c) (m : Mode) (v : MapV α) (bs : Bytes) :
    Grown (fun v : MapV α => 1 + entriesWeight W v.entries) (1 + c) (1 + entriesWeight W v.entries) (mapMerge kt d m v bs)
      bs.length := by
  unfold mapMerge
  refine grown_untilEof (W := fun v : MapV α => 1 + entriesWeight W v.entries) (fun v b bs => ?_) _ _ _
  unfold mapStep
  split
  · exact grown_err (by omega)
  · next k rest hk =>
    have hlt : rest.length < (b :: bs).length := by
      obtain ⟨cc, he, hc⟩ := readMapKey_ok' hk
      have := hc.length_pos
      rw [he, List.length_append]; omega
    split
    · next x hg =>
      obtain ⟨k', h1, h2⟩ := h.nested_any m x d.wire rest
      refine ⟨k' + ((b :: bs).length - rest.length), ?_, ?_⟩
      · rw [left_map]; omega
      · rw [target_map]
        have := entriesInsert_sum_some k _ h2 v.entries hg
        simp only [Nat.add_mul, Nat.mul_add]
        omega
    · have hw := h.withRt (v.rt.nested k)
      cases rest with
      | nil =>
        have hn := fun v' r => h.nested_nil m (d.withRuntime (v.rt.nested k)) v' d.wire r
        split
        · next he => exact absurd he (hn _ _)
        · exact grown_err (by omega)
      | cons b' rest =>
        have hn := h.nested m (d.withRuntime (v.rt.nested k)) d.wire b' rest
        revert hn
        cases d.mergeNested m (d.withRuntime (v.rt.nested k)) d.wire (b' :: rest) with
        | ok x r =>
          rintro ⟨k', h1, h2⟩
          refine ⟨k' + 1 + ((b :: bs).length - (b' :: rest).length), ?_, ?_⟩
          · simp only [Res.left, List.length_cons] at hlt h1 ⊢; omega
          · have := entriesInsert_sum (W := W) k x v.entries
            simp only [Res.target, Nat.add_mul, Nat.mul_add] at h2 ⊢
            omega
        | err x e => exact fun _ => grown_err (by omega)

theorem grow_map (kt : KeyTy) (h : GrowLaw d W c) :
    GrowLaw (mapDict kt d) (fun v => 1 + entriesWeight W v.entries) (1 + c) := by
  refine ⟨by simp [mapDict, entriesWeight], fun rt => by simp [mapDict, entriesWeight],
    fun m v bs => grow_mapMerge kt h m v bs, fun h => (nomatch h), fun h => (nomatch h), ?_⟩
  intro m v path kind key bs
  show 1 + entriesWeight W (mapHandle kt d m v path kind key bs).target.entries ≤ _
  unfold mapHandle
  cases path with
  | cons k rest =>
    simp only []
    cases hg : entriesGet k v.entries with
    | some x =>
      have hh := h.handle m x rest kind key bs
      simp only [target_map]
      have := entriesInsert_sum_some k _ hh v.entries hg
      rw [Nat.add_mul]
      omega
    | none =>
      simp only []
      split
      · have hn := (h.merge m (d.withRuntime (v.rt.nested k)) bs).le
        have hw := h.withRt (v.rt.nested k)
        revert hn
        cases d.merge m (d.withRuntime (v.rt.nested k)) bs with
        | ok x r =>
          intro hn
          have := entriesInsert_sum (W := W) k x v.entries
          simp only [Res.target, Nat.add_mul, Nat.mul_add] at hn ⊢
          omega
        | err x e => intro _; simp only [Res.target]; omega
      · simp only [Res.target]; omega
  | nil =>
    cases kind with
    | update =>
      have := (grow_mapMerge kt h m ⟨v.rt, []⟩ bs).le
      have he : entriesWeight W ([] : List (U32 × α)) = 0 := rfl
      simp only [he, Nat.mul_add] at this ⊢
      omega
    | mapRemove =>
      simp only []
      cases key with
      | none => simp only [Res.target]; omega
      | some key =>
        have := entriesRemove_sum (W := W) key v.entries
        simp only []
        split <;> simp only [Res.target] <;> omega
    | listPush => simp only [Res.target]; omega
    | listPop => simp only [Res.target]; omega

end

end Steit
