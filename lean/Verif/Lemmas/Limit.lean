import Verif.Lemmas.Wrap

/-! # The limit of 4 GiB -/

namespace Steit
open Spec Prog

/-! ## Debug builds do what release builds do, or panic -/

namespace Prog
variable {α β : Type}

/-- From every memory, `p` ends as `q` does, or panics. -/
def Follows (p q : Prog α) : Prop := ∀ μ, p.run μ = q.run μ ∨ (p.run μ).1 = .error .panic

theorem Follows.rfl' (p : Prog α) : Follows p p := fun _ => Or.inl rfl

theorem Follows.bind {p q : Prog α} {f g : α → Prog β} (h : Follows p q) (hf : ∀ a, Follows (f a) (g a)) :
    Follows (p >>= f) (q >>= g) := by
  intro μ
  rw [run_bind, run_bind]
  rcases h μ with h | h
  · rw [h]
    rcases q.run μ with ⟨e | a, μ'⟩
    · exact Or.inl rfl
    · exact hf a μ'
  · right
    generalize p.run μ = r at h ⊢
    obtain ⟨r, μ'⟩ := r
    simp only at h
    subst h
    rfl

theorem run_unwrap (p : Prog α) (μ : Mem) : p.unwrap.run μ =
    match p.run μ with
    | (.ok a, μ') => (.ok a, μ')
    | (.error _, μ') => (.error .panic, μ') := by
  induction p generalizing μ with
  | pure a => rfl
  | fail e => rfl
  | load l k ih => exact ih _ _
  | store l n k ih => exact ih _

theorem Follows.unwrap {p q : Prog α} (h : Follows p q) : Follows p.unwrap q.unwrap := by
  intro μ
  rw [run_unwrap, run_unwrap]
  rcases h μ with h | h
  · left; rw [h]
  · right
    generalize p.run μ = r at h ⊢
    obtain ⟨r, μ'⟩ := r
    simp only at h
    subst h
    rfl

theorem Follows.addU32 (a b : Nat) : Follows (addU32 .debug a b) (addU32 .release a b) := by
  intro μ
  unfold Prog.addU32
  split
  · exact Or.inl rfl
  · exact Or.inr rfl

end Prog

/-- What serialization does in debug builds follows what it does in release builds. -/
structure FollowsLaw {α : Type} (d : Dict α) : Prop where
  size : ∀ l v, Follows (d.computeSize .debug l v) (d.computeSize .release l v)
  ser : ∀ l v, Follows (d.serializeCached .debug l v) (d.serializeCached .release l v)
  om : ∀ l v o, Follows (d.isOmissible .debug l v o) (d.isOmissible .release l v o)

section
variable {α β : Type} {d : Dict α}

theorem follows_cached {s : SerD α} (h : ∀ l v, Follows (s.computeSize .debug l v) (s.computeSize .release l v)) (l : Loc)
    (v : α) : Follows (s.cachedSize .debug l v) (s.cachedSize .release l v) := by
  unfold SerD.cachedSize
  split
  · exact Follows.rfl' _
  · exact h l v

theorem FollowsLaw.bySize {d : Dict α} (hom : d.isOmissible = d.toSerD.isOmissibleBySize)
    (size : ∀ l v, Follows (d.computeSize .debug l v) (d.computeSize .release l v))
    (ser : ∀ l v, Follows (d.serializeCached .debug l v) (d.serializeCached .release l v)) : FollowsLaw d where
  size := size
  ser := ser
  om := by
    intro l v o
    rw [hom]
    cases o with
    | some n => exact Follows.rfl' _
    | none => exact Follows.bind (follows_cached size l v) (fun _ => Follows.rfl' _)

theorem FollowsLaw.cacheSize (h : FollowsLaw d) (l : Loc) (v : α) :
    Follows (d.cacheSize .debug l v) (d.cacheSize .release l v) :=
  Follows.bind (h.size l v) (fun _ => Follows.rfl' _)

theorem FollowsLaw.sizeNested (h : FollowsLaw d) (l : Loc) (v : α) (fn : Option U32) (om : Bool) :
    Follows (d.computeSizeNested .debug l v fn om) (d.computeSizeNested .release l v fn om) := by
  unfold Dict.computeSizeNested
  refine Follows.bind (h.cacheSize l v) (fun n => Follows.bind ?_ (fun b => ?_))
  · split
    · exact h.om _ _ _
    · exact Follows.rfl' _
  · split
    · exact Follows.rfl' _
    · refine Follows.bind ?_ (fun n => ?_)
      · split
        · exact Follows.rfl' _
        · exact Follows.addU32 _ _
      · split
        · exact Follows.rfl' _
        · exact Follows.bind (Follows.rfl' _) (fun _ => Follows.addU32 _ _)

theorem FollowsLaw.serNested (h : FollowsLaw d) (l : Loc) (v : α) (fn : Option U32) (om : Bool) :
    Follows (d.serializeNested .debug l v fn om) (d.serializeNested .release l v fn om) := by
  unfold Dict.serializeNested
  refine Follows.bind ?_ (fun b => ?_)
  · split
    · exact h.om _ _ _
    · exact Follows.rfl' _
  · split
    · exact Follows.rfl' _
    · refine Follows.bind (Follows.rfl' _) (fun _ => Follows.bind ?_ (fun _ => Follows.bind (h.ser l v) (fun _ => Follows.rfl' _)))
      split
      · exact Follows.rfl' _
      · exact Follows.bind (follows_cached h.size l v) (fun _ => Follows.rfl' _)

theorem follows_sizeItems (h : FollowsLaw d) (l : Loc) : ∀ (xs : List α) (i acc : Nat),
    Follows (sizeItems d .debug l i acc xs) (sizeItems d .release l i acc xs)
  | [], _, _ => Follows.rfl' _
  | x :: xs, i, acc => Follows.bind (h.sizeNested _ _ _ _).unwrap
      (fun _ => Follows.bind (Follows.addU32 _ _) (fun _ => follows_sizeItems h l xs _ _))

theorem follows_serializeItems (h : FollowsLaw d) (l : Loc) : ∀ (xs : List α) (i : Nat),
    Follows (serializeItems d .debug l i xs) (serializeItems d .release l i xs)
  | [], _ => Follows.rfl' _
  | x :: xs, i => Follows.bind (h.serNested _ _ _ _)
      (fun _ => Follows.bind (follows_serializeItems h l xs _) (fun _ => Follows.rfl' _))

theorem follows_sizeMapEntries (h : FollowsLaw d) (l : Loc) : ∀ (xs : List (U32 × α)) (i acc : Nat),
    Follows (sizeMapEntries d .debug l i acc xs) (sizeMapEntries d .release l i acc xs)
  | [], _, _ => Follows.rfl' _
  | (_, x) :: xs, i, acc => Follows.bind (h.sizeNested _ _ _ _).unwrap
      (fun _ => Follows.bind (Follows.addU32 _ _) (fun _ => follows_sizeMapEntries h l xs _ _))

theorem follows_serializeMapEntries (h : FollowsLaw d) (l : Loc) : ∀ (xs : List (U32 × α)) (i : Nat),
    Follows (serializeMapEntries d .debug l i xs) (serializeMapEntries d .release l i xs)
  | [], _ => Follows.rfl' _
  | (_, x) :: xs, i => Follows.bind (h.serNested _ _ _ _)
      (fun _ => Follows.bind (follows_serializeMapEntries h l xs _) (fun _ => Follows.rfl' _))

theorem follows_sizeEntries {dk : Dict α} {dv : Dict β} (hk : FollowsLaw dk) (hv : FollowsLaw dv) (l : Loc) :
    ∀ (xs : List (α × β)) (i acc : Nat),
    Follows (sizeEntries dk dv .debug l i acc xs) (sizeEntries dk dv .release l i acc xs)
  | [], _, _ => Follows.rfl' _
  | (_, _) :: xs, i, acc => Follows.bind (hk.sizeNested _ _ _ _).unwrap
      (fun _ => Follows.bind (Follows.addU32 _ _) (fun _ => Follows.bind (hv.sizeNested _ _ _ _).unwrap
      (fun _ => Follows.bind (Follows.addU32 _ _) (fun _ => follows_sizeEntries hk hv l xs _ _))))

theorem follows_serializeEntries {dk : Dict α} {dv : Dict β} (hk : FollowsLaw dk) (hv : FollowsLaw dv) (l : Loc) :
    ∀ (xs : List (α × β)) (i : Nat),
    Follows (serializeEntries dk dv .debug l i xs) (serializeEntries dk dv .release l i xs)
  | [], _ => Follows.rfl' _
  | (_, _) :: xs, i => Follows.bind (hk.serNested _ _ _ _) (fun _ => Follows.bind (hv.serNested _ _ _ _)
      (fun _ => Follows.bind (follows_serializeEntries hk hv l xs _) (fun _ => Follows.rfl' _)))

end

mutual
theorem followsLaw : (t : Ty) → FollowsLaw t.dict
  | .uint _ => ⟨fun _ _ => Follows.rfl' _, fun _ _ => Follows.rfl' _, fun _ _ _ => Follows.rfl' _⟩
  | .sint _ => ⟨fun _ _ => Follows.rfl' _, fun _ _ => Follows.rfl' _, fun _ _ _ => Follows.rfl' _⟩
  | .bool => ⟨fun _ _ => Follows.rfl' _, fun _ _ => Follows.rfl' _, fun _ _ _ => Follows.rfl' _⟩
  | .string => ⟨fun _ _ => Follows.rfl' _, fun _ _ => Follows.rfl' _, fun _ _ _ => Follows.rfl' _⟩
  | .bytes => FollowsLaw.bySize rfl (fun _ _ => Follows.rfl' _) (fun _ _ => Follows.rfl' _)
  | .vec t => FollowsLaw.bySize rfl (fun l v => follows_sizeItems (followsLaw t) l v 0 0)
      (fun l v => follows_serializeItems (followsLaw t) l v 0)
  | .array _ t => FollowsLaw.bySize rfl (fun l v => follows_sizeItems (followsLaw t) l v.1 0 0)
      (fun l v => follows_serializeItems (followsLaw t) l v.1 0)
  | .list t => FollowsLaw.bySize rfl (fun l v => follows_sizeItems (followsLaw t) l v.items 0 0)
      (fun l v => follows_serializeItems (followsLaw t) l v.items 0)
  | .map _ t => FollowsLaw.bySize rfl (fun l v => follows_sizeMapEntries (followsLaw t) l v.entries 0 0)
      (fun l v => follows_serializeMapEntries (followsLaw t) l v.entries 0)
  | .hashMap k w => FollowsLaw.bySize rfl (fun l v => follows_sizeEntries (followsLaw k) (followsLaw w) l v 0 0)
      (fun l v => follows_serializeEntries (followsLaw k) (followsLaw w) l v 0)
  | .option t => FollowsLaw.bySize rfl
      (fun l v => match v with
        | none => Follows.rfl' _
        | some _ => ((followsLaw t).sizeNested _ _ _ _).unwrap)
      (fun l v => match v with
        | none => Follows.rfl' _
        | some _ => (followsLaw t).serNested _ _ _ _)
  | .box t => FollowsLaw.bySize rfl (followsLaw t).size (followsLaw t).ser
  | .tuple ts => FollowsLaw.bySize rfl (fun l v => (followsTuple ts).1 l 0 0 v) (fun l v => (followsTuple ts).2 l 0 v)
  | .struct ds _ fs => by
    have h := followsFields fs ds
    cases ds
    all_goals exact FollowsLaw.bySize rfl (fun l v => h.1 l 0 0 v.fields) (fun l v => h.2 l 0 v.fields)
  | .enum ds _ fs vs => by
    have h := followsFields fs ds
    have h' := followsVariants vs ds
    cases ds
    all_goals
      refine FollowsLaw.bySize rfl (fun l v => Follows.bind (Follows.addU32 _ _) (fun n => ?_))
        (fun l v => Follows.bind ?_ (fun _ => Follows.rfl' _))
      all_goals
        rcases v with ⟨rt, x | x⟩
        first | exact h.1 l 0 _ x | exact h.2 l 0 x
        first | exact h'.1 l _ x | exact h'.2 l x

theorem followsTuple : (ts : Tys) →
    (∀ l i n v, Follows (ts.dict.sizes .debug l i n v) (ts.dict.sizes .release l i n v)) ∧
    (∀ l i v, Follows (ts.dict.serialize .debug l i v) (ts.dict.serialize .release l i v))
  | .nil => ⟨fun _ _ _ _ => Follows.rfl' _, fun _ _ _ => Follows.rfl' _⟩
  | .cons t ts =>
    ⟨fun l i _ v => Follows.bind ((followsLaw t).sizeNested _ _ _ _).unwrap
      (fun _ => Follows.bind (Follows.addU32 _ _) (fun _ => (followsTuple ts).1 l (i + 1) _ v.2)),
    fun l i v => Follows.bind ((followsLaw t).serNested _ _ _ _)
      (fun _ => Follows.bind ((followsTuple ts).2 l (i + 1) v.2) (fun _ => Follows.rfl' _))⟩

theorem followsFields : (fs : Fields) → (ds : Bool) →
    (∀ l i n v, Follows ((fs.dict ds).sizes .debug l i n v) ((fs.dict ds).sizes .release l i n v)) ∧
    (∀ l i v, Follows ((fs.dict ds).serialize .debug l i v) ((fs.dict ds).serialize .release l i v))
  | .nil, _ => ⟨fun _ _ _ _ => Follows.rfl' _, fun _ _ _ => Follows.rfl' _⟩
  | .cons _ _ t fs, ds =>
    ⟨fun l i _ v => Follows.bind ((followsLaw t).sizeNested _ _ _ _).unwrap
      (fun _ => Follows.bind (Follows.addU32 _ _) (fun _ => (followsFields fs ds).1 l (i + 1) _ v.2)),
    fun l i v => Follows.bind ((followsLaw t).serNested _ _ _ _)
      (fun _ => Follows.bind ((followsFields fs ds).2 l (i + 1) v.2) (fun _ => Follows.rfl' _))⟩

theorem followsVariants : (vs : Variants) → (ds : Bool) →
    (∀ l n v, Follows ((vs.dict ds).sizes .debug l n v) ((vs.dict ds).sizes .release l n v)) ∧
    (∀ l v, Follows ((vs.dict ds).serialize .debug l v) ((vs.dict ds).serialize .release l v))
  | .nil, _ => ⟨fun _ _ v => (nomatch v), fun _ v => (nomatch v)⟩
  | .cons _ _ fs vs, ds =>
    ⟨fun l n v => match v with
      | .inl x => (followsFields fs ds).1 l 0 n x
      | .inr x => (followsVariants vs ds).1 l n x,
    fun l v => match v with
      | .inl x => (followsFields fs ds).2 l 0 x
      | .inr x => (followsVariants vs ds).2 l x⟩
end

theorem follows_toBytes (t : Ty) (v : t.El) : Follows (t.dict.toBytes .debug v) (t.dict.toBytes .release v) :=
  (Follows.bind ((followsLaw t).cacheSize [] v) (fun _ => (followsLaw t).ser [] v)).unwrap

/-! ## Debug builds panic exactly above the limit -/

/-- `n` if it fits in 32 bits, a panic otherwise. -/
def limit (n : Nat) : Except Err Nat := if n < 2 ^ 32 then .ok n else .error .panic

namespace Prog
variable {α β : Type}

/-- The program ends with `r`, whatever the caches hold. -/
def Gives (p : Prog α) (r : Except Err α) : Prop := ∀ μ, (p.run μ).1 = r

theorem Gives.bind {p : Prog α} {f : α → Prog β} {a : α} {r : Except Err β} (h : Gives p (.ok a)) (hf : Gives (f a) r) :
    Gives (p >>= f) r := by
  intro μ
  rw [run_bind]
  have := h μ
  generalize p.run μ = s at this ⊢
  obtain ⟨s, μ'⟩ := s
  simp only at this
  subst this
  exact hf μ'

theorem Gives.bind_error {p : Prog α} {f : α → Prog β} {e : Err} (h : Gives p (.error e)) :
    Gives (p >>= f) (.error e) := by
  intro μ
  rw [run_bind]
  have := h μ
  generalize p.run μ = s at this ⊢
  obtain ⟨s, μ'⟩ := s
  simp only at this
  subst this
  rfl

theorem Gives.unwrap {p : Prog Nat} {n : Nat} (h : Gives p (limit n)) : Gives p.unwrap (limit n) := by
  intro μ
  rw [run_unwrap]
  have := h μ
  generalize p.run μ = s at this ⊢
  obtain ⟨s, μ'⟩ := s
  simp only at this
  subst this
  by_cases hn : n < 2 ^ 32
  · simp [limit, hn]
  · simp [limit, hn]

theorem Gives.addU32 (a b : Nat) : Gives (addU32 .debug a b) (limit (a + b)) := by
  intro μ
  unfold Prog.addU32 limit
  split <;> rfl

theorem Gives.of_sound {σ : CellMap} {K : Loc → Prop} {p : Prog α} {a : α} (h : Sound σ K p (fun _ x => x = a))
    (hK : ∀ l, ¬ K l) : Gives p (.ok a) := by
  intro μ
  obtain ⟨_, x, rfl, h2, _⟩ := h.run (μ := μ) (fun l hl => (hK l hl).elim)
  exact h2

/-- First a size, then a sum of it and more: over the limit as soon as the first is. -/
theorem Gives.limit_bind {p : Prog Nat} {f : Nat → Prog Nat} {a n : Nat} (h : Gives p (limit a)) (hle : a ≤ n)
    (hf : a < 2 ^ 32 → Gives (f a) (limit n)) : Gives (p >>= f) (limit n) := by
  by_cases ha : a < 2 ^ 32
  · rw [limit, if_pos ha] at h
    exact Gives.bind h (hf ha)
  · have h1 : limit a = .error .panic := by rw [limit, if_neg ha]
    have h2 : limit n = .error .panic := by rw [limit, if_neg (by omega)]
    rw [h1] at h
    rw [h2]
    exact Gives.bind_error h

end Prog

theorem limit_of_lt {n : Nat} (h : n < 2 ^ 32) : limit n = .ok n := by rw [limit, if_pos h]

theorem framedSize_ge (w n : Nat) : n ≤ framedSize w n := by
  unfold framedSize; split <;> omega

/-- The omission test, given the size. -/
theorem summed_omit : (t : Ty) → ∀ l v,
    Gives (t.dict.isOmissible .debug l v (some (summed t v))) (.ok (leftOutSize t v (summed t v)))
  | .uint w, l, v => fun μ => by
    show Except.ok (decide (v = 0#w.bits)) = Except.ok (v == 0)
    simp; rfl
  | .sint w, l, v => fun μ => by
    show Except.ok (decide (v = 0#w.bits)) = Except.ok (v == 0)
    simp; rfl
  | .bool, l, v => fun μ => by cases v <;> rfl
  | .string, _, _ => fun _ => rfl
  | .bytes, _, _ => fun _ => rfl
  | .vec _, _, _ => fun _ => rfl
  | .array _ _, _, _ => fun _ => rfl
  | .tuple _, _, _ => fun _ => rfl
  | .option _, _, _ => fun _ => rfl
  | .box _, _, _ => fun _ => rfl
  | .hashMap _ _, _, _ => fun _ => rfl
  | .list _, _, _ => fun _ => rfl
  | .map _ _, _, _ => fun _ => rfl
  | .struct ds _ _, _, _ => fun _ => by cases ds <;> rfl
  | .enum ds _ _ _, _, _ => fun _ => by cases ds <;> rfl

theorem summed_prim_uint (w : Width) (v : BitVec w.bits) : (leb v.toNat).length < 2 ^ 32 :=
  leb_length_small _ _ v.isLt w.bits_le

theorem summed_prim_sint (w : Width) (v : BitVec w.bits) : (leb (zigzagNat v.toInt)).length < 2 ^ 32 := by
  have hw := w.le_bits
  rw [← zigzag_toNat (by omega)]; exact leb_length_small _ _ (zigzag v).isLt w.bits_le

theorem summed_prim_bool (v : Bool) : (leb v.toNat).length < 2 ^ 32 :=
  leb_length_small _ 32 (by cases v <;> decide) (by decide)

theorem summed_small (t : Ty) (v : t.El) (h : leftOutSize t v (summed t v) = true) : summed t v < 2 ^ 32 := by
  have h0 : ∀ {n : Nat}, (n == 0) = true → n < 2 ^ 32 := fun h => by
    rw [beq_iff_eq] at h; rw [h]; decide
  cases t with
  | uint w => exact summed_prim_uint w v
  | sint w => exact summed_prim_sint w v
  | bool => exact summed_prim_bool v
  | string => exact Nat.mod_lt _ (by decide)
  | _ => exact h0 h

theorem wire_num (t : Ty) (ht : t.WF) : t.dict.wire.num = wireOf t := (serLaw t ht).wire_eq

section
variable {α : Type} {d : Dict α}

theorem gives_cacheSize {l : Loc} {v : α} {n : Nat} (h : Gives (d.computeSize .debug l v) (limit n)) :
    Gives (d.cacheSize .debug l v) (limit n) := by
  unfold SerD.cacheSize
  refine Gives.limit_bind h (Nat.le_refl _) (fun hn => ?_)
  rw [limit_of_lt hn]
  split
  · intro μ; rfl
  · intro μ; rfl

end

/-- Size of a field or nested value. -/
def nestedSize (wire : Nat) (fieldNumber : Option U32) (omissible lo : Bool) (n : Nat) : Nat :=
  match fieldNumber with
  | none => framedSize wire n
  | some k => if omissible && lo then 0 else (leb (k.toNat * 8 + wire)).length + framedSize wire n

theorem gives_sizeNested {t : Ty} (ht : t.WF) {l : Loc} {v : t.El} (fn : Option U32) (om : Bool)
    (hfn : ∀ n ∈ fn, n.toNat < 2 ^ 29) (h : Gives (t.dict.computeSize .debug l v) (limit (summed t v))) :
    Gives (t.dict.computeSizeNested .debug l v fn om)
      (limit (nestedSize (wireOf t) fn om (leftOutSize t v (summed t v)) (summed t v))) := by
  have hwire := wire_num t ht
  have hlo := summed_small t v
  unfold Dict.computeSizeNested
  by_cases hlen : summed t v < 2 ^ 32
  · have hc := gives_cacheSize h
    rw [limit_of_lt hlen] at hc
    refine Gives.bind hc (Gives.bind (a := fn.isSome && om && leftOutSize t v (summed t v)) ?_ ?_)
    · split
      · next hb =>
        simp only [Bool.and_eq_true] at hb
        rw [hb.1, hb.2]
        exact summed_omit t l v
      · next hb =>
        simp only [Bool.not_eq_true] at hb
        rw [hb]; intro μ; rfl
    · split
      · next hb =>
        simp only [Bool.and_eq_true] at hb
        cases fn with
        | none => simp at hb
        | some n => simp only [nestedSize, hb.1.2, hb.2]; intro μ; rfl
      · next hb =>
        have hframe : nestedSize (wireOf t) fn om (leftOutSize t v (summed t v)) (summed t v) =
            (keyBytes (wireOf t) fn).length + framedSize (wireOf t) (summed t v) := by
          cases fn with
          | none => simp [nestedSize, keyBytes]
          | some n => simp only [nestedSize, keyBytes]; rw [if_neg]; simpa using hb
        rw [hframe]
        refine Gives.limit_bind (a := framedSize (wireOf t) (summed t v)) ?_ (by omega) (fun hf => ?_)
        · cases hwt : t.dict.wire with
          | varint =>
            rw [hwt] at hwire
            have : framedSize (wireOf t) (summed t v) = summed t v := by simp [framedSize, ← hwire, WireType.num]
            rw [this, limit_of_lt hlen]
            intro μ; rfl
          | sized =>
            rw [hwt] at hwire
            have : framedSize (wireOf t) (summed t v) = summed t v + (leb (summed t v)).length := by
              unfold framedSize; rw [if_neg (by rw [← hwire]; decide), Nat.add_comm]
            rw [this]
            simp only
            rw [size_eq_leb _ hlen]
            exact Gives.addU32 _ _
        · cases fn with
          | none =>
            simp only [keyBytes, List.length_nil, Nat.zero_add, limit_of_lt hf]
            intro μ; rfl
          | some n =>
            obtain ⟨tag, ht, htn⟩ := mkTag_ok n t.dict.wire (hfn n rfl)
            simp only [ht, hwire] at htn ⊢
            show Gives (Prog.addU32 .debug (framedSize (wireOf t) (summed t v)) (u32Size tag)) _
            rw [u32Size_eq, htn, Nat.add_comm (keyBytes (wireOf t) (some n)).length]
            exact Gives.addU32 _ _
  · have hlo' : leftOutSize t v (summed t v) = false := by
      cases hb : leftOutSize t v (summed t v) with
      | false => rfl
      | true => exact absurd (hlo hb) hlen
    refine Gives.limit_bind (gives_cacheSize h) ?_ (fun h => absurd h hlen)
    have := framedSize_ge (wireOf t) (summed t v)
    cases fn with
    | none => exact this
    | some n => simp only [nestedSize, hlo', Bool.and_false, Bool.false_eq_true, if_false]; omega

theorem limit_items {t : Ty} (ht : t.WF) (l : Loc) : ∀ (xs : List t.El) (i acc : Nat), acc < 2 ^ 32 →
    (∀ x ∈ xs, ∀ l, Gives (t.dict.computeSize .debug l x) (limit (summed t x))) →
    Gives (sizeItems t.dict .debug l i acc xs) (limit (acc + (xs.map (fun x => framedSize (wireOf t) (summed t x))).sum))
  | [], _, acc, hacc, _ => by
    simp only [List.map_nil, List.sum_nil, Nat.add_zero, limit_of_lt hacc]
    intro μ; rfl
  | x :: xs, i, acc, hacc, h => by
    simp only [List.map_cons, List.sum_cons]
    refine Gives.limit_bind (gives_sizeNested ht none false (by simp) (h x (by simp) _)).unwrap
      (by simp only [nestedSize]; omega) (fun h1 => ?_)
    refine Gives.limit_bind (Gives.addU32 _ _) (by simp only [nestedSize]; omega) (fun h2 => ?_)
    simp only [nestedSize] at h2 ⊢
    rw [← Nat.add_assoc]
    exact limit_items ht l xs (i + 1) _ h2 (fun y hy => h y (by simp [hy]))

theorem limit_mapEntries {t : Ty} (ht : t.WF) (l : Loc) : ∀ (es : List (U32 × t.El)) (i acc : Nat), acc < 2 ^ 32 →
    (∀ e ∈ es, e.1.toNat < 2 ^ 29 ∧ ∀ l, Gives (t.dict.computeSize .debug l e.2) (limit (summed t e.2))) →
    Gives (sizeMapEntries t.dict .debug l i acc es) (limit (acc +
      (es.map (fun e => (leb (e.1.toNat * 8 + wireOf t)).length + framedSize (wireOf t) (summed t e.2))).sum))
  | [], _, acc, hacc, _ => by
    simp only [List.map_nil, List.sum_nil, Nat.add_zero, limit_of_lt hacc]
    intro μ; rfl
  | (k, x) :: es, i, acc, hacc, h => by
    have hs := gives_sizeNested ht (l := l ++ [i]) (some k) false
      (by intro n hn; cases hn; exact (h (k, x) (by simp)).1) ((h (k, x) (by simp)).2 _)
    simp only [nestedSize, Bool.false_and, Bool.false_eq_true, if_false] at hs
    simp only [List.map_cons, List.sum_cons]
    refine Gives.limit_bind hs.unwrap (by omega) (fun h1 => ?_)
    refine Gives.limit_bind (Gives.addU32 _ _) (by omega) (fun h2 => ?_)
    rw [← Nat.add_assoc acc (_ + _)]
    exact limit_mapEntries ht l es (i + 1) _ h2 (fun y hy => h y (by simp [hy]))

theorem limit_entries {k w : Ty} (hk : k.WF) (hw : w.WF) (l : Loc) : ∀ (es : List (k.El × w.El)) (i acc : Nat),
    acc < 2 ^ 32 →
    (∀ e ∈ es, (∀ l, Gives (k.dict.computeSize .debug l e.1) (limit (summed k e.1))) ∧
      ∀ l, Gives (w.dict.computeSize .debug l e.2) (limit (summed w e.2))) →
    Gives (sizeEntries k.dict w.dict .debug l i acc es) (limit (acc +
      (es.map (fun e => framedSize (wireOf k) (summed k e.1) + framedSize (wireOf w) (summed w e.2))).sum))
  | [], _, acc, hacc, _ => by
    simp only [List.map_nil, List.sum_nil, Nat.add_zero, limit_of_lt hacc]
    intro μ; rfl
  | (a, x) :: es, i, acc, hacc, h => by
    have hh := h (a, x) (by simp)
    simp only [List.map_cons, List.sum_cons]
    refine Gives.limit_bind (gives_sizeNested hk none false (by simp) (hh.1 _)).unwrap
      (by simp only [nestedSize]; omega) (fun h1 => ?_)
    refine Gives.limit_bind (Gives.addU32 _ _) (by simp only [nestedSize]; omega) (fun h2 => ?_)
    refine Gives.limit_bind (gives_sizeNested hw none false (by simp) (hh.2 _)).unwrap
      (by simp only [nestedSize]; omega) (fun h3 => ?_)
    refine Gives.limit_bind (Gives.addU32 _ _) (by simp only [nestedSize]; omega) (fun h4 => ?_)
    simp only [nestedSize] at h4 ⊢
    rw [← Nat.add_assoc, ← Nat.add_assoc]
    exact limit_entries hk hw l es (i + 1) _ h4 (fun y hy => h y (by simp [hy]))

theorem addU32_tag (t : U32) : Prog.addU32 .debug 0 (u32Size t) = Prog.pure (u32Size t) := by
  have : u32Size t < 2 ^ 32 := by rw [u32Size_eq]; exact leb_length_small _ 32 t.isLt (by decide)
  unfold Prog.addU32; rw [if_pos (by omega), Nat.zero_add]

mutual
theorem limitLaw : (t : Ty) → t.WF → ∀ v, Writable t v → ∀ l,
    Gives (t.dict.computeSize .debug l v) (limit (summed t v))
  | .uint w, h, v, _, l => by
    show Gives _ (limit (leb v.toNat).length)
    rw [limit_of_lt (summed_prim_uint w v)]
    exact Gives.of_sound (σ := cellsOf (.uint w) v) (K := fun _ => False)
      (((serLaw (.uint w) h).size .debug l v _ _ trivial (summed_prim_uint w v) (fun _ => rfl)).weaken
        (fun _ _ _ q => q.1)) (fun _ h => h)
  | .sint w, h, v, _, l => by
    show Gives _ (limit (leb (zigzagNat v.toInt)).length)
    rw [limit_of_lt (summed_prim_sint w v)]
    exact Gives.of_sound (σ := cellsOf (.sint w) v) (K := fun _ => False)
      (((serLaw (.sint w) h).size .debug l v _ _ trivial (summed_prim_sint w v) (fun _ => rfl)).weaken
        (fun _ _ _ q => q.1)) (fun _ h => h)
  | .bool, h, v, _, l => by
    show Gives _ (limit (leb v.toNat).length)
    rw [limit_of_lt (summed_prim_bool v)]
    exact Gives.of_sound (σ := cellsOf .bool v) (K := fun _ => False)
      (((serLaw .bool h).size .debug l v _ _ trivial (summed_prim_bool v) (fun _ => rfl)).weaken
        (fun _ _ _ q => q.1)) (fun _ h => h)
  | .string, _, v, _, l => by
    show Gives (Pure.pure (v.bytes.length % 2 ^ 32)) (limit (v.bytes.length % 2 ^ 32))
    rw [limit_of_lt (Nat.mod_lt _ (by decide))]
    intro μ; rfl
  | .bytes, _, v, _, l => by
    show Gives (Pure.pure (v.length % 2 ^ 32)) (limit (v.length % 2 ^ 32))
    rw [limit_of_lt (Nat.mod_lt _ (by decide))]
    intro μ; rfl
  | .vec t, h, v, hw, l => by
    have := limit_items (t := t) h l v 0 0 (by decide) (fun x hx l => limitLaw t h x (hw x hx) l)
    rw [Nat.zero_add] at this
    exact this
  | .array n t, h, v, hw, l => by
    have := limit_items h.2.2 l v.1 0 0 (by decide) (fun x hx l => limitLaw t h.2.2 x (hw x hx) l)
    rw [Nat.zero_add] at this
    exact this
  | .list t, h, v, hw, l => by
    have := limit_items h.2 l v.items 0 0 (by decide) (fun x hx l => limitLaw t h.2 x (hw x hx) l)
    rw [Nat.zero_add] at this
    exact this
  | .map kt t, h, v, hw, l => by
    have := limit_mapEntries h.2 l v.entries 0 0 (by decide)
      (fun e he => ⟨(hw e he).1, fun l => limitLaw t h.2 e.2 (hw e he).2 l⟩)
    rw [Nat.zero_add] at this
    exact this
  | .hashMap k w, h, v, hw, l => by
    have := limit_entries h.1 h.2 l v 0 0 (by decide)
      (fun e he => ⟨fun l => limitLaw k h.1 e.1 (hw e he).1 l, fun l => limitLaw w h.2 e.2 (hw e he).2 l⟩)
    rw [Nat.zero_add] at this
    exact this
  | .option t, h, none, hw, l => by
    show Gives (Pure.pure 0) (limit 0)
    rw [limit_of_lt (by decide)]; intro μ; rfl
  | .option t, h, some x, hw, l => by
    have := (gives_sizeNested (t := t) h (l := l ++ [0]) none false (by simp) (limitLaw t h x (hw x rfl) _)).unwrap
    have he : summed (.option t) (some x) = framedSize (wireOf t) (summed t x) := by simp [summed]
    rw [he]
    exact this
  | .box t, h, v, hw, l => limitLaw t h v hw l
  | .tuple ts, h, v, hw, l => by
    have := limitTuple ts h.2.2 v hw l 0 0 (by decide)
    rw [Nat.zero_add] at this
    exact this
  | .struct ds c fs, h, v, hw, l => by
    have := limitFields fs ds h.2 v.fields hw l 0 0 (by decide)
    rw [Nat.zero_add] at this
    cases ds <;> exact this
  | .enum ds c fs vs, h, ⟨rt, .inl x⟩, hw, l => by
    have h1 := limitFields fs ds h.2.1 x hw l 0 (u32Size 0#32) (by decide)
    have h2 : u32Size 0#32 = (leb 0).length := by rw [u32Size_eq]; rfl
    have h3 : summed (.enum ds c fs vs) ⟨rt, .inl x⟩ = u32Size 0#32 + summedFields fs x := by
      rw [h2]; simp [summed]
    rw [h3]
    cases ds <;> exact Gives.bind (a := u32Size 0#32) (fun μ => by
      show (Prog.run (Prog.addU32 .debug 0 (u32Size 0#32)) μ).1 = _
      rw [addU32_tag]; rfl) h1
  | .enum ds c fs vs, h, ⟨rt, .inr x⟩, hw, l => by
    have h1 := limitVariant vs ds h.2.2.2.2 x hw l
    cases ds <;> exact Gives.bind (a := u32Size ((vs.dict _).tagOf x)) (fun μ => by
      show (Prog.run (Prog.addU32 .debug 0 (u32Size ((vs.dict _).tagOf x))) μ).1 = _
      rw [addU32_tag]; rfl) h1

theorem limitTuple : (ts : Tys) → ts.WF → ∀ v, WritableTuple ts v → ∀ l i acc,
    acc < 2 ^ 32 → Gives (ts.dict.sizes .debug l i acc v) (limit (acc + summedTuple ts v))
  | .nil, _, v, _, l, i, acc, hacc => by
    show Gives (Pure.pure acc) (limit (acc + 0))
    rw [Nat.add_zero, limit_of_lt hacc]; intro μ; rfl
  | .cons t ts, h, v, hw, l, i, acc, hacc => by
    simp only [summedTuple]
    refine Gives.limit_bind (gives_sizeNested h.1 none false (by simp) (limitLaw t h.1 v.1 hw.1 _)).unwrap
      (by simp only [nestedSize]; omega) (fun h1 => ?_)
    refine Gives.limit_bind (Gives.addU32 _ _) (by simp only [nestedSize]; omega) (fun h2 => ?_)
    simp only [nestedSize] at h2 ⊢
    rw [← Nat.add_assoc]
    exact limitTuple ts h.2 v.2 hw.2 l (i + 1) _ h2

theorem limitFields : (fs : Fields) → (ds : Bool) → fs.WF ds → ∀ v, WritableFields fs v → ∀ l i acc,
    acc < 2 ^ 32 → Gives ((fs.dict ds).sizes .debug l i acc v) (limit (acc + summedFields fs v))
  | .nil, _, _, v, _, l, i, acc, hacc => by
    show Gives (Pure.pure acc) (limit (acc + 0))
    rw [Nat.add_zero, limit_of_lt hacc]; intro μ; rfl
  | .cons tag attrs t fs, ds, h, v, hw, l, i, acc, hacc => by
    have hn := (gives_sizeNested h.2.2.1 (l := l ++ [i]) (some tag) true
      (by intro n hn; cases hn; exact tag_lt h.1) (limitLaw t h.2.2.1 v.1 hw.1 _)).unwrap
    simp only [nestedSize, Bool.true_and] at hn
    simp only [summedFields]
    refine Gives.limit_bind hn (by omega) (fun h1 => ?_)
    refine Gives.limit_bind (Gives.addU32 _ _) (by omega) (fun h2 => ?_)
    rw [← Nat.add_assoc]
    exact limitFields fs ds h.2.2.2 v.2 hw.2 l (i + 1) _ h2

theorem limitVariant : (vs : Variants) → (ds : Bool) → vs.WF ds → ∀ v, WritableVariant vs v → ∀ l,
    Gives ((vs.dict ds).sizes .debug l (u32Size ((vs.dict ds).tagOf v)) v) (limit (summedVariant vs v))
  | .nil, _, _, v, _, _ => nomatch v
  | .cons tag c fs vs, ds, h, .inl x, hw, l => by
    have h0 : (leb tag.toNat).length < 2 ^ 32 := leb_length_small _ 32 tag.isLt (by decide)
    have h1 := limitFields fs ds h.2.2.1 x hw l 0 (u32Size tag) (by rw [u32Size_eq]; exact h0)
    have h3 : summedVariant (.cons tag c fs vs) (.inl x) = u32Size tag + summedFields fs x := by
      rw [u32Size_eq]; simp [summedVariant]
    rw [h3]
    exact h1
  | .cons _ _ _ vs, ds, h, .inr x, hw, l => limitVariant vs ds h.2.2.2 x hw l
end

/-! ### Writing does not panic once the sizes are computed -/

namespace Prog
variable {α β : Type}

/-- The program ends without an error, whatever the caches hold. -/
def Ends (p : Prog α) : Prop := ∀ μ, ∃ a, (p.run μ).1 = .ok a

theorem Gives.ends {p : Prog α} {a : α} (h : Gives p (.ok a)) : Ends p := fun μ => ⟨a, h μ⟩

theorem Ends.pure (a : α) : Ends (Pure.pure a : Prog α) := fun _ => ⟨a, rfl⟩

theorem Ends.bind {p : Prog α} {f : α → Prog β} (h : Ends p) (hf : ∀ a, Ends (f a)) : Ends (p >>= f) := by
  intro μ
  rw [run_bind]
  obtain ⟨a, ha⟩ := h μ
  generalize p.run μ = s at ha ⊢
  obtain ⟨s, μ'⟩ := s
  simp only at ha
  subst ha
  exact hf a μ'

end Prog

theorem ends_cachedSize {t : Ty} (ht : t.WF) {v : t.El} (hw : Writable t v) (hs : summed t v < 2 ^ 32) (l : Loc) :
    Ends (t.dict.cachedSize .debug l v) := by
  unfold SerD.cachedSize
  split
  · exact fun μ => ⟨_, rfl⟩
  · have := limitLaw t ht v hw l
    rw [limit_of_lt hs] at this
    exact this.ends

theorem ends_omit : (t : Ty) → t.WF → ∀ v, Writable t v → summed t v < 2 ^ 32 → ∀ l,
    Ends (t.dict.isOmissible .debug l v none) := by
  intro t ht v hw hs l
  have hb : ∀ {d : Dict t.El}, Ends (d.cachedSize .debug l v) → Ends (d.toSerD.isOmissibleBySize .debug l v none) :=
    fun h => Ends.bind h (fun _ => Ends.pure _)
  have hc := ends_cachedSize ht hw hs l
  cases t with
  | uint => exact Ends.pure _
  | sint => exact Ends.pure _
  | bool => exact Ends.pure _
  | string => exact Ends.pure _
  | struct ds c fs => cases ds <;> exact hb hc
  | enum ds c fs vs => cases ds <;> exact hb hc
  | _ => exact hb hc

theorem ends_serNested {t : Ty} (ht : t.WF) {v : t.El} (hw : Writable t v) (hs : summed t v < 2 ^ 32) (l : Loc)
    (fn : Option U32) (om : Bool) (hfn : ∀ n ∈ fn, n.toNat < 2 ^ 29) (h : Ends (t.dict.serializeCached .debug l v)) :
    Ends (t.dict.serializeNested .debug l v fn om) := by
  unfold Dict.serializeNested
  refine Ends.bind ?_ (fun b => ?_)
  · split
    · exact ends_omit t ht v hw hs l
    · exact Ends.pure _
  · split
    · exact Ends.pure _
    · refine Ends.bind ?_ (fun _ => Ends.bind ?_ (fun _ => Ends.bind h (fun _ => Ends.pure _)))
      · cases fn with
        | none => exact Ends.pure _
        | some n =>
          obtain ⟨tag, h1, _⟩ := mkTag_ok n t.dict.wire (hfn n rfl)
          simp only [h1]
          exact fun μ => ⟨_, rfl⟩
      · split
        · exact Ends.pure _
        · exact Ends.bind (ends_cachedSize ht hw hs l) (fun _ => Ends.pure _)

theorem le_sum_map {α : Type} {f : α → Nat} : ∀ {xs : List α} {x : α}, x ∈ xs → f x ≤ (xs.map f).sum
  | y :: ys, x, h => by
    simp only [List.map_cons, List.sum_cons]
    rcases List.mem_cons.1 h with rfl | h
    · omega
    · have := le_sum_map (f := f) h
      omega

theorem ends_items {t : Ty} (ht : t.WF) (l : Loc) : ∀ (xs : List t.El) (i : Nat),
    (∀ x ∈ xs, Writable t x ∧ summed t x < 2 ^ 32 ∧ ∀ l, Ends (t.dict.serializeCached .debug l x)) →
    Ends (serializeItems t.dict .debug l i xs)
  | [], _, _ => Ends.pure _
  | x :: xs, i, h => by
    obtain ⟨h1, h2, h3⟩ := h x (by simp)
    exact Ends.bind (ends_serNested ht h1 h2 _ none false (by simp) (h3 _))
      (fun _ => Ends.bind (ends_items ht l xs (i + 1) (fun y hy => h y (by simp [hy]))) (fun _ => Ends.pure _))

theorem ends_mapEntries {t : Ty} (ht : t.WF) (l : Loc) : ∀ (es : List (U32 × t.El)) (i : Nat),
    (∀ e ∈ es, e.1.toNat < 2 ^ 29 ∧ Writable t e.2 ∧ summed t e.2 < 2 ^ 32 ∧
      ∀ l, Ends (t.dict.serializeCached .debug l e.2)) →
    Ends (serializeMapEntries t.dict .debug l i es)
  | [], _, _ => Ends.pure _
  | (k, x) :: xs, i, h => by
    obtain ⟨h0, h1, h2, h3⟩ := h (k, x) (by simp)
    exact Ends.bind (ends_serNested ht h1 h2 _ (some k) false (by intro n hn; cases hn; exact h0) (h3 _))
      (fun _ => Ends.bind (ends_mapEntries ht l xs (i + 1) (fun y hy => h y (by simp [hy]))) (fun _ => Ends.pure _))

theorem ends_entries {k w : Ty} (hk : k.WF) (hw : w.WF) (l : Loc) : ∀ (es : List (k.El × w.El)) (i : Nat),
    (∀ e ∈ es, (Writable k e.1 ∧ summed k e.1 < 2 ^ 32 ∧ ∀ l, Ends (k.dict.serializeCached .debug l e.1)) ∧
      Writable w e.2 ∧ summed w e.2 < 2 ^ 32 ∧ ∀ l, Ends (w.dict.serializeCached .debug l e.2)) →
    Ends (serializeEntries k.dict w.dict .debug l i es)
  | [], _, _ => Ends.pure _
  | (a, x) :: xs, i, h => by
    obtain ⟨⟨a1, a2, a3⟩, h1, h2, h3⟩ := h (a, x) (by simp)
    exact Ends.bind (ends_serNested hk a1 a2 _ none false (by simp) (a3 _))
      (fun _ => Ends.bind (ends_serNested hw h1 h2 _ none false (by simp) (h3 _))
      (fun _ => Ends.bind (ends_entries hk hw l xs (i + 1) (fun y hy => h y (by simp [hy]))) (fun _ => Ends.pure _)))

mutual
theorem endsLaw : (t : Ty) → t.WF → ∀ v, Writable t v → summed t v < 2 ^ 32 → ∀ l,
    Ends (t.dict.serializeCached .debug l v)
  | .uint w, _, v, _, _, l => Ends.pure _
  | .sint w, _, v, _, _, l => Ends.pure _
  | .bool, _, v, _, _, l => Ends.pure _
  | .string, _, v, _, _, l => Ends.pure _
  | .bytes, _, v, _, _, l => Ends.pure _
  | .vec t, h, v, hw, hs, l => ends_items (t := t) h l v 0 (fun x hx => by
      have h1 := le_sum_map (f := fun x => framedSize (wireOf t) (summed t x)) hx
      have h2 := framedSize_ge (wireOf t) (summed t x)
      have h3 : summed t x < 2 ^ 32 := by simp only [summed] at hs; omega
      exact ⟨hw x hx, h3, endsLaw t h x (hw x hx) h3⟩)
  | .array n t, h, v, hw, hs, l => ends_items h.2.2 l v.1 0 (fun x hx => by
      have h1 := le_sum_map (f := fun x => framedSize (wireOf t) (summed t x)) hx
      have h2 := framedSize_ge (wireOf t) (summed t x)
      have h3 : summed t x < 2 ^ 32 := by simp only [summed] at hs; omega
      exact ⟨hw x hx, h3, endsLaw t h.2.2 x (hw x hx) h3⟩)
  | .list t, h, v, hw, hs, l => ends_items h.2 l v.items 0 (fun x hx => by
      have h1 := le_sum_map (f := fun x => framedSize (wireOf t) (summed t x)) hx
      have h2 := framedSize_ge (wireOf t) (summed t x)
      have h3 : summed t x < 2 ^ 32 := by simp only [summed] at hs; omega
      exact ⟨hw x hx, h3, endsLaw t h.2 x (hw x hx) h3⟩)
  | .map kt t, h, v, hw, hs, l => ends_mapEntries h.2 l v.entries 0 (fun e he => by
      have h1 := le_sum_map
        (f := fun e : U32 × t.El => (leb (e.1.toNat * 8 + wireOf t)).length + framedSize (wireOf t) (summed t e.2)) he
      have h2 := framedSize_ge (wireOf t) (summed t e.2)
      have h3 : summed t e.2 < 2 ^ 32 := by simp only [summed] at hs; omega
      exact ⟨(hw e he).1, (hw e he).2, h3, endsLaw t h.2 e.2 (hw e he).2 h3⟩)
  | .hashMap k w, h, v, hw, hs, l => ends_entries h.1 h.2 l v 0 (fun e he => by
      have h1 := le_sum_map
        (f := fun e : k.El × w.El => framedSize (wireOf k) (summed k e.1) + framedSize (wireOf w) (summed w e.2)) he
      have h2 := framedSize_ge (wireOf k) (summed k e.1)
      have h2' := framedSize_ge (wireOf w) (summed w e.2)
      have h3 : summed k e.1 < 2 ^ 32 := by simp only [summed] at hs; omega
      have h3' : summed w e.2 < 2 ^ 32 := by simp only [summed] at hs; omega
      exact ⟨⟨(hw e he).1, h3, endsLaw k h.1 e.1 (hw e he).1 h3⟩, (hw e he).2, h3', endsLaw w h.2 e.2 (hw e he).2 h3'⟩)
  | .option t, h, none, hw, hs, l => Ends.pure _
  | .option t, h, some x, hw, hs, l => by
    have h2 := framedSize_ge (wireOf t) (summed t x)
    have h3 : summed t x < 2 ^ 32 := by
      simp only [summed, Option.toList_some, List.map_cons, List.map_nil, List.sum_cons, List.sum_nil] at hs; omega
    exact ends_serNested (t := t) h (hw x rfl) h3 _ none false (by simp) (endsLaw t h x (hw x rfl) h3 _)
  | .box t, h, v, hw, hs, l => endsLaw t h v hw hs l
  | .tuple ts, h, v, hw, hs, l => endsTuple ts h.2.2 v hw hs l 0
  | .struct ds c fs, h, v, hw, hs, l => by
    have := endsFields fs ds h.2 v.fields hw hs l 0
    cases ds <;> exact this
  | .enum ds c fs vs, h, ⟨rt, .inl x⟩, hw, hs, l => by
    have := endsFields fs ds h.2.1 x hw (by simp only [summed] at hs; omega) l 0
    cases ds <;> exact Ends.bind this (fun _ => Ends.pure _)
  | .enum ds c fs vs, h, ⟨rt, .inr x⟩, hw, hs, l => by
    have := endsVariant vs ds h.2.2.2.2 x hw hs l
    cases ds <;> exact Ends.bind this (fun _ => Ends.pure _)

theorem endsTuple : (ts : Tys) → ts.WF → ∀ v, WritableTuple ts v → summedTuple ts v < 2 ^ 32 → ∀ l i,
    Ends (ts.dict.serialize .debug l i v)
  | .nil, _, _, _, _, _, _ => Ends.pure _
  | .cons t ts, h, v, hw, hs, l, i => by
    simp only [summedTuple] at hs
    have h2 := framedSize_ge (wireOf t) (summed t v.1)
    have h3 : summed t v.1 < 2 ^ 32 := by omega
    exact Ends.bind (ends_serNested h.1 hw.1 h3 _ none false (by simp) (endsLaw t h.1 v.1 hw.1 h3 _))
      (fun _ => Ends.bind (endsTuple ts h.2 v.2 hw.2 (by omega) l (i + 1)) (fun _ => Ends.pure _))

theorem endsFields : (fs : Fields) → (ds : Bool) → fs.WF ds → ∀ v, WritableFields fs v → summedFields fs v < 2 ^ 32 →
    ∀ l i, Ends ((fs.dict ds).serialize .debug l i v)
  | .nil, _, _, _, _, _, _, _ => Ends.pure _
  | .cons tag attrs t fs, ds, h, v, hw, hs, l, i => by
    simp only [summedFields] at hs
    have h2 := framedSize_ge (wireOf t) (summed t v.1)
    have h3 : summed t v.1 < 2 ^ 32 := by
      by_cases hl : leftOutSize t v.1 (summed t v.1) = true
      · exact summed_small t v.1 hl
      · rw [if_neg hl] at hs; omega
    exact Ends.bind (ends_serNested h.2.2.1 hw.1 h3 _ (some tag) true (by intro n hn; cases hn; exact tag_lt h.1)
        (endsLaw t h.2.2.1 v.1 hw.1 h3 _))
      (fun _ => Ends.bind (endsFields fs ds h.2.2.2 v.2 hw.2 (by omega) l (i + 1)) (fun _ => Ends.pure _))

theorem endsVariant : (vs : Variants) → (ds : Bool) → vs.WF ds → ∀ v, WritableVariant vs v → summedVariant vs v < 2 ^ 32 →
    ∀ l, Ends ((vs.dict ds).serialize .debug l v)
  | .nil, _, _, v, _, _, _ => nomatch v
  | .cons _ _ fs _, ds, h, .inl x, hw, hs, l => endsFields fs ds h.2.2.1 x hw (by simp only [summedVariant] at hs; omega) l 0
  | .cons _ _ _ vs, ds, h, .inr x, hw, hs, l => endsVariant vs ds h.2.2.2 x hw hs l
end

/-! ### Sums of short values -/

theorem framedSize_framed (w : Nat) (bs : Bytes) : framedSize w bs.length = (framed w bs).length := by
  unfold framedSize framed; split <;> simp

theorem length_flatMap_sum {α β : Type} (f : α → List β) (g : α → Nat) : ∀ (xs : List α), (∀ x ∈ xs, g x = (f x).length) →
    (xs.map g).sum = (xs.flatMap f).length
  | [], _ => rfl
  | x :: xs, h => by
    simp only [List.map_cons, List.sum_cons, List.flatMap_cons, List.length_append]
    rw [h x (by simp), length_flatMap_sum f g xs (fun y hy => h y (by simp [hy]))]

theorem leftOutSize_eq (t : Ty) (v : t.El) : leftOutSize t v (encode t v).length = leftOut t v (encode t v) := by
  have h0 : ∀ bs : Bytes, (bs.length == 0) = bs.isEmpty := fun bs => by cases bs <;> rfl
  cases t <;> first | rfl | exact h0 _

mutual
theorem summed_short : (t : Ty) → (v : t.El) → Short t v → summed t v = (encode t v).length
  | .uint _, _, _ => rfl
  | .sint _, _, _ => rfl
  | .bool, _, _ => rfl
  | .string, v, h => Nat.mod_eq_of_lt (h ⟨.string, v⟩ (by simp [objects]))
  | .bytes, v, h => Nat.mod_eq_of_lt (h ⟨.bytes, v⟩ (by simp [objects]))
  | .vec t, v, h => length_flatMap_sum _ _ _ (fun x hx => by
      rw [summed_short t x (fun o ho => h o (by
        simp only [objects, List.mem_cons, List.mem_flatMap]; exact Or.inr ⟨x, hx, ho⟩)), framedSize_framed])
  | .array _ t, v, h => length_flatMap_sum _ _ _ (fun x hx => by
      rw [summed_short t x (fun o ho => h o (by
        simp only [objects, List.mem_cons, List.mem_flatMap]; exact Or.inr ⟨x, hx, ho⟩)), framedSize_framed])
  | .list t, v, h => length_flatMap_sum _ _ _ (fun x hx => by
      rw [summed_short t x (fun o ho => h o (by
        simp only [objects, List.mem_cons, List.mem_flatMap]; exact Or.inr ⟨x, hx, ho⟩)), framedSize_framed])
  | .option t, v, h => length_flatMap_sum _ _ _ (fun x hx => by
      rw [summed_short t x (fun o ho => h o (by
        simp only [objects, List.mem_cons, List.mem_flatMap]; exact Or.inr ⟨x, hx, ho⟩)), framedSize_framed])
  | .map _ t, v, h => length_flatMap_sum _ _ _ (fun e he => by
      rw [summed_short t e.2 (fun o ho => h o (by
        simp only [objects, List.mem_cons, List.mem_flatMap]; exact Or.inr ⟨e, he, ho⟩)), framedSize_framed,
        List.length_append])
  | .hashMap k w, v, h => length_flatMap_sum _ _ _ (fun e he => by
      rw [summed_short k e.1 (fun o ho => h o (by
          simp only [objects, List.mem_cons, List.mem_flatMap, List.mem_append]; exact Or.inr ⟨e, he, Or.inl ho⟩)),
        summed_short w e.2 (fun o ho => h o (by
          simp only [objects, List.mem_cons, List.mem_flatMap, List.mem_append]; exact Or.inr ⟨e, he, Or.inr ho⟩)),
        framedSize_framed, framedSize_framed, List.length_append])
  | .box t, v, h => summed_short t v (fun o ho => h o (by simp only [objects, List.mem_cons]; exact Or.inr ho))
  | .tuple ts, v, h => summed_shortTuple ts v (fun o ho => h o (by simp only [objects, List.mem_cons]; exact Or.inr ho))
  | .struct _ _ fs, v, h =>
    summed_shortFields fs v.fields (fun o ho => h o (by simp only [objects, List.mem_cons]; exact Or.inr ho))
  | .enum _ _ fs _, ⟨_, .inl x⟩, h => by
    have := summed_shortFields fs x (fun o ho => h o (by simp only [objects, List.mem_cons]; exact Or.inr ho))
    simp only [summed, encode, List.length_append, this]
  | .enum _ _ _ vs, ⟨_, .inr x⟩, h =>
    summed_shortVariant vs x (fun o ho => h o (by simp only [objects, List.mem_cons]; exact Or.inr ho))

theorem summed_shortTuple : (ts : Tys) → (v : ts.El) → (∀ o ∈ objectsTuple ts v, chunk o < 2 ^ 32) →
    summedTuple ts v = (encodeTuple ts v).length
  | .nil, _, _ => rfl
  | .cons t ts, v, h => by
    simp only [summedTuple, encodeTuple, List.length_append]
    rw [summed_short t v.1 (fun o ho => h o (by simp only [objectsTuple, List.mem_append]; exact Or.inl ho)),
      summed_shortTuple ts v.2 (fun o ho => h o (by simp only [objectsTuple, List.mem_append]; exact Or.inr ho)),
      framedSize_framed]

theorem summed_shortFields : (fs : Fields) → (v : fs.El) → (∀ o ∈ objectsFields fs v, chunk o < 2 ^ 32) →
    summedFields fs v = (encodeFields fs v).length
  | .nil, _, _ => rfl
  | .cons _ _ t fs, v, h => by
    simp only [summedFields, encodeFields, List.length_append]
    rw [summed_short t v.1 (fun o ho => h o (by simp only [objectsFields, List.mem_append]; exact Or.inl ho)),
      summed_shortFields fs v.2 (fun o ho => h o (by simp only [objectsFields, List.mem_append]; exact Or.inr ho)),
      framedSize_framed, leftOutSize_eq]
    split <;> simp

theorem summed_shortVariant : (vs : Variants) → (v : vs.El) → (∀ o ∈ objectsVariant vs v, chunk o < 2 ^ 32) →
    summedVariant vs v = (encodeVariant vs v).length
  | .nil, v, _ => nomatch v
  | .cons _ _ fs _, .inl x, h => by
    have := summed_shortFields fs x h
    simp only [summedVariant, encodeVariant, List.length_append, this]
  | .cons _ _ _ vs, .inr x, h => summed_shortVariant vs x h
end

/-! ## Below the limit the two encodings agree -/

theorem self_mem_objects : (t : Ty) → (v : t.El) → ⟨t, v⟩ ∈ objects t v
  | .uint _, _ => by simp [objects]
  | .sint _, _ => by simp [objects]
  | .bool, _ => by simp [objects]
  | .string, _ => by simp [objects]
  | .bytes, _ => by simp [objects]
  | .vec _, _ => by simp [objects]
  | .array _ _, _ => by simp [objects]
  | .tuple _, _ => by simp [objects]
  | .option _, _ => by simp [objects]
  | .box _, _ => by simp [objects]
  | .hashMap _ _, _ => by simp [objects]
  | .list _, _ => by simp [objects]
  | .map _ _, _ => by simp [objects]
  | .struct _ _ _, _ => by simp [objects]
  | .enum _ _ _ _, _ => by simp [objects]

theorem framed32_eq (w : Nat) {bs : Bytes} (h : bs.length < 2 ^ 32) : framed32 w bs = framed w bs := by
  unfold framed32 framed
  rw [Nat.mod_eq_of_lt h]

theorem leftOut32_eq (t : Ty) (v : t.El) {bs : Bytes} (h : bs.length < 2 ^ 32) : leftOut32 t v bs = leftOut t v bs := by
  have : (bs.length % 2 ^ 32 == 0) = bs.isEmpty := by
    rw [Nat.mod_eq_of_lt h]; cases bs <;> simp
  cases t <;> first | rfl | exact this

theorem flatMap_congr_mem {α β : Type} {f g : α → List β} : ∀ {xs : List α}, (∀ x ∈ xs, f x = g x) →
    xs.flatMap f = xs.flatMap g
  | [], _ => rfl
  | x :: xs, h => by
    rw [List.flatMap_cons, List.flatMap_cons, h x (by simp), flatMap_congr_mem (fun y hy => h y (by simp [hy]))]

/-- Encodings shorter than 4 GiB. -/
def Fits (o : Σ s : Ty, s.El) : Prop := (encode o.1 o.2).length < 2 ^ 32

mutual
theorem encode32_inner : (t : Ty) → (v : t.El) → (∀ o ∈ (objects t v).tail, Fits o) → encode32 t v = encode t v
  | .uint _, _, _ => rfl
  | .sint _, _, _ => rfl
  | .bool, _, _ => rfl
  | .string, _, _ => rfl
  | .bytes, _, _ => rfl
  | .vec t, v, h => flatMap_congr_mem (fun x hx =>
      encode32_framed t x (fun o ho => h o (by simp only [objects, List.tail_cons, List.mem_flatMap]; exact ⟨x, hx, ho⟩)))
  | .array _ t, v, h => flatMap_congr_mem (fun x hx =>
      encode32_framed t x (fun o ho => h o (by simp only [objects, List.tail_cons, List.mem_flatMap]; exact ⟨x, hx, ho⟩)))
  | .list t, v, h => flatMap_congr_mem (fun x hx =>
      encode32_framed t x (fun o ho => h o (by simp only [objects, List.tail_cons, List.mem_flatMap]; exact ⟨x, hx, ho⟩)))
  | .option t, v, h => flatMap_congr_mem (fun x hx =>
      encode32_framed t x (fun o ho => h o (by simp only [objects, List.tail_cons, List.mem_flatMap]; exact ⟨x, hx, ho⟩)))
  | .map _ t, v, h => flatMap_congr_mem (fun e he => by
      rw [encode32_framed t e.2 (fun o ho => h o (by
        simp only [objects, List.tail_cons, List.mem_flatMap]; exact ⟨e, he, ho⟩))])
  | .hashMap k w, v, h => flatMap_congr_mem (fun e he => by
      rw [encode32_framed k e.1 (fun o ho => h o (by
          simp only [objects, List.tail_cons, List.mem_flatMap, List.mem_append]; exact ⟨e, he, Or.inl ho⟩)),
        encode32_framed w e.2 (fun o ho => h o (by
          simp only [objects, List.tail_cons, List.mem_flatMap, List.mem_append]; exact ⟨e, he, Or.inr ho⟩))])
  | .box t, v, h => encode32_inner t v (fun o ho => h o (by
      simp only [objects, List.tail_cons]; exact List.mem_of_mem_tail ho))
  | .tuple ts, v, h => encode32_tuple ts v h
  | .struct _ _ fs, v, h => encode32_fields fs v.fields h
  | .enum _ _ fs vs, ⟨_, .inl x⟩, h => congrArg (leb 0 ++ ·) (encode32_fields fs x h)
  | .enum _ _ _ vs, ⟨_, .inr x⟩, h => encode32_variant vs x h

theorem encode32_framed : (t : Ty) → (v : t.El) → (∀ o ∈ objects t v, Fits o) →
    framed32 (wireOf t) (encode32 t v) = framed (wireOf t) (encode t v)
  | t, v, h => by
    rw [encode32_inner t v (fun o ho => h o (List.mem_of_mem_tail ho))]
    exact framed32_eq _ (h _ (self_mem_objects t v))

theorem encode32_tuple : (ts : Tys) → (v : ts.El) → (∀ o ∈ objectsTuple ts v, Fits o) → encode32Tuple ts v = encodeTuple ts v
  | .nil, _, _ => rfl
  | .cons t ts, v, h => by
    simp only [encode32Tuple, encodeTuple]
    rw [encode32_framed t v.1 (fun o ho => h o (by simp only [objectsTuple, List.mem_append]; exact Or.inl ho)),
      encode32_tuple ts v.2 (fun o ho => h o (by simp only [objectsTuple, List.mem_append]; exact Or.inr ho))]

theorem encode32_fields : (fs : Fields) → (v : fs.El) → (∀ o ∈ objectsFields fs v, Fits o) →
    encode32Fields fs v = encodeFields fs v
  | .nil, _, _ => rfl
  | .cons tag _ t fs, v, h => by
    have h1 : ∀ o ∈ objects t v.1, Fits o := fun o ho => h o (by simp only [objectsFields, List.mem_append]; exact Or.inl ho)
    have h2 := encode32_inner t v.1 (fun o ho => h1 o (List.mem_of_mem_tail ho))
    simp only [encode32Fields, encodeFields]
    rw [encode32_framed t v.1 h1, h2, leftOut32_eq t v.1 (h1 _ (self_mem_objects t v.1)),
      encode32_fields fs v.2 (fun o ho => h o (by simp only [objectsFields, List.mem_append]; exact Or.inr ho))]

theorem encode32_variant : (vs : Variants) → (v : vs.El) → (∀ o ∈ objectsVariant vs v, Fits o) →
    encode32Variant vs v = encodeVariant vs v
  | .nil, v, _ => nomatch v
  | .cons tag _ fs _, .inl x, h => congrArg (leb tag.toNat ++ ·) (encode32_fields fs x h)
  | .cons _ _ _ vs, .inr x, h => encode32_variant vs x h
end

end Steit
