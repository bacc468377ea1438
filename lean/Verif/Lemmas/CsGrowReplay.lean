import Verif.Lemmas.CsGrow
import Verif.Lemmas.ClientStops

/-! # A log makes a C# client's objects at most so much bigger -/

namespace Steit
open Spec

/-- The bytes an action comes with. -/
def CsAct.bytes : CsAct → Bytes
  | .update _ value => value
  | .push item => item
  | .pop => []
  | .remove _ => []

/-- Growth by at most `k` units. -/
def Up {α : Type} (W : α → Nat) (c k : Nat) (v : α) (r : Except Exn α) : Prop := ∀ v', r = .ok v' → W v' ≤ W v + c * k

section
variable {α : Type} {W : α → Nat} {c k : Nat} {v : α}

theorem Up.ok : Up W c k v (.ok v) := fun _ h => by cases h; exact Nat.le_add_right _ _

theorem Up.error {e : Exn} : Up W c k v (.error e) := fun _ h => by cases h

theorem Up.descend {perform : α → Except Exn α} {below : U32 → List U32 → α → Except Exn α}
    (hp : ∀ v, Up W c k v (perform v)) (hb : ∀ j path v, Up W c k v (below j path v)) (path : List U32) (v : α) :
    Up W c k v (Steit.descend perform below path v) := by
  cases path with
  | nil => exact hp v
  | cons j path => exact hb j path v

theorem set_weight (W : α → Nat) (x : α) : ∀ (l : List α) (i : Nat), ((l.set i x).map W).sum ≤ (l.map W).sum + W x
  | [], _ => by simp
  | y :: l, 0 => by simp only [List.set_cons_zero, List.map_cons, List.sum_cons]; omega
  | y :: l, i + 1 => by
    have := set_weight W x l i
    simp only [List.set_cons_succ, List.map_cons, List.sum_cons]
    omega

theorem set_weight_old (W : α → Nat) {x y : α} {n : Nat} (hn : W x ≤ W y + n) :
    ∀ (l : List α) (i : Nat), l[i]? = some y → ((l.set i x).map W).sum ≤ (l.map W).sum + n
  | [], _, h => by simp at h
  | z :: l, 0, h => by
    simp only [List.getElem?_cons_zero, Option.some.injEq] at h
    subst h
    simp only [List.set_cons_zero, List.map_cons, List.sum_cons]
    omega
  | z :: l, i + 1, h => by
    have := set_weight_old W hn l i (by simpa using h)
    simp only [List.set_cons_succ, List.map_cons, List.sum_cons]
    omega

theorem put_weight (W : α → Nat) {x y : α} {n : Nat} {key : U32} (hn : W x ≤ W y + n) :
    ∀ d : List (U32 × α), d.lookup key = some y →
      ((dictPut key x d).map (fun e => 1 + W e.2)).sum ≤ (d.map (fun e => 1 + W e.2)).sum + n
  | [], h => by simp at h
  | (j, z) :: d, h => by
    simp only [dictPut]
    rw [List.lookup_cons] at h
    by_cases hj : j = key
    · subst hj
      simp only [beq_self_eq_true, Option.some.injEq] at h
      subst h
      simp only [if_true, List.map_cons, List.sum_cons]
      omega
    · have hb : (key == j) = false := by simpa using fun h => hj h.symm
      rw [hb] at h
      have := put_weight W hn d h
      simp only [hj, if_false, List.map_cons, List.sum_cons]
      omega

theorem dropLast_weight (W : α → Nat) : ∀ l : List α, (l.dropLast.map W).sum ≤ (l.map W).sum
  | [] => by simp
  | [x] => by simp
  | x :: y :: l => by
    have := dropLast_weight W (y :: l)
    simp only [List.dropLast_cons_cons, List.map_cons, List.sum_cons] at this ⊢
    omega

end

theorem up_fieldsPerform {ρ : Bytes → Str} (hρ : Replaces ρ) (fs : Fields) (act : CsAct) (v : fs.Cs) :
    Up (csWeightFields fs) (csGrowthFields fs) (act.bytes.length + 1) v (fs.csPerform ρ act v) := by
  unfold Fields.csPerform
  split
  · split
    · exact .ok
    · intro v' h
      simp only [bind, Except.bind] at h
      split at h
      · cases h
      · rename_i x hx
        cases h
        have := (feedsFields hρ fs _ _ _ _ _ _ hx).2
        simp only [CsAct.bytes]
        omega
  · exact .error

theorem up_perform {ρ : Bytes → Str} (hρ : Replaces ρ) (t : Ty) (act : CsAct) (v : t.Cs) :
    Up (csWeight t) (csGrowth t) (act.bytes.length + 1) v (t.csPerform ρ act v) := by
  induction t using Ty.isCsState.induct with
  | case1 => cases act <;> first | exact .ok | exact .error
  | case2 => cases act <;> first | exact .ok | exact .error
  | case3 => cases act <;> first | exact .ok | exact .error
  | case4 => cases act <;> first | exact .ok | exact .error
  | case5 t ih => exact ih v
  | case6 t h1 h2 h3 h4 h5 =>
    cases t with
    | list t =>
      cases act with
      | update tag value =>
        simp only [Ty.csPerform]
        split
        · exact .error
        · intro v' h
          simp only [bind, Except.bind] at h
          split at h
          · cases h
          · rename_i x hx
            cases h
            have h1 := feeds_value hρ t hx
            have h2 := set_weight (csWeight t) x.1 v tag.toNat
            simp only [csWeight, csGrowth, CsAct.bytes, Nat.add_mul 1]
            omega
      | push item =>
        intro v' h
        simp only [Ty.csPerform, bind, Except.bind] at h
        split at h
        · cases h
        · rename_i x hx
          cases h
          have h1 := feeds_value hρ t hx
          simp only [csWeight, csGrowth, CsAct.bytes, Nat.add_mul 1, List.map_append, List.sum_append, List.map_cons, List.map_nil,
            List.sum_cons, List.sum_nil]
          omega
      | pop =>
        simp only [Ty.csPerform]
        split
        · exact .error
        · intro v' h
          cases h
          have := dropLast_weight (csWeight t) v
          simp only [csWeight]
          omega
      | remove key => exact .error
    | map kt t =>
      cases act with
      | update tag value =>
        intro v' h
        simp only [Ty.csPerform, bind, Except.bind] at h
        split at h
        · cases h
        · rename_i x hx
          cases h
          have h1 := feeds_value hρ t hx
          have h2 := filter_weight (fun e : U32 × t.Cs => 1 + csWeight t e.2) (fun e => e.1 != tag) v
          simp only [csWeight, csGrowth, CsAct.bytes, Nat.add_mul 1, dictSet, List.map_cons, List.sum_cons]
          omega
      | push item => exact .error
      | pop => exact .error
      | remove key =>
        simp only [Ty.csPerform]
        split
        · exact .error
        · intro v' h
          cases h
          have h2 := filter_weight (fun e : U32 × t.Cs => 1 + csWeight t e.2) (fun e => e.1 != key) v
          simp only [csWeight, dictRemove]
          omega
    | struct ds c fs =>
      intro v' h
      have := up_fieldsPerform hρ fs act v v' h
      simp only [csWeight, csGrowth, Nat.add_mul 1]
      omega
    | enum ds c fs vs =>
      cases act with
      | update tag value =>
        intro v' h
        simp only [Ty.csPerform, bind, Except.bind] at h
        simp only [csGrowth, CsAct.bytes, Nat.add_mul]
        have hv : 1 ≤ csWeight (.enum ds c fs vs) v := by simp only [csWeight]; omega
        split at h
        · split at h
          · cases h
          · rename_i x hx
            cases h
            have h1 := feeds_value hρ (.struct false false fs) hx
            simp only [csWeight, csGrowth, Nat.add_mul, Nat.mul_add] at h1 hv ⊢
            omega
        · split at h
          · cases h
          · rename_i x hx
            cases x with
            | none => cases h; omega
            | some x =>
              cases h
              have h1 := feedsVariants hρ vs tag value _ hx x rfl
              simp only [csWeight, Nat.mul_add] at h1 hv ⊢
              omega
      | push item => exact .error
      | pop => exact .error
      | remove key => exact .error
    | box t => exact absurd rfl (h5 t)
    | _ => cases act <;> first | exact .ok | exact .error

mutual
theorem up_below {ρ : Bytes → Str} (hρ : Replaces ρ) (act : CsAct) : (t : Ty) → ∀ k path v,
    Up (csWeight t) (csGrowth t) (act.bytes.length + 1) v (t.csBelow ρ act k path v)
  | .list t, k, path, v => by
    simp only [Ty.csBelow]
    split
    · split
      · exact .ok
      · rename_i x hx
        intro v' h
        simp only [bind, Except.bind] at h
        split at h
        · cases h
        · rename_i y hy
          cases h
          have h1 := Up.descend (up_perform hρ t act) (up_below hρ act t) _ _ _ hy
          have h2 := set_weight_old (csWeight t) h1 v k.toNat hx
          simp only [csWeight, csGrowth, Nat.add_mul 1]
          omega
    · exact .ok
  | .map _ t, k, path, v => by
    simp only [Ty.csBelow]
    split
    · split
      · exact .ok
      · rename_i x hx
        intro v' h
        simp only [bind, Except.bind] at h
        split at h
        · cases h
        · rename_i y hy
          cases h
          have h1 := Up.descend (up_perform hρ t act) (up_below hρ act t) _ _ _ hy
          have h2 := put_weight (csWeight t) h1 v hx
          simp only [csWeight, csGrowth, Nat.add_mul 1]
          omega
    · exact .ok
  | .struct _ _ fs, k, path, v => fun v' h => by
    have := up_fieldsBelow hρ act fs k path v v' h
    simp only [csWeight, csGrowth, Nat.add_mul 1]
    omega
  | .enum _ _ fs vs, k, path, v => by
    cases v with
    | inl x =>
      simp only [Ty.csBelow]
      split
      · intro v' h
        simp only [bind, Except.bind] at h
        split at h
        · cases h
        · rename_i y hy
          cases h
          have h1 := Up.descend (up_fieldsPerform hρ fs act) (up_fieldsBelow hρ act fs) _ _ _ hy
          simp only [csWeight, csGrowth, Nat.add_mul _ _ (_ + 1)]
          omega
      · exact .ok
    | inr x =>
      intro v' h
      simp only [Ty.csBelow, bind, Except.bind] at h
      split at h
      · cases h
      · rename_i y hy
        cases h
        have h1 := up_variantsBelow hρ act vs k path x _ hy
        simp only [csWeight, csGrowth, Nat.add_mul _ _ (_ + 1)]
        omega
  | .box t, k, path, v => up_below hρ act t k path v
  | .uint _, _, _, _ => .ok
  | .sint _, _, _, _ => .ok
  | .bool, _, _, _ => .ok
  | .string, _, _, _ => .ok
  | .bytes, _, _, _ => .ok
  | .vec _, _, _, _ => .ok
  | .array _ _, _, _, _ => .ok
  | .tuple _, _, _, _ => .ok
  | .option _, _, _, _ => .ok
  | .hashMap _ _, _, _, _ => .ok

theorem up_fieldsBelow {ρ : Bytes → Str} (hρ : Replaces ρ) (act : CsAct) : (fs : Fields) → ∀ k path v,
    Up (csWeightFields fs) (csGrowthFields fs) (act.bytes.length + 1) v (fs.csBelow ρ act k path v)
  | .nil, _, _, _ => .ok
  | .cons tag _ t fs, k, path, v => by
    simp only [Fields.csBelow]
    split
    · split
      · intro v' h
        simp only [bind, Except.bind] at h
        split at h
        · cases h
        · rename_i y hy
          cases h
          have h1 := Up.descend (up_perform hρ t act) (up_below hρ act t) _ _ _ hy
          simp only [csWeightFields, csGrowthFields, Nat.add_mul _ _ (_ + 1)]
          omega
      · exact .ok
    · intro v' h
      simp only [bind, Except.bind] at h
      split at h
      · cases h
      · rename_i y hy
        cases h
        have h1 := up_fieldsBelow hρ act fs k path v.2 _ hy
        simp only [csWeightFields, csGrowthFields, Nat.add_mul _ _ (_ + 1)]
        omega

theorem up_variantsBelow {ρ : Bytes → Str} (hρ : Replaces ρ) (act : CsAct) : (vs : Variants) → ∀ k path v,
    Up (csWeightVariant vs) (csGrowthVariants vs) (act.bytes.length + 1) v (vs.csBelow ρ act k path v)
  | .nil, _, _, _ => .ok
  | .cons tag _ fs vs, k, path, v => by
    cases v with
    | inl x =>
      simp only [Variants.csBelow]
      split
      · intro v' h
        simp only [bind, Except.bind] at h
        split at h
        · cases h
        · rename_i y hy
          cases h
          have h1 := Up.descend (up_fieldsPerform hρ fs act) (up_fieldsBelow hρ act fs) _ _ _ hy
          simp only [csWeightVariant, csGrowthVariants, Nat.add_mul _ _ (_ + 1)]
          omega
      · exact .ok
    | inr x =>
      intro v' h
      simp only [Variants.csBelow, bind, Except.bind] at h
      split at h
      · cases h
      · rename_i y hy
        cases h
        have h1 := up_variantsBelow hρ act vs k path x _ hy
        simp only [csWeightVariant, csGrowthVariants, Nat.add_mul _ _ (_ + 1)]
        omega
end

/-- The bytes an entry comes with. -/
def Entry.load : Entry → Bytes
  | .update _ value => value
  | .listPush _ item => item
  | .listPop _ => []
  | .mapRemove _ _ => []

theorem up_entry {ρ : Bytes → Str} (hρ : Replaces ρ) (t : Ty) (v : t.Cs) (e : Entry) :
    Up (csWeight t) (csGrowth t) (e.load.length + 1) v (t.csReplayEntry ρ v e) := by
  cases e with
  | update path value =>
    simp only [Ty.csReplayEntry]
    split
    · intro v' h
      simp only [bind, Except.bind] at h
      split at h
      · cases h
      · rename_i x hx
        cases h
        have := feeds_value hρ t hx
        simp only [Entry.load]
        omega
    · exact Up.descend (up_perform hρ t (.update _ value)) (up_below hρ _ t) _ _
  | listPush path item => exact Up.descend (up_perform hρ t (.push item)) (up_below hρ _ t) _ _
  | listPop path => exact Up.descend (up_perform hρ t .pop) (up_below hρ _ t) _ _
  | mapRemove path key => exact Up.descend (up_perform hρ t (.remove key)) (up_below hρ _ t) _ _

/-- An entry is bigger than the bytes it comes with. -/
theorem csEntry_weight : ∀ x : logEntryTy.Cs, (Entry.ofCs x).load.length + 1 ≤ csWeight logEntryTy x
  | .inl (path, value, ()) => by
    show value.length + 1 ≤ 1 + (1 + _ + (1 + value.length + 0)); omega
  | .inr (.inl (path, item, ())) => by
    show item.length + 1 ≤ 1 + (1 + _ + (1 + item.length + 0)); omega
  | .inr (.inr (.inl (path, ()))) => by
    show 0 + 1 ≤ 1 + (1 + _ + 0); omega
  | .inr (.inr (.inr (.inl (path, key, ())))) => by
    show 0 + 1 ≤ 1 + (1 + _ + (1 + 0)); omega

theorem adds_replayStep {ρ : Bytes → Str} (hρ : Replaces ρ) (t : Ty) (v : t.Cs) (bs : Bytes) :
    Adds (csWeight t) (csGrowth t * csGrowth logEntryTy) v bs (t.csReplayStep ρ v bs) := by
  intro v' rest hr
  have h1 := tame_nested bs
  simp only [Ty.csReplayStep, bind, Except.bind] at hr
  split at hr
  · cases hr
  · rename_i g hg
    obtain ⟨payload, r⟩ := g
    rw [hg] at h1
    simp only at h1 hr
    split at hr
    · cases hr
    · rename_i x hx
      split at hr
      · cases hr
      · rename_i y hy
        cases hr
        have h2 := up_entry hρ t v _ _ hy
        have h3 := feeds_value hρ logEntryTy hx
        have h4 := csEntry_weight x.1
        have h5 : csGrowth t * ((Entry.ofCs x.1).load.length + 1) ≤ csGrowth t * (csGrowth logEntryTy * (payload.length + 1)) :=
          Nat.mul_le_mul_left _ (by omega)
        have h6 : csGrowth t * csGrowth logEntryTy * (payload.length + 1 + rest.length) ≤ csGrowth t * csGrowth logEntryTy * bs.length :=
          Nat.mul_le_mul_left _ (by omega)
        rw [Nat.mul_add _ (payload.length + 1), Nat.mul_assoc _ _ (payload.length + 1)] at h6
        omega

theorem grown_csReplay {ρ : Bytes → Str} (hρ : Replaces ρ) (t : Ty) {v v' : t.Cs} {bs : Bytes} (h : t.csReplay ρ v bs = .ok v') :
    csWeight t v' ≤ csWeight t v + csGrowth t * csGrowth logEntryTy * bs.length :=
  adds_loop (adds_replayStep hρ t) bs.length v bs h

end Steit
