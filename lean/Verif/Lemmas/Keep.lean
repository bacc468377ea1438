import Verif.Lemmas.AnyImpls
import Verif.Lemmas.Zigzag
import Verif.Lemmas.Carried
import Verif.Spec.Relay

/-! # Whatever bytes are read, what has been read can be written again -/

namespace Steit
open Spec

/-- What an implementation keeps: `P` of the value, whatever bytes it reads; `K` is what the paths of entries must meet. -/
structure KeepLaw {α : Type} (d : Dict α) (P : α → Prop) (K : List U32 → Prop) : Prop where
  dflt : P d.dflt
  withRt : ∀ rt, P (d.withRuntime rt)
  setRt : ∀ rt v, P v → P (d.setRuntime rt v)
  merge : ∀ m v bs, P v → P (d.merge m v bs).target
  handle : ∀ m v path kind key bs, P v → K path → P (d.handle m v path kind key bs).target

theorem target_map {α β : Type} (f : α → β) (r : Res α) : (r.map f).target = f r.target := by
  cases r <;> rfl

theorem untilEof_keep {α : Type} {step : α → Bytes → Res α} {P : α → Prop}
    (h : ∀ v bs, P v → P (step v bs).target) : ∀ fuel v bs, P v → P (untilEof step fuel v bs).target := by
  intro fuel
  induction fuel with
  | zero =>
    intro v bs hv
    cases bs <;> exact hv
  | succ n ih =>
    intro v bs hv
    cases bs with
    | nil => exact hv
    | cons b bs =>
      have hs := h v (b :: bs) hv
      unfold untilEof
      revert hs
      cases step v (b :: bs) with
      | ok v' rest => exact fun hs => ih v' rest hs
      | err v' e => exact id

section
variable {α : Type} {d : Dict α} {P : α → Prop} {K : List U32 → Prop}

theorem KeepLaw.nested (h : KeepLaw d P K) (m : Mode) (v : α) (wt : WireType) (bs : Bytes) (hv : P v) :
    P (d.mergeNested m v wt bs).target := by
  unfold Dict.mergeNested
  split
  · split <;> exact hv
  · split
    · exact h.merge m v bs hv
    · unfold withNested
      split
      · exact hv
      · next size rest _ =>
        have hm := h.merge m v (rest.take size.toNat) hv
        revert hm
        cases d.merge m v (rest.take size.toNat) <;> exact id

theorem KeepLaw.deserializeNested (h : KeepLaw d P K) {m : Mode} {wt : WireType} {bs rest : Bytes} {x : α}
    (he : d.deserializeNested m wt bs = .ok (x, rest)) : P x := by
  have hn := h.nested m d.dflt wt bs h.dflt
  unfold Dict.deserializeNested at he
  revert hn he
  cases d.mergeNested m d.dflt wt bs with
  | ok v r => intro he hn; cases he; exact hn
  | err v e => intro he; cases he

theorem KeepLaw.deserialize (h : KeepLaw d P K) {m : Mode} {bs rest : Bytes} {x : α}
    (he : d.deserialize m bs = .ok (x, rest)) : P x := by
  have hn := h.merge m d.dflt bs h.dflt
  unfold Dict.deserialize at he
  revert hn he
  cases d.merge m d.dflt bs with
  | ok v r => intro he hn; cases he; exact hn
  | err v e => intro he; cases he

theorem keep_prim {α : Type} [DecidableEq α] {size : α → Nat} {put : α → Bytes}
    {get : Mode → Bytes → Except Err (α × Bytes)} {dflt : α} {P : α → Prop} (hd : P dflt)
    (hg : ∀ m bs x rest, get m bs = .ok (x, rest) → P x) :
    KeepLaw (primDict size put get dflt) P (fun _ => True) := by
  have hm : ∀ (m : Mode) (v : α) (bs : Bytes), P v → P (match get m bs with
      | .ok (v', rest) => Res.ok v' rest
      | .error e => Res.err v e).target := by
    intro m v bs hv
    split
    · next x rest hx => exact hg m bs x rest hx
    · exact hv
  refine ⟨hd, fun _ => hd, fun _ _ hv => hv, hm, fun m v path kind key bs hv _ => ?_⟩
  show P (if path = [] then _ else _ : Res α).target
  split
  · split
    · exact hm m v bs hv
    · exact hv
  · exact hv

/-- What zigzag decoding yields is within half of the range: the arithmetic shift leaves the two top bits equal. -/
theorem unzigzag_range (w : Width) (v : BitVec w.bits) :
    -(2 ^ (w.bits - 2) : Int) ≤ (unzigzag v).toInt ∧ (unzigzag v).toInt < (2 ^ (w.bits - 2) : Int) := by
  rw [unzigzag_toInt (by cases w <;> decide)]
  have h1 := @BitVec.le_two_mul_toInt w.bits v
  have h2 := @BitVec.two_mul_toInt_lt w.bits v
  cases w <;> simp only [Width.bits] at h1 h2 ⊢ <;> split <;> omega

theorem zero_range (w : Width) :
    -(2 ^ (w.bits - 2) : Int) ≤ (0#w.bits).toInt ∧ (0#w.bits).toInt < (2 ^ (w.bits - 2) : Int) := by
  cases w <;> decide

theorem getSigned_range {m : Mode} {w : Width} {bs rest : Bytes} {x : BitVec w.bits}
    (h : getSigned m w.bits bs = .ok (x, rest)) :
    -(2 ^ (w.bits - 2) : Int) ≤ x.toInt ∧ x.toInt < (2 ^ (w.bits - 2) : Int) := by
  unfold getSigned at h
  split at h
  · cases h
  · cases h; exact unzigzag_range w _

theorem keep_plain {ser : SerD α} {om : Mode → Loc → α → Option Nat → Prog Bool} {dflt : α}
    {merge : Mode → α → Bytes → Res α} {P : α → Prop} (hd : P dflt)
    (hm : ∀ m v bs, P v → P (merge m v bs).target) : KeepLaw (plainDict ser om dflt merge) P (fun _ => True) :=
  ⟨hd, fun _ => hd, fun _ _ hv => hv, hm, fun _ _ _ _ _ _ hv _ => hv⟩

theorem keep_vec (h : KeepLaw d P K) : KeepLaw (vecDict d) (fun v => ∀ x ∈ v, P x) (fun _ => True) := by
  refine keep_plain (by simp) (fun m v bs hv => untilEof_keep (P := fun v : List α => ∀ x ∈ v, P x)
    (fun v bs hv => ?_) _ _ _ hv)
  unfold vecStep
  split
  · next x rest he =>
    intro y hy
    simp only [Res.target, List.mem_append, List.mem_singleton] at hy
    rcases hy with hy | rfl
    · exact hv y hy
    · exact h.deserializeNested he
  · exact hv

theorem keep_arrayLoop (h : KeepLaw d P K) (m : Mode) (todo : List α) : ∀ (done : List α) (bs : Bytes),
    (∀ x ∈ done, P x) → (∀ x ∈ todo, P x) → ∀ x ∈ (arrayLoop d m done todo bs).target.1, P x := by
  induction todo with
  | nil => intro done bs hd _; simpa [arrayLoop, Res.target] using hd
  | cons t todo ih =>
    intro done bs hd ht
    have hall : ∀ x ∈ done ++ t :: todo, P x := by
      intro x hx
      rcases List.mem_append.1 hx with hx | hx
      · exact hd x hx
      · exact ht x hx
    cases bs with
    | nil => unfold arrayLoop; exact hall
    | cons b bs =>
      unfold arrayLoop
      split
      · exact hall
      · next y rest he =>
        rw [target_map]
        refine ih (done ++ [y]) rest (fun x hx => ?_) (fun x hx => ht x (by simp [hx]))
        rcases List.mem_append.1 hx with hx | hx
        · exact hd x hx
        · rw [List.mem_singleton.1 hx]; exact h.deserializeNested he

theorem keep_array (n : Nat) (h : KeepLaw d P K) :
    KeepLaw (arrayDict n d) (fun v => ∀ x ∈ v.1, P x) (fun _ => True) := by
  refine keep_plain (fun x hx => ?_) (fun m v bs hv => ?_)
  · rw [List.eq_of_mem_replicate hx]; exact h.dflt
  · have hl := keep_arrayLoop h m v.1 [] bs (by simp) hv
    revert hl
    cases arrayLoop d m [] v.1 bs <;> exact id

theorem keep_option (h : KeepLaw d P K) : KeepLaw (optionDict d) (fun v => ∀ x ∈ v, P x) (fun _ => True) := by
  refine keep_plain (by simp) (fun m v bs hv => untilEof_keep (P := fun v : Option α => ∀ x ∈ v, P x)
    (fun v bs hv => ?_) _ _ _ hv)
  unfold optionStep
  rw [target_map]
  intro x hx
  cases hx
  refine h.nested m _ _ bs ?_
  cases v with
  | none => exact h.dflt
  | some x => exact hv x rfl

theorem keep_box (h : KeepLaw d P K) : KeepLaw (boxDict d) P K :=
  ⟨h.dflt, h.withRt, h.setRt, h.merge, h.handle⟩

/-! ## Tuples and hash maps -/

/-- Of the components of a tuple. -/
structure TupleKeep {α : Type} (t : TupleD α) (P : α → Prop) : Prop where
  dflt : P t.dflt
  read : ∀ {m bs v rest}, t.read m bs = .ok (v, rest) → P v

theorem tupleKeep_nil : TupleKeep tupleNil (fun _ => True) := ⟨trivial, fun _ => trivial⟩

theorem tupleKeep_cons {β : Type} {t : TupleD β} {Q : β → Prop} (h : KeepLaw d P K) (ht : TupleKeep t Q) :
    TupleKeep (tupleCons d t) (fun v => P v.1 ∧ Q v.2) := by
  refine ⟨⟨h.dflt, ht.dflt⟩, ?_⟩
  intro m bs v rest he
  simp only [tupleCons] at he
  split at he
  · cases he
  · next x r hx =>
    split at he
    · cases he
    · next y r' hy => cases he; exact ⟨h.deserializeNested hx, ht.read hy⟩

theorem keep_tuple {t : TupleD α} {P : α → Prop} (h : TupleKeep t P) : KeepLaw (tupleDict t) P (fun _ => True) := by
  refine keep_plain h.dflt (fun m v bs hv => ?_)
  split
  · exact hv
  · next v' r he => exact h.read he

theorem hashInsert_pairwise {κ ν : Type} {eq : κ → κ → Bool} (k : κ) (v : ν) (es : List (κ × ν))
    (h : es.Pairwise (fun e e' => eq e.1 e'.1 = false)) :
    (hashInsert eq k v es).Pairwise (fun e e' => eq e.1 e'.1 = false) := by
  induction es with
  | nil => simp [hashInsert]
  | cons e es ih =>
    obtain ⟨k', v'⟩ := e
    rw [List.pairwise_cons] at h
    unfold hashInsert
    split
    · exact List.pairwise_cons.2 h
    · next hne =>
      refine List.pairwise_cons.2 ⟨fun e he => ?_, ih h.2⟩
      have hk : ∀ (es : List (κ × ν)), e ∈ hashInsert eq k v es → (∃ e' ∈ es, e'.1 = e.1) ∨ e.1 = k := by
        intro es
        induction es with
        | nil => intro he; simp [hashInsert] at he; exact .inr (by rw [he])
        | cons a es iha =>
          intro he
          unfold hashInsert at he
          split at he
          · rcases List.mem_cons.1 he with he | he
            · exact .inl ⟨a, by simp, by rw [he]⟩
            · exact .inl ⟨e, by simp [he], rfl⟩
          · rcases List.mem_cons.1 he with he | he
            · exact .inl ⟨a, by simp, by rw [he]⟩
            · rcases iha he with ⟨e', h1, h2⟩ | h1
              · exact .inl ⟨e', by simp [h1], h2⟩
              · exact .inr h1
      rcases hk es he with ⟨e', h1, h2⟩ | h1
      · rw [← h2]; exact h.1 e' h1
      · rw [h1]; simpa using hne

/-- An entry after inserting: its key was there or is the inserted one, its value was there or is the inserted one. -/
theorem hashInsert_keep {κ ν : Type} {eq : κ → κ → Bool} {k : κ} {v : ν} {P : κ → Prop} {Q : ν → Prop}
    (hk : P k) (hv : Q v) : ∀ es : List (κ × ν), (∀ e ∈ es, P e.1 ∧ Q e.2) →
      ∀ e ∈ hashInsert eq k v es, P e.1 ∧ Q e.2
  | [], _, e, he => by simp [hashInsert] at he; rw [he]; exact ⟨hk, hv⟩
  | (k', v') :: es, h, e, he => by
    unfold hashInsert at he
    split at he
    · rcases List.mem_cons.1 he with he | he
      · rw [he]; exact ⟨(h (k', v') (by simp)).1, hv⟩
      · exact h e (by simp [he])
    · rcases List.mem_cons.1 he with he | he
      · rw [he]; exact h (k', v') (by simp)
      · exact hashInsert_keep hk hv es (fun x hx => h x (by simp [hx])) e he

theorem keep_hashMap {κ ν : Type} {dk : Dict κ} {dv : Dict ν} {P : κ → Prop} {Q : ν → Prop} {K K' : List U32 → Prop}
    (eq : κ → κ → Bool) (hk : KeepLaw dk P K) (hv : KeepLaw dv Q K') :
    KeepLaw (hashMapDict eq dk dv)
      (fun v => (∀ e ∈ v, P e.1 ∧ Q e.2) ∧ v.Pairwise (fun e e' => eq e.1 e'.1 = false)) (fun _ => True) := by
  refine keep_plain (by simp) (fun m v bs h => untilEof_keep (P := fun v : List (κ × ν) => (∀ e ∈ v, P e.1 ∧ Q e.2) ∧
    v.Pairwise (fun e e' => eq e.1 e'.1 = false)) (fun v bs h => ?_) _ _ _ h)
  unfold hashMapStep
  split
  · exact h
  · next k r h1 =>
    split
    · exact h
    · next w r' h2 =>
      exact ⟨hashInsert_keep (hk.deserializeNested h1) (hv.deserializeNested h2) v h.1, hashInsert_pairwise _ _ _ h.2⟩

/-! ## `List` and `Map` -/

theorem keep_listMerge (h : KeepLaw d P K) (m : Mode) (v : ListV α) (bs : Bytes) (hv : ∀ x ∈ v.items, P x) :
    ∀ x ∈ (listMerge d m v bs).target.items, P x := by
  unfold listMerge
  refine untilEof_keep (P := fun v : ListV α => ∀ x ∈ v.items, P x) (fun v bs hv => ?_) _ _ _ hv
  have hn := h.nested m (d.withRuntime (v.rt.nested (fieldNo v.items.length))) d.wire bs (h.withRt _)
  unfold listStep
  simp only []
  revert hn
  cases d.mergeNested m (d.withRuntime (v.rt.nested (fieldNo v.items.length))) d.wire bs with
  | err y e => exact fun _ => hv
  | ok y rest =>
    intro hy x hx
    simp only [Res.target, List.mem_append, List.mem_singleton] at hx
    rcases hx with hx | rfl
    · exact hv x hx
    · exact hy

theorem keep_setRuntimeItems (h : KeepLaw d P K) (rt : Rt) : ∀ (xs : List α) (i : Nat), (∀ x ∈ xs, P x) →
    ∀ x ∈ setRuntimeItems d rt i xs, P x
  | [], _, _, x, hx => by simp [setRuntimeItems] at hx
  | y :: ys, i, hv, x, hx => by
    rcases List.mem_cons.1 hx with hx | hx
    · rw [hx]; exact h.setRt _ _ (hv y (by simp))
    · exact keep_setRuntimeItems h rt ys (i + 1) (fun z hz => hv z (by simp [hz])) x hx

theorem keep_list (h : KeepLaw d P K) :
    KeepLaw (listDict d) (fun v => ∀ x ∈ v.items, P x) (fun path => ∀ i rest, path = i :: rest → K rest) := by
  refine ⟨by simp [listDict], fun rt => by simp [listDict], fun rt v hv => keep_setRuntimeItems h rt v.items 0 hv,
    fun m v bs hv => keep_listMerge h m v bs hv, ?_⟩
  intro m v path kind key bs hv hK
  show ∀ x ∈ (listHandle d m v path kind key bs).target.items, P x
  unfold listHandle
  cases path with
  | cons i rest =>
    simp only []
    cases hg : v.items[i.toNat]? with
    | none => exact hv
    | some y =>
      simp only [target_map]
      intro x hx
      rcases List.mem_or_eq_of_mem_set hx with hx | hx
      · exact hv x hx
      · rw [hx]; exact h.handle m y rest kind key bs (hv y (List.mem_of_getElem? hg)) (hK i rest rfl)
  | nil =>
    cases kind with
    | update => exact keep_listMerge h m ⟨v.rt, []⟩ bs (by simp)
    | listPush =>
      have hn := h.merge m (d.withRuntime (v.rt.nested (fieldNo v.items.length))) bs (h.withRt _)
      simp only []
      revert hn
      cases d.merge m (d.withRuntime (v.rt.nested (fieldNo v.items.length))) bs with
      | err y e => exact fun _ => hv
      | ok y rest =>
        intro hy x hx
        simp only [Res.target, List.mem_append, List.mem_singleton] at hx
        rcases hx with hx | rfl
        · exact hv x hx
        · exact hy
    | listPop =>
      simp only []
      split
      · exact hv
      · exact fun x hx => hv x (List.dropLast_subset _ hx)
    | mapRemove => exact hv

theorem readMapKey_bounds {m : Mode} {kt : KeyTy} {bs rest : Bytes} {k : U32} (h : readMapKey m kt bs = .ok (k, rest)) :
    k.toNat ≤ kt.max ∧ k.toNat < 2 ^ 29 := by
  unfold readMapKey at h
  simp only [bind, Except.bind] at h
  split at h
  · cases h
  · split at h
    · cases h
    · split at h
      · cases h
      · next hf =>
        split at h
        · cases h
        · next hk =>
          cases h
          refine ⟨?_, ?_⟩
          · unfold KeyTy.tryFromFieldNumber at hk
            split at hk
            · assumption
            · cases hk
          · unfold validateFieldNumber at hf
            split at hf
            · cases hf
            · next hle =>
              exact Nat.lt_of_not_le (fun hh => hle (by rw [BitVec.lt_def]; exact Nat.lt_of_lt_of_le (by decide) hh))

/-- What is kept of a map's entries. -/
def EntriesKept (kt : KeyTy) (P : α → Prop) (es : List (U32 × α)) : Prop :=
  (∀ e ∈ es, e.1.toNat ≤ kt.max ∧ e.1.toNat < 2 ^ 29 ∧ P e.2) ∧ (es.map (·.1)).Nodup

theorem EntriesKept.insert {kt : KeyTy} {es : List (U32 × α)} (h : EntriesKept kt P es) {k : U32} {x : α}
    (hk : k.toNat ≤ kt.max ∧ k.toNat < 2 ^ 29) (hx : P x) : EntriesKept kt P (entriesInsert k x es) := by
  refine ⟨fun e he => ?_, entriesInsert_nodup k x es h.2⟩
  rcases entriesInsert_mem he with he | he
  · exact h.1 e he
  · rw [he]; exact ⟨hk.1, hk.2, hx⟩

theorem keep_mapMerge (kt : KeyTy) (h : KeepLaw d P K) (m : Mode) (v : MapV α) (bs : Bytes)
    (hv : EntriesKept kt P v.entries) : EntriesKept kt P (mapMerge kt d m v bs).target.entries := by
  unfold mapMerge
  refine untilEof_keep (P := fun v : MapV α => EntriesKept kt P v.entries) (fun v bs hv => ?_) _ _ _ hv
  unfold mapStep
  split
  · exact hv
  · next k rest hk =>
    have hb := readMapKey_bounds hk
    split
    · next x hg =>
      rw [target_map]
      exact hv.insert hb (h.nested m x d.wire rest (hv.1 _ (entriesGet_mem hg)).2.2)
    · have hn := h.nested m (d.withRuntime (v.rt.nested k)) d.wire rest (h.withRt _)
      revert hn
      cases d.mergeNested m (d.withRuntime (v.rt.nested k)) d.wire rest with
      | ok x r => exact fun hx => hv.insert hb hx
      | err x e => exact fun _ => hv

theorem keep_map (kt : KeyTy) (h : KeepLaw d P K) :
    KeepLaw (mapDict kt d) (fun v => EntriesKept kt P v.entries)
      (fun path => ∀ k rest, path = k :: rest → k.toNat ≤ kt.max ∧ k.toNat < 2 ^ 29 ∧ K rest) := by
  refine ⟨⟨by simp [mapDict], by simp [mapDict]⟩, fun rt => ⟨by simp [mapDict], by simp [mapDict]⟩, fun rt v hv => ?_,
    fun m v bs hv => keep_mapMerge kt h m v bs hv, ?_⟩
  · refine ⟨fun e he => ?_, ?_⟩
    · obtain ⟨e', he', rfl⟩ := List.mem_map.1 he
      have := hv.1 e' he'
      exact ⟨this.1, this.2.1, h.setRt _ _ this.2.2⟩
    · show ((v.entries.map (fun e => (e.1, d.setRuntime (rt.nested e.1) e.2))).map (·.1)).Nodup
      rw [List.map_map]
      exact hv.2
  · intro m v path kind key bs hv hK
    show EntriesKept kt P (mapHandle kt d m v path kind key bs).target.entries
    unfold mapHandle
    cases path with
    | cons k rest =>
      obtain ⟨h1, h2, h3⟩ := hK k rest rfl
      simp only []
      cases hg : entriesGet k v.entries with
      | some x =>
        simp only [target_map]
        exact hv.insert ⟨h1, h2⟩ (h.handle m x rest kind key bs (hv.1 _ (entriesGet_mem hg)).2.2 h3)
      | none =>
        simp only []
        split
        · have hn := h.merge m (d.withRuntime (v.rt.nested k)) bs (h.withRt _)
          revert hn
          cases d.merge m (d.withRuntime (v.rt.nested k)) bs with
          | ok x r => exact fun hx => hv.insert ⟨h1, h2⟩ hx
          | err x e => exact fun _ => hv
        · exact hv
    | nil =>
      cases kind with
      | update => exact keep_mapMerge kt h m ⟨v.rt, []⟩ bs ⟨by simp, by simp⟩
      | mapRemove =>
        simp only []
        cases key with
        | none => exact hv
        | some key =>
          simp only []
          split
          · exact ⟨fun e he => hv.1 e (entriesRemove_mem he), entriesRemove_nodup _ _ hv.2⟩
          · exact hv
      | listPush => exact hv
      | listPop => exact hv

end

end Steit
