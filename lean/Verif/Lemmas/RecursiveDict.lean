import Verif.Spec.Recursive
import Verif.Lemmas.AnyLaw

/-!
# Two implementations that cannot be told apart on short inputs

`DictRel P j d d'`: on values related by `P` the two implementations write the same, and they read and replay the same as long as
the input is shorter than `j` (for replaying: path and input together). Every type constructor of the library carries this from the
parts to the whole; whatever sits inside a payload may even be related at a level one lower, because the length costs a byte.
-/

namespace Steit
open Spec

/-- Two results of reading from an input of `k` bytes agree. -/
def RR {α β : Type} (P : α → β → Prop) (k : Nat) (r : Res α) (r' : Res β) : Prop :=
  (∃ v w rest, r = .ok v rest ∧ r' = .ok w rest ∧ P v w ∧ rest.length ≤ k) ∨
    ∃ v w e, r = .err v e ∧ r' = .err w e ∧ P v w

/-- Likewise, but nothing is said about what a failed call leaves behind. -/
def RN {α β : Type} (P : α → β → Prop) (k : Nat) (r : Res α) (r' : Res β) : Prop :=
  (∃ v w rest, r = .ok v rest ∧ r' = .ok w rest ∧ P v w ∧ rest.length ≤ k) ∨
    ∃ v w e, r = .err v e ∧ r' = .err w e

/-- Two results of functions that return what they read agree. -/
def RE {α β : Type} (P : α → β → Prop) (k : Nat) (r : Except Err (α × Bytes)) (r' : Except Err (β × Bytes)) : Prop :=
  (∃ v w rest, r = .ok (v, rest) ∧ r' = .ok (w, rest) ∧ P v w ∧ rest.length ≤ k) ∨
    ∃ e, r = .error e ∧ r' = .error e

theorem RR.ok {α β : Type} {P : α → β → Prop} {k : Nat} {v : α} {w : β} {rest : Bytes} (h : P v w) (hk : rest.length ≤ k) :
    RR P k (.ok v rest) (.ok w rest) := .inl ⟨v, w, rest, rfl, rfl, h, hk⟩

theorem RR.err {α β : Type} {P : α → β → Prop} {k : Nat} {v : α} {w : β} {e : Err} (h : P v w) : RR P k (.err v e) (.err w e) :=
  .inr ⟨v, w, e, rfl, rfl, h⟩

theorem RR.map {α β γ δ : Type} {P : α → β → Prop} {Q : γ → δ → Prop} {k k' : Nat} {r : Res α} {r' : Res β} {f : α → γ} {g : β → δ}
    (h : RR P k r r') (hf : ∀ v w, P v w → Q (f v) (g w)) (hk : k ≤ k') : RR Q k' (r.map f) (r'.map g) := by
  rcases h with ⟨v, w, rest, rfl, rfl, h, hl⟩ | ⟨v, w, e, rfl, rfl, h⟩
  · exact .ok (hf _ _ h) (by omega)
  · exact .err (hf _ _ h)

theorem RR.mono {α β : Type} {P : α → β → Prop} {k k' : Nat} {r : Res α} {r' : Res β} (h : RR P k r r') (hk : k ≤ k') :
    RR P k' r r' := by
  rcases h with ⟨v, w, rest, h1, h2, h, hl⟩ | h
  · exact .inl ⟨v, w, rest, h1, h2, h, by omega⟩
  · exact .inr h

theorem RR.same {α β : Type} {P : α → β → Prop} {k : Nat} {r : Res α} {r' : Res β} (h : RR P k r r') : SameRes P r r' := by
  rcases h with ⟨v, w, rest, rfl, rfl, h, hl⟩ | ⟨v, w, e, rfl, rfl, h⟩
  · exact ⟨h, rfl⟩
  · exact ⟨h, rfl⟩

theorem RR.loose {α β : Type} {P : α → β → Prop} {k : Nat} {r : Res α} {r' : Res β} (h : RR P k r r') : RN P k r r' := by
  rcases h with h | ⟨v, w, e, h1, h2, _⟩
  · exact .inl h
  · exact .inr ⟨v, w, e, h1, h2⟩

theorem sameRes_map {α β γ δ : Type} {P : α → β → Prop} {Q : γ → δ → Prop} {r : Res α} {r' : Res β} {f : α → γ} {g : β → δ}
    (h : SameRes P r r') (hf : ∀ v w, P v w → Q (f v) (g w)) : SameRes Q (r.map f) (r'.map g) := by
  cases r <;> cases r' <;> simp only [SameRes, Res.map] at h ⊢
  · exact ⟨hf _ _ h.1, h.2⟩
  · exact ⟨hf _ _ h.1, h.2⟩

/-! ## Lists -/

section
variable {α β : Type} {R : α → β → Prop}

theorem sameItems_length : ∀ {xs : List α} {ys : List β}, SameItems R xs ys → xs.length = ys.length
  | [], [], _ => rfl
  | _ :: _, _ :: _, h => by simp [sameItems_length h.2]

theorem sameItems_append : ∀ {xs : List α} {ys : List β} {xs' : List α} {ys' : List β}, SameItems R xs ys → SameItems R xs' ys' →
    SameItems R (xs ++ xs') (ys ++ ys')
  | [], [], _, _, _, h' => h'
  | _ :: _, _ :: _, _, _, h, h' => ⟨h.1, sameItems_append h.2 h'⟩

theorem sameItems_one {x : α} {y : β} (h : R x y) : SameItems R [x] [y] := ⟨h, trivial⟩

theorem sameItems_get : ∀ {xs : List α} {ys : List β}, SameItems R xs ys → ∀ i : Nat, SameOption R xs[i]? ys[i]?
  | [], [], _, i => by simp [SameOption]
  | x :: xs, y :: ys, h, 0 => h.1
  | x :: xs, y :: ys, h, i + 1 => by simpa using sameItems_get h.2 i

theorem sameItems_set : ∀ {xs : List α} {ys : List β}, SameItems R xs ys → ∀ (i : Nat) {x : α} {y : β}, R x y →
    SameItems R (xs.set i x) (ys.set i y)
  | [], [], _, _, _, _, _ => trivial
  | _ :: _, _ :: _, h, 0, _, _, hr => ⟨hr, h.2⟩
  | _ :: _, _ :: _, h, i + 1, _, _, hr => ⟨h.1, sameItems_set h.2 i hr⟩

theorem sameItems_dropLast : ∀ {xs : List α} {ys : List β}, SameItems R xs ys → SameItems R xs.dropLast ys.dropLast
  | [], [], _ => trivial
  | [_], [_], _ => trivial
  | [_], _ :: _ :: _, h => absurd h.2 (by simp [SameItems])
  | _ :: _ :: _, [_], h => absurd h.2 (by simp [SameItems])
  | _ :: a :: as, _ :: b :: bs, h => ⟨h.1, sameItems_dropLast (xs := a :: as) (ys := b :: bs) h.2⟩

theorem sameItems_getLast : ∀ {xs : List α} {ys : List β}, SameItems R xs ys → SameOption R xs.getLast? ys.getLast?
  | [], [], _ => trivial
  | [_], [_], h => h.1
  | [_], _ :: _ :: _, h => absurd h.2 (by simp [SameItems])
  | _ :: _ :: _, [_], h => absurd h.2 (by simp [SameItems])
  | _ :: a :: as, _ :: b :: bs, h => by
    simpa using sameItems_getLast (xs := a :: as) (ys := b :: bs) h.2

theorem sameItems_nil {xs : List α} {ys : List β} (h : SameItems R xs ys) : xs = [] ↔ ys = [] := by
  cases xs <;> cases ys <;> simp_all [SameItems]

theorem sameItems_replicate {x : α} {y : β} (h : R x y) : ∀ n : Nat, SameItems R (List.replicate n x) (List.replicate n y)
  | 0 => trivial
  | n + 1 => ⟨h, sameItems_replicate h n⟩

theorem sameItems_map {γ δ : Type} {Q : γ → δ → Prop} {f : α → γ} {g : β → δ} (hf : ∀ x y, R x y → Q (f x) (g y)) :
    ∀ {xs : List α} {ys : List β}, SameItems R xs ys → SameItems Q (xs.map f) (ys.map g)
  | [], [], _ => trivial
  | _ :: _, _ :: _, h => ⟨hf _ _ h.1, sameItems_map hf h.2⟩

theorem sameItems_findIdx {p : α → Bool} {q : β → Bool} (hp : ∀ x y, R x y → p x = q y) :
    ∀ {xs : List α} {ys : List β}, SameItems R xs ys → xs.findIdx? p = ys.findIdx? q
  | [], [], _ => rfl
  | x :: xs, y :: ys, h => by
    rw [List.findIdx?_cons, List.findIdx?_cons, hp x y h.1, sameItems_findIdx hp h.2]

end

/-! ## Entries of maps -/

section
variable {α β : Type} {R : α → β → Prop}

theorem same_entriesGet (k : U32) : ∀ {xs : List (U32 × α)} {ys : List (U32 × β)}, SameItems (SamePair Eq R) xs ys →
    SameOption R (entriesGet k xs) (entriesGet k ys)
  | [], [], _ => trivial
  | (a, x) :: xs, (b, y) :: ys, h => by
    have hab : a = b := h.1.1
    subst hab
    rw [entriesGet, entriesGet]
    split
    · exact h.1.2
    · exact same_entriesGet k h.2

theorem same_entriesInsert (k : U32) {x : α} {y : β} (hxy : R x y) : ∀ {xs : List (U32 × α)} {ys : List (U32 × β)},
    SameItems (SamePair Eq R) xs ys → SameItems (SamePair Eq R) (entriesInsert k x xs) (entriesInsert k y ys)
  | [], [], _ => ⟨⟨rfl, hxy⟩, trivial⟩
  | (a, _) :: xs, (b, _) :: ys, h => by
    have hab : a = b := h.1.1
    subst hab
    rw [entriesInsert, entriesInsert]
    split
    · exact ⟨⟨rfl, hxy⟩, h.2⟩
    · exact ⟨h.1, same_entriesInsert k hxy h.2⟩

theorem same_entriesRemove (k : U32) {xs : List (U32 × α)} {ys : List (U32 × β)} (h : SameItems (SamePair Eq R) xs ys) :
    SameItems (SamePair Eq R) (entriesRemove k xs) (entriesRemove k ys) := by
  have hi : xs.findIdx? (fun e => decide (e.1 = k)) = ys.findIdx? (fun e => decide (e.1 = k)) :=
    sameItems_findIdx (fun x y hxy => by rw [show x.1 = y.1 from hxy.1]) h
  unfold entriesRemove
  rw [hi, sameItems_length h]
  cases ys.findIdx? (fun e => decide (e.1 = k)) with
  | none => exact h
  | some i =>
    dsimp only
    split
    · exact sameItems_dropLast h
    · have hl := sameItems_getLast h
      cases hx : xs.getLast? <;> cases hy : ys.getLast? <;> rw [hx, hy] at hl
      · exact h
      · exact absurd hl (by simp [SameOption])
      · exact absurd hl (by simp [SameOption])
      · exact sameItems_dropLast (sameItems_set h i hl)

end

/-! ## The relation -/

section
variable {α β : Type}

/-- Two implementations of `Serialize` write the same for related values. -/
structure SerRel (P : α → β → Prop) (s : SerD α) (s' : SerD β) : Prop where
  hasCache : ∀ {v w}, P v w → s.hasCache v = s'.hasCache w
  computeSize : ∀ m l {v w}, P v w → s.computeSize m l v = s'.computeSize m l w
  serializeCached : ∀ m l {v w}, P v w → s.serializeCached m l v = s'.serializeCached m l w

/-- Two implementations of all traits agree on related values and inputs shorter than `j`. -/
structure DictRel (P : α → β → Prop) (j : Nat) (d : Dict α) (d' : Dict β) : Prop where
  ser : SerRel P d.toSerD d'.toSerD
  wire : d.wire = d'.wire
  isOmissible : ∀ m l {v w} o, P v w → d.isOmissible m l v o = d'.isOmissible m l w o
  dflt : 1 ≤ j → P d.dflt d'.dflt
  withRuntime : 1 ≤ j → ∀ rt, P (d.withRuntime rt) (d'.withRuntime rt)
  runtime : ∀ {v w}, P v w → d.runtime v = d'.runtime w
  setRuntime : ∀ rt {v w}, P v w → P (d.setRuntime rt v) (d'.setRuntime rt w)
  isRoot : ∀ {v w}, P v w → d.isRoot v = d'.isRoot w
  merge : ∀ m {v w bs}, P v w → bs.length < j → RR P bs.length (d.merge m v bs) (d'.merge m w bs)
  handleUpdate : ∀ m {v w bs}, P v w → bs.length < j → RR P bs.length (d.handleUpdate m v bs) (d'.handleUpdate m w bs)
  handle : ∀ m {v w path bs} kind key, P v w → path.length + bs.length + 1 < j →
    SameRes P (d.handle m v path kind key bs) (d'.handle m w path kind key bs)

/-- The relation at level `j`; types written as varints, which contain no messages, are related at every level. -/
def Rel (P : α → β → Prop) (j : Nat) (d : Dict α) (d' : Dict β) : Prop :=
  DictRel P j d d' ∧ (d.wire = .varint → ∀ j', DictRel P j' d d')

variable {P : α → β → Prop} {j : Nat} {d : Dict α} {d' : Dict β}

theorem DictRel.mono (h : DictRel P j d d') {j' : Nat} (hj : j' ≤ j) : DictRel P j' d d' :=
  { h with
    dflt := fun hj' => h.dflt (by omega)
    withRuntime := fun hj' => h.withRuntime (by omega)
    merge := fun m _ _ _ hv hb => h.merge m hv (by omega)
    handleUpdate := fun m _ _ _ hv hb => h.handleUpdate m hv (by omega)
    handle := fun m _ _ _ _ kind key hv hb => h.handle m kind key hv (by omega) }

theorem Rel.mono (h : Rel P j d d') {j' : Nat} (hj : j' ≤ j) : Rel P j' d d' := ⟨h.1.mono hj, h.2⟩

theorem SerRel.cacheSize {s : SerD α} {s' : SerD β} (h : SerRel P s s') (m : Mode) (l : Loc) {v : α} {w : β} (hv : P v w) :
    s.cacheSize m l v = s'.cacheSize m l w := by
  unfold SerD.cacheSize; rw [h.computeSize m l hv, h.hasCache hv]

theorem SerRel.cachedSize {s : SerD α} {s' : SerD β} (h : SerRel P s s') (m : Mode) (l : Loc) {v : α} {w : β} (hv : P v w) :
    s.cachedSize m l v = s'.cachedSize m l w := by
  unfold SerD.cachedSize; rw [h.computeSize m l hv, h.hasCache hv]

theorem SerRel.isOmissibleBySize {s : SerD α} {s' : SerD β} (h : SerRel P s s') (m : Mode) (l : Loc) {v : α} {w : β} (o : Option Nat)
    (hv : P v w) : s.isOmissibleBySize m l v o = s'.isOmissibleBySize m l w o := by
  unfold SerD.isOmissibleBySize; cases o with
  | some n => rfl
  | none => rw [h.cachedSize m l hv]

theorem DictRel.computeSizeNested (h : DictRel P j d d') (m : Mode) (l : Loc) {v : α} {w : β} (f : Option U32) (o : Bool)
    (hv : P v w) : d.computeSizeNested m l v f o = d'.computeSizeNested m l w f o := by
  unfold Dict.computeSizeNested
  simp only [h.ser.cacheSize m l hv, fun n => h.isOmissible m l (some n) hv, h.wire]

theorem DictRel.serializeNested (h : DictRel P j d d') (m : Mode) (l : Loc) {v : α} {w : β} (f : Option U32) (o : Bool)
    (hv : P v w) : d.serializeNested m l v f o = d'.serializeNested m l w f o := by
  unfold Dict.serializeNested
  simp only [h.ser.cachedSize m l hv, h.isOmissible m l none hv, h.wire, h.ser.serializeCached m l hv]

theorem DictRel.toBytes (h : DictRel P j d d') (m : Mode) {v : α} {w : β} (hv : P v w) : d.toBytes m v = d'.toBytes m w := by
  unfold Dict.toBytes Dict.steitSerialize
  rw [h.ser.cacheSize m [] hv, h.ser.serializeCached m [] hv]

theorem getVarint_shorter {m : Mode} {w : Nat} (hw : 8 ≤ w) {bs rest : Bytes} {x : BitVec w}
    (h : getVarint m w bs = .ok (x, rest)) : rest.length < bs.length := by
  obtain ⟨c, rfl, hc⟩ := (readsVarint_uint m hw).ok h
  have := hc.length_pos
  simp only [List.length_append]; omega

theorem withNested_rel {Q : α → β → Prop} (m : Mode) {v : α} {w : β} {bs : Bytes} {f : Bytes → Res α} {g : Bytes → Res β}
    (hv : Q v w) (h : ∀ inner : Bytes, inner.length < bs.length → RR Q inner.length (f inner) (g inner)) :
    RR Q bs.length (withNested m v bs f) (withNested m w bs g) := by
  unfold withNested
  cases hg : getVarint m 64 bs with
  | error e => exact .err hv
  | ok x =>
    obtain ⟨size, rest⟩ := x
    have hl := getVarint_shorter (by decide) hg
    dsimp only
    have hi : (rest.take size.toNat).length < bs.length := by simp only [List.length_take]; omega
    rcases h _ hi with ⟨v', w', u, h1, h2, h3, h4⟩ | ⟨v', w', e, h1, h2, h3⟩
    · rw [h1, h2]
      refine .ok h3 ?_
      simp only [List.length_append, List.length_take, List.length_drop] at h4 ⊢
      omega
    · rw [h1, h2]
      exact .err h3

theorem withNested_loose {Q : α → β → Prop} (m : Mode) {v : α} {w : β} {bs : Bytes} {f : Bytes → Res α} {g : Bytes → Res β}
    (h : ∀ inner : Bytes, inner.length < bs.length → RR Q inner.length (f inner) (g inner)) :
    RN Q bs.length (withNested m v bs f) (withNested m w bs g) := by
  unfold withNested
  cases hg : getVarint m 64 bs with
  | error e => exact .inr ⟨_, _, _, rfl, rfl⟩
  | ok x =>
    obtain ⟨size, rest⟩ := x
    have hl := getVarint_shorter (by decide) hg
    dsimp only
    have hi : (rest.take size.toNat).length < bs.length := by simp only [List.length_take]; omega
    rcases h _ hi with ⟨v', w', u, h1, h2, h3, h4⟩ | ⟨v', w', e, h1, h2, h3⟩
    · rw [h1, h2]
      refine .inl ⟨_, _, _, rfl, rfl, h3, ?_⟩
      simp only [List.length_append, List.length_take, List.length_drop] at h4 ⊢
      omega
    · rw [h1, h2]
      exact .inr ⟨_, _, _, rfl, rfl⟩

theorem Rel.mergeNested (h : Rel P j d d') (m : Mode) {v : α} {w : β} (wt : WireType) {bs : Bytes} (hv : P v w)
    (hb : bs.length < j + 1) : RR P bs.length (d.mergeNested m v wt bs) (d'.mergeNested m w wt bs) := by
  unfold Dict.mergeNested
  rw [← h.1.wire]
  by_cases hw : wt ≠ d.wire
  · rw [if_pos hw, if_pos hw]
    cases hs : skipField m wt bs with
    | error e => exact .err hv
    | ok rest => exact .ok hv (by have := (skipField_ok hs).2; omega)
  · rw [if_neg hw, if_neg hw]
    have hw : wt = d.wire := Classical.not_not.mp hw
    cases wt with
    | varint => exact (h.2 hw.symm (bs.length + 1)).merge m hv (by omega)
    | sized => exact withNested_rel m hv fun inner hi => h.1.merge m hv (by omega)

/-- A value that is built before it is read into. -/
theorem Rel.fresh (h : Rel P j d d') (m : Mode) {v : α} {w : β} {bs : Bytes} (hv : ∀ j', DictRel P j' d d' → 1 ≤ j' → P v w)
    (hb : bs.length < j + 1) : RN P bs.length (d.mergeNested m v d.wire bs) (d'.mergeNested m w d'.wire bs) := by
  unfold Dict.mergeNested
  rw [← h.1.wire, if_neg (by simp), if_neg (by simp)]
  cases hw : d.wire with
  | varint => exact ((h.2 hw (bs.length + 1)).merge m (hv _ (h.2 hw 1) (by omega)) (by omega)).loose
  | sized =>
    exact withNested_loose m fun inner hi => h.1.merge m (hv _ h.1 (by omega)) (by omega)

theorem Rel.deserializeNested (h : Rel P j d d') (m : Mode) {bs : Bytes} (hb : bs.length < j + 1) :
    RE P bs.length (d.deserializeNested m d.wire bs) (d'.deserializeNested m d'.wire bs) := by
  unfold Dict.deserializeNested
  rcases h.fresh m (v := d.dflt) (w := d'.dflt) (fun _ hd hj => hd.dflt hj) hb with
    ⟨v', w', u, h1, h2, h3, h4⟩ | ⟨v', w', e, h1, h2⟩
  · rw [h1, h2]; exact .inl ⟨_, _, _, rfl, rfl, h3, h4⟩
  · rw [h1, h2]; exact .inr ⟨_, rfl, rfl⟩

theorem untilEof_rel {Q : α → β → Prop} {step : α → Bytes → Res α} {step' : β → Bytes → Res β} {k : Nat}
    (hs : ∀ v w bs, Q v w → bs ≠ [] → bs.length ≤ k → RR Q bs.length (step v bs) (step' w bs)) :
    ∀ (fuel : Nat) {v : α} {w : β} {bs : Bytes}, Q v w → bs.length ≤ k →
      RR Q bs.length (untilEof step fuel v bs) (untilEof step' fuel w bs)
  | fuel, v, w, [], hv, _ => by
    cases fuel <;> exact .ok hv (Nat.le_refl _)
  | 0, v, w, b :: bs, hv, _ => .err hv
  | fuel + 1, v, w, b :: bs, hv, hk => by
    rw [untilEof, untilEof]
    rcases hs v w (b :: bs) hv (by simp) hk with ⟨v', w', u, h1, h2, h3, h4⟩ | ⟨v', w', e, h1, h2, h3⟩
    · rw [h1, h2]
      exact (untilEof_rel hs fuel h3 (by omega)).mono h4
    · rw [h1, h2]
      exact .err h3

end

/-! ## Types without `State` -/

theorem plain_rel {α β : Type} {P : α → β → Prop} {j : Nat} {s : SerD α} {s' : SerD β} {om om'} {dv : α} {dw : β} {mg mg'}
    (hs : SerRel P s s') (ho : ∀ m l v w o, P v w → om m l v o = om' m l w o) (hd : 1 ≤ j → P dv dw)
    (hm : ∀ m v w bs, P v w → bs.length < j → RR P bs.length (mg m v bs) (mg' m w bs)) :
    DictRel P j (plainDict s om dv mg) (plainDict s' om' dw mg') where
  ser := ⟨hs.hasCache, hs.computeSize, hs.serializeCached⟩
  wire := rfl
  isOmissible := fun m l _ _ o hv => ho m l _ _ o hv
  dflt := hd
  withRuntime := fun hj _ => hd hj
  runtime := fun _ => rfl
  setRuntime := fun _ _ _ hv => hv
  isRoot := fun _ => rfl
  merge := fun m _ _ _ hv hb => hm m _ _ _ hv hb
  handleUpdate := fun _ _ _ _ hv _ => .err hv
  handle := fun _ _ _ _ _ _ _ hv _ => ⟨hv, rfl⟩

/-- Equal implementations over equal values, whatever the level. -/
theorem prim_rel {α : Type} [DecidableEq α] {size put get} {dflt : α} (j : Nat)
    (hg : ∀ m bs x rest, get m bs = .ok (x, rest) → rest.length ≤ bs.length) :
    Rel (Eq : α → α → Prop) j (primDict size put get dflt) (primDict size put get dflt) := by
  have hm : ∀ (m : Mode) (v w : α) (bs : Bytes), v = w → RR Eq bs.length
      ((primDict size put get dflt).merge m v bs) ((primDict size put get dflt).merge m w bs) := by
    intro m v w bs hv
    subst hv
    cases hp : get m bs with
    | error e => exact .inr ⟨v, v, e, by simp [primDict, hp], by simp [primDict, hp], rfl⟩
    | ok x => exact .inl ⟨x.1, x.1, x.2, by simp [primDict, hp], by simp [primDict, hp], rfl, hg m bs x.1 x.2 hp⟩
  have h : ∀ j', DictRel (Eq : α → α → Prop) j' (primDict size put get dflt) (primDict size put get dflt) := by
    intro j'
    refine ⟨⟨fun h => by rw [h], fun _ _ _ _ h => by rw [h], fun _ _ _ _ h => by rw [h]⟩, rfl, fun _ _ _ _ _ h => by rw [h],
      fun _ => rfl, fun _ _ => rfl, fun _ => rfl, fun _ _ _ h => h, fun _ => rfl, fun m v w bs h _ => hm m v w bs h,
      fun m v w bs h _ => hm m v w bs h, ?_⟩
    intro m v w path bs kind key hv _
    subst hv
    have : ∀ r : Res α, SameRes Eq r r := by intro r; cases r <;> exact ⟨rfl, rfl⟩
    exact this _
  exact ⟨h j, fun _ => h⟩

theorem uint_rel (w : Width) (j : Nat) : Rel (Eq : BitVec w.bits → BitVec w.bits → Prop) j (uintDict w) (uintDict w) :=
  prim_rel j fun m bs x rest h => by
    have := getVarint_shorter (by cases w <;> decide) h; omega

theorem sint_rel (w : Width) (j : Nat) : Rel (Eq : BitVec w.bits → BitVec w.bits → Prop) j (sintDict w) (sintDict w) :=
  prim_rel j fun m bs x rest h => by
    obtain ⟨c, rfl, _⟩ := (readsVarint_sint m (by cases w <;> decide)).ok h
    simp only [List.length_append]; omega

theorem bool_rel (j : Nat) : Rel (Eq : Bool → Bool → Prop) j boolDict boolDict :=
  prim_rel j fun m bs x rest h => by
    obtain ⟨c, rfl, _⟩ := (readsVarint_bool m).ok h
    simp only [List.length_append]; omega

theorem eq_ser {α : Type} (s : SerD α) : SerRel (Eq : α → α → Prop) s s :=
  ⟨fun h => by rw [h], fun _ _ _ _ h => by rw [h], fun _ _ _ _ h => by rw [h]⟩

theorem string_rel (j : Nat) : DictRel (Eq : Str → Str → Prop) j stringDict stringDict := by
  refine plain_rel (eq_ser _) (fun m l v w o h => by rw [h]) (fun _ => rfl) ?_
  intro m v w bs hv _
  subst hv
  split
  · exact .ok rfl (by simp)
  · exact .err rfl

theorem bytes_rel (j : Nat) : DictRel (Eq : Bytes → Bytes → Prop) j bytesDict bytesDict := by
  refine plain_rel (eq_ser _) (fun m l v w o h => by rw [h]) (fun _ => rfl) ?_
  intro m v w bs hv _
  subst hv
  exact .ok rfl (by simp)

theorem sized_rel {α β : Type} {P : α → β → Prop} {j : Nat} {d : Dict α} {d' : Dict β} (h : DictRel P j d d')
    (hw : d.wire = .sized) : Rel P j d d' := ⟨h, fun hv => by rw [hw] at hv; cases hv⟩

section
variable {α β : Type} {P : α → β → Prop} {j : Nat} {d : Dict α} {d' : Dict β}

theorem sizeItems_rel (h : Rel P j d d') (m : Mode) (l : Loc) : ∀ (i size : Nat) {xs : List α} {ys : List β}, SameItems P xs ys →
    sizeItems d m l i size xs = sizeItems d' m l i size ys
  | _, _, [], [], _ => rfl
  | i, size, x :: xs, y :: ys, hx => by
    rw [sizeItems, sizeItems, h.1.computeSizeNested m _ none false hx.1]
    simp only [fun n => sizeItems_rel h m l (i + 1) n hx.2]

theorem serializeItems_rel (h : Rel P j d d') (m : Mode) (l : Loc) : ∀ (i : Nat) {xs : List α} {ys : List β}, SameItems P xs ys →
    serializeItems d m l i xs = serializeItems d' m l i ys
  | _, [], [], _ => rfl
  | i, x :: xs, y :: ys, hx => by
    rw [serializeItems, serializeItems, h.1.serializeNested m _ none false hx.1, serializeItems_rel h m l (i + 1) hx.2]

theorem vecSer_rel (h : Rel P j d d') : SerRel (SameItems P) (vecSer d) (vecSer d') :=
  ⟨fun _ => rfl, fun m l _ _ hx => sizeItems_rel h m l 0 0 hx, fun m l _ _ hx => serializeItems_rel h m l 0 hx⟩

theorem vec_rel (h : Rel P j d d') : DictRel (SameItems P) (j + 1) (vecDict d) (vecDict d') := by
  refine plain_rel (vecSer_rel h) (fun m l v w o hv => (vecSer_rel h).isOmissibleBySize m l o hv) (fun _ => trivial) ?_
  intro m v w bs hv hb
  refine untilEof_rel (k := j) ?_ _ hv (by omega)
  intro v w bs hv _ hb
  unfold vecStep
  rcases h.deserializeNested m (bs := bs) (by omega) with ⟨x, y, rest, h1, h2, h3, h4⟩ | ⟨e, h1, h2⟩
  · rw [h1, h2]; exact .ok (sameItems_append hv (sameItems_one h3)) h4
  · rw [h1, h2]; exact .err hv

theorem arrayLoop_rel (h : Rel P j d d') (m : Mode) : ∀ {todo : List α} {todo' : List β} {done : List α} {done' : List β} {bs : Bytes},
    SameItems P todo todo' → SameItems P done done' → bs.length < j + 1 →
    RR (fun x y => SameItems P x.1 y.1) bs.length (arrayLoop d m done todo bs) (arrayLoop d' m done' todo' bs)
  | [], [], done, done', bs, _, hd, _ => by
    rw [arrayLoop, arrayLoop]; exact .ok hd (Nat.le_refl _)
  | t :: todo, t' :: todo', done, done', [], ht, hd, _ => by
    rw [arrayLoop, arrayLoop]; exact .ok (sameItems_append hd ht) (Nat.le_refl _)
  | t :: todo, t' :: todo', done, done', b :: bs, ht, hd, hb => by
    rw [arrayLoop, arrayLoop]
    rcases h.deserializeNested m (bs := b :: bs) hb with ⟨x, y, rest, h1, h2, h3, h4⟩ | ⟨e, h1, h2⟩
    · rw [h1, h2]
      exact (arrayLoop_rel h m ht.2 (sameItems_append hd (sameItems_one h3)) (by omega)).map (fun _ _ h => h) h4
    · rw [h1, h2]; exact .err (sameItems_append hd ht)

theorem array_rel (n : Nat) (h : Rel P j d d') :
    DictRel (fun (x : ArrayV α n) (y : ArrayV β n) => SameItems P x.1 y.1) j (arrayDict n d) (arrayDict n d') := by
  have hs : SerRel (fun (x : ArrayV α n) (y : ArrayV β n) => SameItems P x.1 y.1)
      { hasCache := fun _ => false
        computeSize := fun m l xs => sizeItems d m l 0 0 xs.1
        serializeCached := fun m l xs => serializeItems d m l 0 xs.1 }
      { hasCache := fun _ => false
        computeSize := fun m l xs => sizeItems d' m l 0 0 xs.1
        serializeCached := fun m l xs => serializeItems d' m l 0 xs.1 } :=
    ⟨fun _ => rfl, fun m l _ _ hx => sizeItems_rel h m l 0 0 hx, fun m l _ _ hx => serializeItems_rel h m l 0 hx⟩
  refine plain_rel hs (fun m l v w o hv => hs.isOmissibleBySize m l o hv)
    (fun hj => sameItems_replicate (h.1.dflt hj) n) ?_
  intro m v w bs hv hb
  rcases arrayLoop_rel h m (bs := bs) hv (done := []) (done' := []) trivial (by omega) with
    ⟨x, y, rest, h1, h2, h3, h4⟩ | ⟨x, y, e, h1, h2, h3⟩
  · rw [h1, h2]; exact .ok h3 (by simp)
  · rw [h1, h2]; exact .err h3

theorem option_rel (h : Rel P j d d') : DictRel (SameOption P) (j + 1) (optionDict d) (optionDict d') := by
  have hs : SerRel (SameOption P)
      { hasCache := fun _ => false
        computeSize := fun m l o =>
          match o with
          | some x => (d.computeSizeNested m (l ++ [0]) x none false).unwrap
          | none => pure 0
        serializeCached := fun m l o =>
          match o with
          | some x => d.serializeNested m (l ++ [0]) x none false
          | none => pure [] }
      { hasCache := fun _ => false
        computeSize := fun m l o =>
          match o with
          | some x => (d'.computeSizeNested m (l ++ [0]) x none false).unwrap
          | none => pure 0
        serializeCached := fun m l o =>
          match o with
          | some x => d'.serializeNested m (l ++ [0]) x none false
          | none => pure [] } := by
    refine ⟨fun _ => rfl, ?_, ?_⟩
    · intro m l v w hv
      cases v <;> cases w <;> simp only [SameOption] at hv
      · rfl
      · dsimp only; rw [h.1.computeSizeNested m _ none false hv]
    · intro m l v w hv
      cases v <;> cases w <;> simp only [SameOption] at hv
      · rfl
      · dsimp only; rw [h.1.serializeNested m _ none false hv]
  refine plain_rel hs (fun m l v w o hv => hs.isOmissibleBySize m l o hv) (fun _ => trivial) ?_
  intro m v w bs hv hb
  refine untilEof_rel (k := j) ?_ _ hv (by omega)
  intro v w bs hv hne hb
  have hpos : 0 < bs.length := List.length_pos_iff.2 hne
  have hd : P (v.getD d.dflt) (w.getD d'.dflt) := by
    cases v <;> cases w <;> simp only [SameOption] at hv
    · exact h.1.dflt (by omega)
    · exact hv
  unfold optionStep
  rw [← h.1.wire]
  exact (h.mergeNested m d.wire hd (by omega)).map (fun _ _ h => h) (Nat.le_refl _)

theorem box_rel (h : Rel P j d d') : Rel P j (boxDict d) (boxDict d') := by
  have key : ∀ j', DictRel P j' d d' → DictRel P j' (boxDict d) (boxDict d') := by
    intro j' h
    refine ⟨⟨h.ser.hasCache, h.ser.computeSize, h.ser.serializeCached⟩, h.wire,
      fun m l _ _ o hv => h.ser.isOmissibleBySize m l o hv, h.dflt, h.withRuntime, h.runtime, h.setRuntime, ?_, h.merge, ?_, h.handle⟩
    · intro v w hv
      simp only [boxDict, isRootDefault, h.runtime hv]
    · intro m v w bs hv hb
      simp only [boxDict, handleUpdateDefault, h.runtime hv]
      cases d'.runtime w with
      | none => exact .err hv
      | some rt => exact h.merge m (h.withRuntime (by omega) rt) hb
  exact ⟨key j h.1, fun hw j' => key j' (h.2 hw j')⟩

end

/-! ## Tuples and hash maps -/

/-- The components of a tuple agree. -/
structure TupleRel {α β : Type} (P : α → β → Prop) (j : Nat) (t : TupleD α) (t' : TupleD β) : Prop where
  sizes : ∀ m l i size {v w}, P v w → t.sizes m l i size v = t'.sizes m l i size w
  serialize : ∀ m l i {v w}, P v w → t.serialize m l i v = t'.serialize m l i w
  dflt : 1 ≤ j → P t.dflt t'.dflt
  read : ∀ m {bs : Bytes}, bs.length < j + 1 → RE P bs.length (t.read m bs) (t'.read m bs)

theorem tupleNil_rel (j : Nat) : TupleRel (fun _ _ => True) j tupleNil tupleNil :=
  ⟨fun _ _ _ _ _ _ _ => rfl, fun _ _ _ _ _ _ => rfl, fun _ => trivial,
    fun _ bs _ => .inl ⟨(), (), bs, rfl, rfl, trivial, Nat.le_refl _⟩⟩

theorem tupleCons_rel {α β α' β' : Type} {P : α → α' → Prop} {Q : β → β' → Prop} {j : Nat} {d : Dict α} {d' : Dict α'}
    {t : TupleD β} {t' : TupleD β'} (h : Rel P j d d') (ht : TupleRel Q j t t') :
    TupleRel (SamePair P Q) j (tupleCons d t) (tupleCons d' t') where
  sizes := fun m l i size v w hv => by
    simp only [tupleCons, h.1.computeSizeNested m _ none false hv.1, fun i n => ht.sizes m l i n hv.2]
  serialize := fun m l i v w hv => by
    simp only [tupleCons, h.1.serializeNested m _ none false hv.1, fun i => ht.serialize m l i hv.2]
  dflt := fun hj => ⟨h.1.dflt hj, ht.dflt hj⟩
  read := fun m bs hb => by
    simp only [tupleCons]
    rcases h.deserializeNested m hb with ⟨x, y, rest, h1, h2, h3, h4⟩ | ⟨e, h1, h2⟩
    · rw [h1, h2]
      dsimp only
      rcases ht.read m (bs := rest) (by omega) with ⟨x', y', rest', h1', h2', h3', h4'⟩ | ⟨e, h1', h2'⟩
      · rw [h1', h2']; exact .inl ⟨_, _, _, rfl, rfl, ⟨h3, h3'⟩, by omega⟩
      · rw [h1', h2']; exact .inr ⟨_, rfl, rfl⟩
    · rw [h1, h2]; exact .inr ⟨_, rfl, rfl⟩

theorem tuple_rel {α β : Type} {P : α → β → Prop} {j : Nat} {t : TupleD α} {t' : TupleD β} (h : TupleRel P j t t') :
    DictRel P j (tupleDict t) (tupleDict t') := by
  have hs : SerRel P
      { hasCache := fun _ => false
        computeSize := fun m l v => t.sizes m l 0 0 v
        serializeCached := fun m l v => t.serialize m l 0 v }
      { hasCache := fun _ => false
        computeSize := fun m l v => t'.sizes m l 0 0 v
        serializeCached := fun m l v => t'.serialize m l 0 v } :=
    ⟨fun _ => rfl, fun m l _ _ hv => h.sizes m l 0 0 hv, fun m l _ _ hv => h.serialize m l 0 hv⟩
  refine plain_rel hs (fun m l v w o hv => hs.isOmissibleBySize m l o hv) h.dflt ?_
  intro m v w bs hv hb
  rcases h.read m (bs := bs) (by omega) with ⟨x, y, rest, h1, h2, h3, h4⟩ | ⟨e, h1, h2⟩
  · rw [h1, h2]; exact .ok h3 (by simp)
  · rw [h1, h2]; exact .err hv

section
variable {κ ν κ' ν' : Type} {K : κ → κ' → Prop} {V : ν → ν' → Prop} {j : Nat} {dk : Dict κ} {dk' : Dict κ'} {dv : Dict ν} {dv' : Dict ν'}

theorem hashInsert_rel {eq : κ → κ → Bool} {eq' : κ' → κ' → Bool} (he : ∀ a b a' b', K a a' → K b b' → eq a b = eq' a' b')
    {k : κ} {k' : κ'} {v : ν} {v' : ν'} (hk : K k k') (hv : V v v') : ∀ {es : List (κ × ν)} {es' : List (κ' × ν')},
    SameItems (SamePair K V) es es' → SameItems (SamePair K V) (hashInsert eq k v es) (hashInsert eq' k' v' es')
  | [], [], _ => ⟨⟨hk, hv⟩, trivial⟩
  | (a, _) :: es, (b, _) :: es', h => by
    rw [hashInsert, hashInsert, he _ _ _ _ h.1.1 hk]
    split
    · exact ⟨⟨h.1.1, hv⟩, h.2⟩
    · exact ⟨h.1, hashInsert_rel he hk hv h.2⟩

theorem sizeEntries_rel (hk : Rel K j dk dk') (hv : Rel V j dv dv') (m : Mode) (l : Loc) : ∀ (i size : Nat)
    {xs : List (κ × ν)} {ys : List (κ' × ν')}, SameItems (SamePair K V) xs ys →
    sizeEntries dk dv m l i size xs = sizeEntries dk' dv' m l i size ys
  | _, _, [], [], _ => rfl
  | i, size, (a, x) :: xs, (b, y) :: ys, h => by
    rw [sizeEntries, sizeEntries, hk.1.computeSizeNested m _ none false h.1.1]
    simp only [hv.1.computeSizeNested m _ none false h.1.2, fun n => sizeEntries_rel hk hv m l (i + 1) n h.2]

theorem serializeEntries_rel (hk : Rel K j dk dk') (hv : Rel V j dv dv') (m : Mode) (l : Loc) : ∀ (i : Nat)
    {xs : List (κ × ν)} {ys : List (κ' × ν')}, SameItems (SamePair K V) xs ys →
    serializeEntries dk dv m l i xs = serializeEntries dk' dv' m l i ys
  | _, [], [], _ => rfl
  | i, (a, x) :: xs, (b, y) :: ys, h => by
    rw [serializeEntries, serializeEntries, hk.1.serializeNested m _ none false h.1.1,
      hv.1.serializeNested m _ none false h.1.2, serializeEntries_rel hk hv m l (i + 1) h.2]

theorem hashMap_rel {eq : κ → κ → Bool} {eq' : κ' → κ' → Bool} (he : ∀ a b a' b', K a a' → K b b' → eq a b = eq' a' b')
    (hk : Rel K j dk dk') (hv : Rel V j dv dv') :
    DictRel (SameItems (SamePair K V)) (j + 1) (hashMapDict eq dk dv) (hashMapDict eq' dk' dv') := by
  have hs : SerRel (SameItems (SamePair K V))
      { hasCache := fun _ => false
        computeSize := fun m l es => sizeEntries dk dv m l 0 0 es
        serializeCached := fun m l es => serializeEntries dk dv m l 0 es }
      { hasCache := fun _ => false
        computeSize := fun m l es => sizeEntries dk' dv' m l 0 0 es
        serializeCached := fun m l es => serializeEntries dk' dv' m l 0 es } :=
    ⟨fun _ => rfl, fun m l _ _ h => sizeEntries_rel hk hv m l 0 0 h, fun m l _ _ h => serializeEntries_rel hk hv m l 0 h⟩
  refine plain_rel hs (fun m l v w o h => hs.isOmissibleBySize m l o h) (fun _ => trivial) ?_
  intro m v w bs h hb
  refine untilEof_rel (k := j) ?_ _ h (by omega)
  intro v w bs h _ hb
  unfold hashMapStep
  rcases hk.deserializeNested m (bs := bs) (by omega) with ⟨x, y, rest, h1, h2, h3, h4⟩ | ⟨e, h1, h2⟩
  · rw [h1, h2]
    dsimp only
    rcases hv.deserializeNested m (bs := rest) (by omega) with ⟨x', y', rest', h1', h2', h3', h4'⟩ | ⟨e, h1', h2'⟩
    · rw [h1', h2']; exact .ok (hashInsert_rel he h3 h3' h) (by omega)
    · rw [h1', h2']; exact .err h
  · rw [h1, h2]; exact .err h

end

/-! ## `List` and `Map` -/

section
variable {α β : Type} {P : α → β → Prop} {j : Nat} {d : Dict α} {d' : Dict β}

/-- The same list. -/
def SameListV (P : α → β → Prop) (x : ListV α) (y : ListV β) : Prop := x.rt = y.rt ∧ SameItems P x.items y.items

/-- The same map. -/
def SameMapV (P : α → β → Prop) (x : MapV α) (y : MapV β) : Prop := x.rt = y.rt ∧ SameItems (SamePair Eq P) x.entries y.entries

theorem listMerge_rel (h : Rel P j d d') (m : Mode) {v : ListV α} {w : ListV β} {bs : Bytes} (hv : SameListV P v w)
    (hb : bs.length < j + 1) : RR (SameListV P) bs.length (listMerge d m v bs) (listMerge d' m w bs) := by
  refine untilEof_rel (k := j) ?_ _ hv (by omega)
  intro v w bs hv _ hb
  unfold listStep
  rw [hv.1, sameItems_length hv.2]
  dsimp only
  rcases h.fresh m (v := d.withRuntime (w.rt.nested (fieldNo w.items.length)))
    (w := d'.withRuntime (w.rt.nested (fieldNo w.items.length))) (fun _ hd hj => hd.withRuntime hj _) (bs := bs) (by omega) with
    ⟨x, y, rest, h1, h2, h3, h4⟩ | ⟨x, y, e, h1, h2⟩
  · rw [h1, h2]; exact .ok ⟨rfl, sameItems_append hv.2 (sameItems_one h3)⟩ h4
  · rw [h1, h2]; exact .err hv

theorem setRuntimeItems_rel (h : Rel P j d d') (rt : Rt) : ∀ (i : Nat) {xs : List α} {ys : List β}, SameItems P xs ys →
    SameItems P (setRuntimeItems d rt i xs) (setRuntimeItems d' rt i ys)
  | _, [], [], _ => trivial
  | i, _ :: _, _ :: _, hx => ⟨h.1.setRuntime _ hx.1, setRuntimeItems_rel h rt (i + 1) hx.2⟩

theorem list_rel (h : Rel P j d d') : DictRel (SameListV P) (j + 1) (listDict d) (listDict d') := by
  have hs : SerRel (SameListV P)
      { hasCache := fun _ => true
        computeSize := fun m l (v : ListV α) => (vecSer d).computeSize m l v.items
        serializeCached := fun m l v => (vecSer d).serializeCached m l v.items }
      { hasCache := fun _ => true
        computeSize := fun m l (v : ListV β) => (vecSer d').computeSize m l v.items
        serializeCached := fun m l v => (vecSer d').serializeCached m l v.items } :=
    ⟨fun _ => rfl, fun m l _ _ hx => (vecSer_rel h).computeSize m l hx.2, fun m l _ _ hx => (vecSer_rel h).serializeCached m l hx.2⟩
  refine ⟨⟨hs.hasCache, hs.computeSize, hs.serializeCached⟩, rfl, fun m l _ _ o hv => hs.isOmissibleBySize m l o hv,
    fun _ => ⟨rfl, trivial⟩, fun _ _ => ⟨rfl, trivial⟩, fun hv => congrArg some hv.1,
    fun rt v w hv => ⟨rfl, setRuntimeItems_rel h rt 0 hv.2⟩, ?_, fun m _ _ _ hv hb => listMerge_rel h m hv hb, ?_, ?_⟩
  · intro v w hv
    simp only [listDict, isRootDefault, hv.1]
  · intro m v w bs hv hb
    simp only [listDict, handleUpdateDefault, hv.1]
    exact listMerge_rel h m ⟨rfl, trivial⟩ hb
  · intro m v w path bs kind key hv hb
    simp only [listDict]
    unfold listHandle
    cases path with
    | cons n path =>
      dsimp only
      have hg := sameItems_get hv.2 n.toNat
      simp only [List.length_cons] at hb
      cases hx : v.items[n.toNat]? <;> cases hy : w.items[n.toNat]? <;> rw [hx, hy] at hg
      · exact ⟨hv, rfl⟩
      · exact absurd hg (by simp [SameOption])
      · exact absurd hg (by simp [SameOption])
      · exact sameRes_map (h.1.handle m kind key hg (by omega)) fun x y hxy => ⟨hv.1, sameItems_set hv.2 _ hxy⟩
    | nil =>
      simp only [List.length_nil] at hb
      cases kind with
      | update =>
        dsimp only
        rw [hv.1]
        exact (listMerge_rel h m (v := ⟨w.rt, []⟩) (w := ⟨w.rt, []⟩) (bs := bs) ⟨rfl, trivial⟩ (by omega)).same
      | listPush =>
        dsimp only
        rw [hv.1, sameItems_length hv.2]
        have hr := h.1.withRuntime (by omega) (w.rt.nested (fieldNo w.items.length))
        rcases h.1.merge m (bs := bs) hr (by omega) with ⟨x, y, rest, h1, h2, h3, h4⟩ | ⟨x, y, e, h1, h2, h3⟩
        · rw [h1, h2]; exact ⟨⟨rfl, sameItems_append hv.2 (sameItems_one h3)⟩, rfl⟩
        · rw [h1, h2]; exact ⟨hv, rfl⟩
      | listPop =>
        dsimp only
        by_cases hn : v.items = []
        · rw [if_pos hn, if_pos ((sameItems_nil hv.2).1 hn)]; exact ⟨hv, rfl⟩
        · rw [if_neg hn, if_neg (fun hw => hn ((sameItems_nil hv.2).2 hw))]
          exact ⟨⟨hv.1, sameItems_dropLast hv.2⟩, rfl⟩
      | mapRemove => exact ⟨hv, rfl⟩

theorem readMapKey_shorter {m : Mode} {kt : KeyTy} {bs rest : Bytes} {k : U32} (h : readMapKey m kt bs = .ok (k, rest)) :
    rest.length < bs.length := by
  unfold readMapKey at h
  simp only [bind, Except.bind] at h
  split at h
  · cases h
  · next y hy =>
    have hl := getVarint_shorter (by decide) hy
    split at h
    · cases h
    · split at h
      · cases h
      · split at h
        · cases h
        · cases h; exact hl

theorem mapMerge_rel (kt : KeyTy) (h : Rel P j d d') (m : Mode) {v : MapV α} {w : MapV β} {bs : Bytes} (hv : SameMapV P v w)
    (hb : bs.length < j + 1) : RR (SameMapV P) bs.length (mapMerge kt d m v bs) (mapMerge kt d' m w bs) := by
  refine untilEof_rel (k := j) ?_ _ hv (by omega)
  intro v w bs hv _ hb
  unfold mapStep
  cases hk : readMapKey m kt bs with
  | error e => exact .err hv
  | ok x =>
    obtain ⟨k, rest⟩ := x
    have hl := readMapKey_shorter hk
    dsimp only
    have hg := same_entriesGet k hv.2
    cases hx : entriesGet k v.entries <;> cases hy : entriesGet k w.entries <;> rw [hx, hy] at hg
    · dsimp only
      rw [hv.1]
      rcases h.fresh m (v := d.withRuntime (w.rt.nested k)) (w := d'.withRuntime (w.rt.nested k))
        (fun _ hd hj => hd.withRuntime hj _) (bs := rest) (by omega) with ⟨x, y, rest, h1, h2, h3, h4⟩ | ⟨x, y, e, h1, h2⟩
      · rw [h1, h2]; exact .ok ⟨rfl, same_entriesInsert k h3 hv.2⟩ (by omega)
      · rw [h1, h2]; exact .err hv
    · exact absurd hg (by simp [SameOption])
    · exact absurd hg (by simp [SameOption])
    · dsimp only
      rw [← h.1.wire]
      exact (h.mergeNested m d.wire hg (by omega)).map (fun _ _ hxy => ⟨hv.1, same_entriesInsert k hxy hv.2⟩) (by omega)

theorem sizeMapEntries_rel (h : Rel P j d d') (m : Mode) (l : Loc) : ∀ (i size : Nat) {xs : List (U32 × α)} {ys : List (U32 × β)},
    SameItems (SamePair Eq P) xs ys → sizeMapEntries d m l i size xs = sizeMapEntries d' m l i size ys
  | _, _, [], [], _ => rfl
  | i, size, (a, x) :: xs, (b, y) :: ys, hx => by
    have hab : a = b := hx.1.1
    subst hab
    rw [sizeMapEntries, sizeMapEntries, h.1.computeSizeNested m _ (some a) false hx.1.2]
    simp only [fun n => sizeMapEntries_rel h m l (i + 1) n hx.2]

theorem serializeMapEntries_rel (h : Rel P j d d') (m : Mode) (l : Loc) : ∀ (i : Nat) {xs : List (U32 × α)} {ys : List (U32 × β)},
    SameItems (SamePair Eq P) xs ys → serializeMapEntries d m l i xs = serializeMapEntries d' m l i ys
  | _, [], [], _ => rfl
  | i, (a, x) :: xs, (b, y) :: ys, hx => by
    have hab : a = b := hx.1.1
    subst hab
    rw [serializeMapEntries, serializeMapEntries, h.1.serializeNested m _ (some a) false hx.1.2,
      serializeMapEntries_rel h m l (i + 1) hx.2]

theorem map_rel (kt : KeyTy) (h : Rel P j d d') : DictRel (SameMapV P) (j + 1) (mapDict kt d) (mapDict kt d') := by
  have hs : SerRel (SameMapV P)
      { hasCache := fun _ => true
        computeSize := fun m l (v : MapV α) => sizeMapEntries d m l 0 0 v.entries
        serializeCached := fun m l v => serializeMapEntries d m l 0 v.entries }
      { hasCache := fun _ => true
        computeSize := fun m l (v : MapV β) => sizeMapEntries d' m l 0 0 v.entries
        serializeCached := fun m l v => serializeMapEntries d' m l 0 v.entries } :=
    ⟨fun _ => rfl, fun m l _ _ hx => sizeMapEntries_rel h m l 0 0 hx.2, fun m l _ _ hx => serializeMapEntries_rel h m l 0 hx.2⟩
  refine ⟨⟨hs.hasCache, hs.computeSize, hs.serializeCached⟩, rfl, fun m l _ _ o hv => hs.isOmissibleBySize m l o hv,
    fun _ => ⟨rfl, trivial⟩, fun _ _ => ⟨rfl, trivial⟩, fun hv => congrArg some hv.1,
    fun rt v w hv => ⟨rfl, ?_⟩, ?_, fun m _ _ _ hv hb => mapMerge_rel kt h m hv hb, ?_, ?_⟩
  · refine sameItems_map ?_ hv.2
    intro x y hxy
    refine ⟨hxy.1, ?_⟩
    dsimp only
    rw [hxy.1]
    exact h.1.setRuntime _ hxy.2
  · intro v w hv
    simp only [mapDict, isRootDefault, hv.1]
  · intro m v w bs hv hb
    simp only [mapDict, handleUpdateDefault, hv.1]
    exact mapMerge_rel kt h m ⟨rfl, trivial⟩ hb
  · intro m v w path bs kind key hv hb
    simp only [mapDict]
    unfold mapHandle
    cases path with
    | cons n path =>
      dsimp only
      have hg := same_entriesGet n hv.2
      simp only [List.length_cons] at hb
      cases hx : entriesGet n v.entries <;> cases hy : entriesGet n w.entries <;> rw [hx, hy] at hg
      · dsimp only
        split
        · rw [hv.1]
          have hr := h.1.withRuntime (by omega) (w.rt.nested n)
          rcases h.1.merge m (bs := bs) hr (by omega) with ⟨x, y, rest, h1, h2, h3, h4⟩ | ⟨x, y, e, h1, h2, h3⟩
          · rw [h1, h2]; exact ⟨⟨rfl, same_entriesInsert n h3 hv.2⟩, rfl⟩
          · rw [h1, h2]; exact ⟨hv, rfl⟩
        · exact ⟨hv, rfl⟩
      · exact absurd hg (by simp [SameOption])
      · exact absurd hg (by simp [SameOption])
      · exact sameRes_map (h.1.handle m kind key hg (by omega)) fun x y hxy => ⟨hv.1, same_entriesInsert n hxy hv.2⟩
    | nil =>
      simp only [List.length_nil] at hb
      cases kind with
      | update =>
        dsimp only
        rw [hv.1]
        exact (mapMerge_rel kt h m (v := ⟨w.rt, []⟩) (w := ⟨w.rt, []⟩) (bs := bs) ⟨rfl, trivial⟩ (by omega)).same
      | listPush => exact ⟨hv, rfl⟩
      | listPop => exact ⟨hv, rfl⟩
      | mapRemove =>
        dsimp only
        cases key with
        | none => exact ⟨hv, rfl⟩
        | some key =>
          dsimp only
          have hg := same_entriesGet key hv.2
          cases hx : entriesGet key v.entries <;> cases hy : entriesGet key w.entries <;> rw [hx, hy] at hg
          · exact ⟨hv, rfl⟩
          · exact absurd hg (by simp [SameOption])
          · exact absurd hg (by simp [SameOption])
          · exact ⟨⟨hv.1, same_entriesRemove key hv.2⟩, rfl⟩

end

end Steit
