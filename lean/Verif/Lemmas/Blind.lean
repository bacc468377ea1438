import Verif.Lemmas.RecursiveDict

/-! # Reading and replaying do not look at runtimes, nor at the build mode unless debug panics

`Blind R d`: on values related by `R`, which may differ in their runtimes, `merge` and `handle` of `d` do the same with the same input,
whatever it is: the results are related, the same input is left over, the errors are the same. If the two are run in a debug and a release build, the
former may instead panic. Every type constructor of the library carries this from the parts to the whole. -/

namespace Steit
open Spec

/-- The same build mode, or debug and release. -/
def Below (m m' : Mode) : Prop := m = m' ∨ (m = .debug ∧ m' = .release)

/-- The same result, unless the modes differ and the first one panics. -/
def ModeRes (m m' : Mode) {α β : Type} (R : α → β → Prop) (r : Res α) (r' : Res β) : Prop :=
  SameRes R r r' ∨ (m ≠ m' ∧ ∃ v, r = .err v .panic)

/-- The same, for functions that return what they read. -/
def SameEx (m m' : Mode) {α : Type} (R : α → α → Prop) (r r' : Except Err (α × Bytes)) : Prop :=
  (∃ x y rest, r = .ok (x, rest) ∧ r' = .ok (y, rest) ∧ R x y) ∨ (∃ e, r = .error e ∧ r' = .error e) ∨ (m ≠ m' ∧ r = .error .panic)

/-- The same, for functions that do not build anything. -/
def ModeEx (m m' : Mode) {α : Type} (r r' : Except Err α) : Prop :=
  (∃ x, r = .ok x ∧ r' = .ok x) ∨ (∃ e, r = .error e ∧ r' = .error e) ∨ (m ≠ m' ∧ r = .error .panic)

theorem modeEx_refl {m m' : Mode} {α : Type} (r : Except Err α) : ModeEx m m' r r := by
  cases r with
  | ok x => exact .inl ⟨x, rfl, rfl⟩
  | error e => exact .inr (.inl ⟨e, rfl, rfl⟩)

theorem modeEx_bind {m m' : Mode} {α β : Type} {r r' : Except Err α} {f g : α → Except Err β} (h : ModeEx m m' r r') (hf : ∀ x, ModeEx m m' (f x) (g x)) :
    ModeEx m m' (r >>= f) (r' >>= g) := by
  rcases h with ⟨x, h1, h2⟩ | ⟨e, h1, h2⟩ | ⟨hm, h1⟩
  · rw [h1, h2]; exact hf x
  · rw [h1, h2]; exact .inr (.inl ⟨e, rfl, rfl⟩)
  · rw [h1]; exact .inr (.inr ⟨hm, rfl⟩)

theorem getLoop_mode {m m' : Mode} (hm : Below m m') {w : Nat} : ∀ (bs : Bytes) (x : BitVec w) (o : Nat), ModeEx m m' (getLoop m bs x o) (getLoop m' bs x o) := by
  rcases hm with rfl | ⟨rfl, rfl⟩
  · exact fun _ _ _ => modeEx_refl _
  · intro bs
    induction bs with
    | nil => exact fun _ _ => modeEx_refl _
    | cons b bs ih =>
      intro x o
      rw [getLoop, getLoop]
      unfold shlChecked
      by_cases ho : o < w
      · simp only [if_pos ho]
        split
        · exact modeEx_refl _
        · exact ih _ _
      · simp only [if_neg ho]
        exact .inr (.inr ⟨by decide, rfl⟩)

theorem getVarint_mode {m m' : Mode} (hm : Below m m') (w : Nat) (bs : Bytes) : ModeEx m m' (getVarint m w bs) (getVarint m' w bs) := getLoop_mode hm bs _ _

theorem getSigned_mode {m m' : Mode} (hm : Below m m') (w : Nat) (bs : Bytes) : ModeEx m m' (getSigned m w bs) (getSigned m' w bs) := by
  unfold getSigned
  rcases getVarint_mode hm w bs with ⟨x, h1, h2⟩ | ⟨e, h1, h2⟩ | ⟨hm, h1⟩
  · rw [h1, h2]; exact modeEx_refl _
  · rw [h1, h2]; exact modeEx_refl _
  · rw [h1]; exact .inr (.inr ⟨hm, rfl⟩)

theorem readTag_mode {m m' : Mode} (hm : Below m m') (bs : Bytes) : ModeEx m m' (readTag m bs) (readTag m' bs) :=
  modeEx_bind (getVarint_mode hm 32 bs) fun _ => modeEx_refl _

theorem readMapKey_mode {m m' : Mode} (hm : Below m m') (kt : KeyTy) (bs : Bytes) : ModeEx m m' (readMapKey m kt bs) (readMapKey m' kt bs) :=
  modeEx_bind (getVarint_mode hm 32 bs) fun _ => modeEx_refl _

theorem skipField_mode {m m' : Mode} (hm : Below m m') (wt : WireType) (bs : Bytes) : ModeEx m m' (skipField m wt bs) (skipField m' wt bs) := by
  cases wt with
  | varint => exact modeEx_bind (getVarint_mode hm 8 bs) fun _ => modeEx_refl _
  | sized => exact modeEx_bind (getVarint_mode hm 64 bs) fun _ => modeEx_refl _

structure Blind {α : Type} (R : α → α → Prop) (d : Dict α) : Prop where
  dflt : R d.dflt d.dflt
  fresh : ∀ rt rt', R (d.withRuntime rt) (d.withRuntime rt')
  merge : ∀ {m m'}, Below m m' → ∀ {v w} bs, R v w → ModeRes m m' R (d.merge m v bs) (d.merge m' w bs)
  handle : ∀ {m m'}, Below m m' → ∀ {v w} path kind key bs, R v w →
    ModeRes m m' R (d.handle m v path kind key bs) (d.handle m' w path kind key bs)

theorem blind_cases {m m' : Mode} {α β : Type} {R : α → β → Prop} {r : Res α} {r' : Res β} (h : ModeRes m m' R r r') :
    (∃ v w rest, r = .ok v rest ∧ r' = .ok w rest ∧ R v w) ∨ (∃ v w e, r = .err v e ∧ r' = .err w e ∧ R v w) ∨
      (m ≠ m' ∧ ∃ v, r = .err v .panic) := by
  rcases h with h | h
  · cases r <;> cases r' <;> simp only [SameRes] at h
    · exact .inl ⟨_, _, _, rfl, by rw [h.2], h.1⟩
    · exact .inr (.inl ⟨_, _, _, rfl, by rw [h.2], h.1⟩)
  · exact .inr (.inr h)

theorem ModeRes.ok {m m' : Mode} {α β : Type} {R : α → β → Prop} {v : α} {w : β} {rest : Bytes} (h : R v w) : ModeRes m m' R (.ok v rest) (.ok w rest) := .inl ⟨h, rfl⟩

theorem ModeRes.err {m m' : Mode} {α β : Type} {R : α → β → Prop} {v : α} {w : β} {e : Err} (h : R v w) : ModeRes m m' R (.err v e) (.err w e) := .inl ⟨h, rfl⟩

theorem ModeRes.panic {m m' : Mode} {α β : Type} {R : α → β → Prop} {v : α} {r : Res β} (h : m ≠ m') : ModeRes m m' R (.err v .panic) r := .inr ⟨h, v, rfl⟩

theorem blind_map {m m' : Mode} {α β γ δ : Type} {P : α → β → Prop} {Q : γ → δ → Prop} {r : Res α} {r' : Res β} {f : α → γ} {g : β → δ}
    (h : ModeRes m m' P r r') (hf : ∀ v w, P v w → Q (f v) (g w)) : ModeRes m m' Q (r.map f) (r'.map g) := by
  rcases h with h | ⟨hm, v, rfl⟩
  · exact .inl (sameRes_map h hf)
  · exact .panic hm

theorem withNested_blind {m m' : Mode} (hm : Below m m') {α : Type} {R : α → α → Prop} {v w : α} {f g : Bytes → Res α} (bs : Bytes) (hv : R v w)
    (h : ∀ inner, ModeRes m m' R (f inner) (g inner)) : ModeRes m m' R (withNested m v bs f) (withNested m' w bs g) := by
  unfold withNested
  rcases getVarint_mode hm 64 bs with ⟨x, h1, h2⟩ | ⟨e, h1, h2⟩ | ⟨hm, h1⟩
  · rw [h1, h2]
    dsimp only
    rcases blind_cases (h (x.2.take x.1.toNat)) with ⟨a, b, r, h1, h2, h3⟩ | ⟨a, b, e, h1, h2, h3⟩ | ⟨hm, a, h1⟩
    · rw [h1, h2]; exact .ok h3
    · rw [h1, h2]; exact .err h3
    · rw [h1]; exact .panic hm
  · rw [h1, h2]; exact .err hv
  · rw [h1]; exact .panic hm

theorem untilEof_blind {m m' : Mode} {α : Type} {R : α → α → Prop} {step step' : α → Bytes → Res α}
    (hs : ∀ v w bs, R v w → ModeRes m m' R (step v bs) (step' w bs)) :
    ∀ (fuel : Nat) {v w : α} (bs : Bytes), R v w → ModeRes m m' R (untilEof step fuel v bs) (untilEof step' fuel w bs)
  | fuel, v, w, [], hv => by cases fuel <;> exact .ok hv
  | 0, v, w, b :: bs, hv => .err hv
  | fuel + 1, v, w, b :: bs, hv => by
    rw [untilEof, untilEof]
    rcases blind_cases (hs v w (b :: bs) hv) with ⟨a, c, r, h1, h2, h3⟩ | ⟨a, c, e, h1, h2, h3⟩ | ⟨hm, a, h1⟩
    · rw [h1, h2]; exact untilEof_blind hs fuel r h3
    · rw [h1, h2]; exact .err h3
    · rw [h1]; exact .panic hm

section
variable {α : Type} {R : α → α → Prop} {d : Dict α}

theorem Blind.mergeNested (h : Blind R d) {m m' : Mode} (hm : Below m m') {v w : α} (wt : WireType) (bs : Bytes) (hv : R v w) :
    ModeRes m m' R (d.mergeNested m v wt bs) (d.mergeNested m' w wt bs) := by
  unfold Dict.mergeNested
  split
  · rcases skipField_mode hm wt bs with ⟨x, h1, h2⟩ | ⟨e, h1, h2⟩ | ⟨hm, h1⟩
    · rw [h1, h2]; exact .ok hv
    · rw [h1, h2]; exact .err hv
    · rw [h1]; exact .panic hm
  · cases wt with
    | varint => exact h.merge hm bs hv
    | sized => exact withNested_blind hm bs hv fun inner => h.merge hm inner hv

theorem Blind.deserializeNested (h : Blind R d) {m m' : Mode} (hm : Below m m') (wt : WireType) (bs : Bytes) :
    SameEx m m' R (d.deserializeNested m wt bs) (d.deserializeNested m' wt bs) := by
  unfold Dict.deserializeNested
  rcases blind_cases (h.mergeNested hm wt bs h.dflt) with ⟨a, b, r, h1, h2, h3⟩ | ⟨a, b, e, h1, h2, h3⟩ | ⟨hm, a, h1⟩
  · rw [h1, h2]; exact .inl ⟨_, _, _, rfl, rfl, h3⟩
  · rw [h1, h2]; exact .inr (.inl ⟨_, rfl, rfl⟩)
  · rw [h1]; exact .inr (.inr ⟨hm, rfl⟩)

theorem eq_agree {m m' : Mode} (r : Res α) : ModeRes m m' (Eq : α → α → Prop) r r := by
  cases r <;> exact .inl ⟨rfl, rfl⟩

/-- Primitives have no runtime. -/
theorem prim_blind [DecidableEq α] {size : α → Nat} {put : α → Bytes} {get : Mode → Bytes → Except Err (α × Bytes)} {dflt : α}
    (hg : ∀ {m m'}, Below m m' → ∀ bs, ModeEx m m' (get m bs) (get m' bs)) : Blind (Eq : α → α → Prop) (primDict size put get dflt) := by
  have hme : ∀ {m m' : Mode}, Below m m' → ∀ {v w : α} (bs : Bytes), v = w → ModeRes m m' Eq
      ((primDict size put get dflt).merge m v bs) ((primDict size put get dflt).merge m' w bs) := by
    intro m m' hm v w bs hv
    subst hv
    simp only [primDict]
    rcases hg hm bs with ⟨x, h1, h2⟩ | ⟨e, h1, h2⟩ | ⟨hm, h1⟩
    · rw [h1, h2]; exact .ok rfl
    · rw [h1, h2]; exact .err rfl
    · rw [h1]; exact .panic hm
  refine ⟨rfl, fun _ _ => rfl, hme, ?_⟩
  intro m m' hm v w path kind key bs hv
  subst hv
  show ModeRes m m' Eq (if path = [] then if kind = .update then (primDict size put get dflt).merge m v bs else .err v .invalidData else .err v .invalidData)
    (if path = [] then if kind = .update then (primDict size put get dflt).merge m' v bs else .err v .invalidData else .err v .invalidData)
  split
  · split
    · exact hme hm bs rfl
    · exact .err rfl
  · exact .err rfl

theorem plain_eq_blind {s : SerD α} {om : Mode → Loc → α → Option Nat → Prog Bool} {dv : α} {mg : Mode → α → Bytes → Res α}
    (hg : ∀ m m', mg m = mg m') : Blind (Eq : α → α → Prop) (plainDict s om dv mg) := by
  refine ⟨rfl, fun _ _ => rfl, ?_, fun _ _ _ _ _ _ _ hv => .err hv⟩
  intro m m' _ v w bs hv
  subst hv
  show ModeRes m m' Eq (mg m v bs) (mg m' v bs)
  rw [hg m m']
  exact eq_agree _

theorem plain_blind {s : SerD α} {om : Mode → Loc → α → Option Nat → Prog Bool} {dv : α} {mg : Mode → α → Bytes → Res α} (hd : R dv dv)
    (hg : ∀ {m m'}, Below m m' → ∀ v w bs, R v w → ModeRes m m' R (mg m v bs) (mg m' w bs)) : Blind R (plainDict s om dv mg) where
  dflt := hd
  fresh := fun _ _ => hd
  merge := fun hm v w bs hv => hg hm v w bs hv
  handle := fun _ _ _ _ _ _ _ hv => .err hv

theorem vec_blind (h : Blind R d) : Blind (SameItems R) (vecDict d) := by
  refine plain_blind trivial fun {m m'} hm v w bs hv => untilEof_blind ?_ _ _ hv
  intro v w bs hv
  unfold vecStep
  rcases h.deserializeNested hm d.wire bs with ⟨x, y, rest, h1, h2, h3⟩ | ⟨e, h1, h2⟩ | ⟨hm, h1⟩
  · rw [h1, h2]; exact .ok (sameItems_append hv (sameItems_one h3))
  · rw [h1, h2]; exact .err hv
  · rw [h1]; exact .panic hm

theorem arrayLoop_blind (h : Blind R d) {m m' : Mode} (hm : Below m m') : ∀ {todo todo' done done' : List α} (bs : Bytes), SameItems R todo todo' →
    SameItems R done done' → ModeRes m m' (fun x y => SameItems R x.1 y.1) (arrayLoop d m done todo bs) (arrayLoop d m' done' todo' bs)
  | [], [], done, done', bs, _, hd => by rw [arrayLoop, arrayLoop]; exact .inl ⟨hd, rfl⟩
  | t :: todo, t' :: todo', done, done', [], ht, hd => by rw [arrayLoop, arrayLoop]; exact .inl ⟨sameItems_append hd ht, rfl⟩
  | t :: todo, t' :: todo', done, done', b :: bs, ht, hd => by
    rw [arrayLoop, arrayLoop]
    rcases h.deserializeNested hm d.wire (b :: bs) with ⟨x, y, rest, h1, h2, h3⟩ | ⟨e, h1, h2⟩ | ⟨hm, h1⟩
    · rw [h1, h2]
      exact blind_map (arrayLoop_blind h hm rest ht.2 (sameItems_append hd (sameItems_one h3))) fun _ _ h => h
    · rw [h1, h2]; exact .err (sameItems_append hd ht)
    · rw [h1]; exact .panic hm

theorem array_blind (n : Nat) (h : Blind R d) : Blind (fun (x y : ArrayV α n) => SameItems R x.1 y.1) (arrayDict n d) := by
  refine plain_blind (sameItems_replicate h.dflt n) ?_
  intro m m' hm v w bs hv
  rcases blind_cases (arrayLoop_blind h hm bs hv (done := []) (done' := []) trivial) with
    ⟨x, y, rest, h1, h2, h3⟩ | ⟨x, y, e, h1, h2, h3⟩ | ⟨hm, a, h1⟩
  · rw [h1, h2]; exact .inl ⟨h3, rfl⟩
  · rw [h1, h2]; exact .inl ⟨h3, rfl⟩
  · rw [h1]; exact .panic hm

theorem option_blind (h : Blind R d) : Blind (SameOption R) (optionDict d) := by
  refine plain_blind trivial fun {m m'} hm v w bs hv => untilEof_blind ?_ _ _ hv
  intro v w bs hv
  have hd : R (v.getD d.dflt) (w.getD d.dflt) := by
    cases v <;> cases w <;> simp only [SameOption] at hv
    · exact h.dflt
    · exact hv
  unfold optionStep
  exact blind_map (h.mergeNested hm d.wire bs hd) fun _ _ h => h

theorem box_blind (h : Blind R d) : Blind R (boxDict d) := ⟨h.dflt, h.fresh, h.merge, h.handle⟩

end

/-! ## Tuples and hash maps -/

structure BlindTuple {α : Type} (R : α → α → Prop) (t : TupleD α) : Prop where
  dflt : R t.dflt t.dflt
  read : ∀ {m m'}, Below m m' → ∀ bs, SameEx m m' R (t.read m bs) (t.read m' bs)

theorem tupleNil_blind : BlindTuple (fun _ _ => True) tupleNil := ⟨trivial, fun _ bs => .inl ⟨_, _, bs, rfl, rfl, trivial⟩⟩

theorem tupleCons_blind {α β : Type} {R : α → α → Prop} {Q : β → β → Prop} {d : Dict α} {t : TupleD β} (h : Blind R d) (ht : BlindTuple Q t) :
    BlindTuple (SamePair R Q) (tupleCons d t) where
  dflt := ⟨h.dflt, ht.dflt⟩
  read := fun {m m'} hm bs => by
    simp only [tupleCons]
    rcases h.deserializeNested hm d.wire bs with ⟨x, y, rest, h1, h2, h3⟩ | ⟨e, h1, h2⟩ | ⟨hm, h1⟩
    · rw [h1, h2]
      dsimp only
      rcases ht.read hm rest with ⟨a, b, rest, h4, h5, h6⟩ | ⟨e, h4, h5⟩ | ⟨hm, h4⟩
      · rw [h4, h5]; exact .inl ⟨_, _, _, rfl, rfl, h3, h6⟩
      · rw [h4, h5]; exact .inr (.inl ⟨_, rfl, rfl⟩)
      · rw [h4]; exact .inr (.inr ⟨hm, rfl⟩)
    · rw [h1, h2]; exact .inr (.inl ⟨_, rfl, rfl⟩)
    · rw [h1]; exact .inr (.inr ⟨hm, rfl⟩)

theorem tuple_blind {α : Type} {R : α → α → Prop} {t : TupleD α} (h : BlindTuple R t) : Blind R (tupleDict t) := by
  refine plain_blind h.dflt fun {m m'} hm v w bs hv => ?_
  rcases h.read hm bs with ⟨x, y, rest, h1, h2, h3⟩ | ⟨e, h1, h2⟩ | ⟨hm, h1⟩
  · rw [h1, h2]; exact .ok h3
  · rw [h1, h2]; exact .err hv
  · rw [h1]; exact .panic hm

theorem hashMap_blind {κ ν : Type} {K : κ → κ → Prop} {V : ν → ν → Prop} {dk : Dict κ} {dv : Dict ν} {eq : κ → κ → Bool}
    (he : ∀ a b a' b', K a a' → K b b' → eq a b = eq a' b') (hk : Blind K dk) (hv : Blind V dv) :
    Blind (SameItems (SamePair K V)) (hashMapDict eq dk dv) := by
  refine plain_blind trivial fun {m m'} hm v w bs h => untilEof_blind ?_ _ _ h
  intro v w bs h
  unfold hashMapStep
  rcases hk.deserializeNested hm dk.wire bs with ⟨x, y, rest, h1, h2, h3⟩ | ⟨e, h1, h2⟩ | ⟨hm, h1⟩
  · rw [h1, h2]
    dsimp only
    rcases hv.deserializeNested hm dv.wire rest with ⟨a, b, rest, h4, h5, h6⟩ | ⟨e, h4, h5⟩ | ⟨hm, h4⟩
    · rw [h4, h5]; exact .ok (hashInsert_rel he h3 h6 h)
    · rw [h4, h5]; exact .err h
    · rw [h4]; exact .panic hm
  · rw [h1, h2]; exact .err h
  · rw [h1]; exact .panic hm

/-! ## `List` and `Map` -/

section
variable {α : Type} {R : α → α → Prop} {d : Dict α}

theorem listMerge_blind (h : Blind R d) {m m' : Mode} (hm : Below m m') {v w : ListV α} (bs : Bytes) (hv : SameItems R v.items w.items) :
    ModeRes m m' (fun x y => SameItems R x.items y.items) (listMerge d m v bs) (listMerge d m' w bs) := by
  refine untilEof_blind (R := fun x y : ListV α => SameItems R x.items y.items) ?_ _ _ hv
  intro v w bs hv
  unfold listStep
  dsimp only
  rcases blind_cases (h.mergeNested hm d.wire bs (h.fresh (v.rt.nested (fieldNo v.items.length)) (w.rt.nested (fieldNo w.items.length)))) with
    ⟨x, y, rest, h1, h2, h3⟩ | ⟨x, y, e, h1, h2, h3⟩ | ⟨hm, a, h1⟩
  · rw [h1, h2]; exact .inl ⟨sameItems_append hv (sameItems_one h3), rfl⟩
  · rw [h1, h2]; exact .inl ⟨hv, rfl⟩
  · rw [h1]; exact .panic hm

theorem list_blind (h : Blind R d) : Blind (fun x y : ListV α => SameItems R x.items y.items) (listDict d) := by
  refine ⟨trivial, fun _ _ => trivial, fun {m m'} hm v w bs hv => listMerge_blind h hm bs hv, ?_⟩
  intro m m' hm v w path kind key bs hv
  simp only [listDict]
  unfold listHandle
  cases path with
  | cons n path =>
    dsimp only
    have hg := sameItems_get hv n.toNat
    cases hx : v.items[n.toNat]? <;> cases hy : w.items[n.toNat]? <;> rw [hx, hy] at hg
    · exact .inl ⟨hv, rfl⟩
    · exact absurd hg (by simp [SameOption])
    · exact absurd hg (by simp [SameOption])
    · exact blind_map (h.handle hm path kind key bs hg) fun x y hxy => sameItems_set hv _ hxy
  | nil =>
    cases kind with
    | update => exact listMerge_blind h hm bs trivial
    | listPush =>
      dsimp only
      rcases blind_cases (h.merge hm bs (h.fresh (v.rt.nested (fieldNo v.items.length)) (w.rt.nested (fieldNo w.items.length)))) with
        ⟨x, y, rest, h1, h2, h3⟩ | ⟨x, y, e, h1, h2, h3⟩ | ⟨hm, a, h1⟩
      · rw [h1, h2]; exact .inl ⟨sameItems_append hv (sameItems_one h3), rfl⟩
      · rw [h1, h2]; exact .inl ⟨hv, rfl⟩
      · rw [h1]; exact .panic hm
    | listPop =>
      dsimp only
      by_cases hn : v.items = []
      · rw [if_pos hn, if_pos ((sameItems_nil hv).1 hn)]; exact .inl ⟨hv, rfl⟩
      · rw [if_neg hn, if_neg (fun hw => hn ((sameItems_nil hv).2 hw))]
        exact .inl ⟨sameItems_dropLast hv, rfl⟩
    | mapRemove => exact .inl ⟨hv, rfl⟩

theorem mapMerge_blind (kt : KeyTy) (h : Blind R d) {m m' : Mode} (hm : Below m m') {v w : MapV α} (bs : Bytes) (hv : SameItems (SamePair Eq R) v.entries w.entries) :
    ModeRes m m' (fun x y => SameItems (SamePair Eq R) x.entries y.entries) (mapMerge kt d m v bs) (mapMerge kt d m' w bs) := by
  refine untilEof_blind (R := fun x y : MapV α => SameItems (SamePair Eq R) x.entries y.entries) ?_ _ _ hv
  intro v w bs hv
  unfold mapStep
  rcases readMapKey_mode hm kt bs with ⟨⟨k, rest⟩, h1, h2⟩ | ⟨e, h1, h2⟩ | ⟨hm, h1⟩
  · rw [h1, h2]
    dsimp only
    have hg := same_entriesGet k hv
    cases hx : entriesGet k v.entries <;> cases hy : entriesGet k w.entries <;> rw [hx, hy] at hg
    · dsimp only
      rcases blind_cases (h.mergeNested hm d.wire rest (h.fresh (v.rt.nested k) (w.rt.nested k))) with
        ⟨x, y, rest, h1, h2, h3⟩ | ⟨x, y, e, h1, h2, h3⟩ | ⟨hm, a, h1⟩
      · rw [h1, h2]; exact .ok (same_entriesInsert k h3 hv)
      · rw [h1, h2]; exact .err hv
      · rw [h1]; exact .panic hm
    · exact absurd hg (by simp [SameOption])
    · exact absurd hg (by simp [SameOption])
    · exact blind_map (h.mergeNested hm d.wire rest hg) fun _ _ hxy => same_entriesInsert k hxy hv
  · rw [h1, h2]; exact .err hv
  · rw [h1]; exact .panic hm

theorem map_blind (kt : KeyTy) (h : Blind R d) :
    Blind (fun x y : MapV α => SameItems (SamePair Eq R) x.entries y.entries) (mapDict kt d) := by
  refine ⟨trivial, fun _ _ => trivial, fun {m m'} hm v w bs hv => mapMerge_blind kt h hm bs hv, ?_⟩
  intro m m' hm v w path kind key bs hv
  simp only [mapDict]
  unfold mapHandle
  cases path with
  | cons n path =>
    dsimp only
    have hg := same_entriesGet n hv
    cases hx : entriesGet n v.entries <;> cases hy : entriesGet n w.entries <;> rw [hx, hy] at hg
    · dsimp only
      split
      · rcases blind_cases (h.merge hm bs (h.fresh (v.rt.nested n) (w.rt.nested n))) with
          ⟨x, y, rest, h1, h2, h3⟩ | ⟨x, y, e, h1, h2, h3⟩ | ⟨hm, a, h1⟩
        · rw [h1, h2]; exact .inl ⟨same_entriesInsert n h3 hv, rfl⟩
        · rw [h1, h2]; exact .inl ⟨hv, rfl⟩
        · rw [h1]; exact .panic hm
      · exact .inl ⟨hv, rfl⟩
    · exact absurd hg (by simp [SameOption])
    · exact absurd hg (by simp [SameOption])
    · exact blind_map (h.handle hm path kind key bs hg) fun x y hxy => same_entriesInsert n hxy hv
  | nil =>
    cases kind with
    | update => exact mapMerge_blind kt h hm bs trivial
    | listPush => exact .inl ⟨hv, rfl⟩
    | listPop => exact .inl ⟨hv, rfl⟩
    | mapRemove =>
      cases key with
      | none => exact .inl ⟨hv, rfl⟩
      | some key =>
        dsimp only
        have hg := same_entriesGet key hv
        cases hx : entriesGet key v.entries <;> cases hy : entriesGet key w.entries <;> rw [hx, hy] at hg
        · exact .inl ⟨hv, rfl⟩
        · exact absurd hg (by simp [SameOption])
        · exact absurd hg (by simp [SameOption])
        · exact .inl ⟨same_entriesRemove key hv, rfl⟩

end

/-! ## Generated code -/

structure BlindFields {β : Type} (R : β → β → Prop) (fs : FieldsD β) : Prop where
  init : ∀ o o' : Option Rt, o.isSome = o'.isSome → R (fs.init o) (fs.init o')
  mergeField : ∀ {m m'}, Below m m' → ∀ n wt {v w} bs, R v w →
    SameOption (ModeRes m m' R) (fs.mergeField m n wt v bs) (fs.mergeField m' n wt w bs)
  handleField : ∀ {m m'}, Below m m' → ∀ n {v w} path kind key bs, R v w →
    SameOption (ModeRes m m' R) (fs.handleField m n v path kind key bs) (fs.handleField m' n w path kind key bs)

theorem sameOption_map {α β γ δ : Type} {R : α → β → Prop} {Q : γ → δ → Prop} {o : Option α} {o' : Option β} {f : α → γ} {g : β → δ}
    (h : SameOption R o o') (hf : ∀ x y, R x y → Q (f x) (g y)) : SameOption Q (o.map f) (o'.map g) := by
  cases o <;> cases o' <;> simp only [SameOption] at h
  · trivial
  · exact hf _ _ h

theorem fieldsNil_blind : BlindFields (fun _ _ => True) fieldsNil := ⟨fun _ _ _ => trivial, fun _ _ _ _ _ _ _ => trivial, fun _ _ _ _ _ _ _ _ _ => trivial⟩

section
variable {α β : Type} {R : α → α → Prop} {Q : β → β → Prop} {d : Dict α} {fs : FieldsD β}

theorem fieldsCons_blind (ds : Bool) (tag : U32) (attrs : FieldAttrs) (h : Blind R d) (hf : BlindFields Q fs) :
    BlindFields (SamePair R Q) (fieldsCons ds tag attrs d fs) where
  init := fun o o' ho => by
    refine ⟨?_, hf.init o o' ho⟩
    simp only [fieldsCons]
    cases o <;> cases o' <;> simp only [Option.isSome] at ho <;> try cases ho
    · exact h.dflt
    · cases ds && !attrs.noState
      · exact h.dflt
      · exact h.fresh _ _
  mergeField := fun {m m'} hm n wt v w bs hv => by
    simp only [fieldsCons]
    split
    · exact blind_map (h.mergeNested hm wt bs hv.1) fun _ _ hx => ⟨hx, hv.2⟩
    · exact sameOption_map (hf.mergeField hm n wt bs hv.2) fun _ _ hx => blind_map hx fun _ _ hy => ⟨hv.1, hy⟩
  handleField := fun {m m'} hm n v w path kind key bs hv => by
    simp only [fieldsCons]
    split
    · show ModeRes m m' _ _ _
      split
      · exact blind_map (h.handle hm path kind key bs hv.1) fun _ _ hx => ⟨hx, hv.2⟩
      · exact .inl ⟨hv, rfl⟩
    · exact sameOption_map (hf.handleField hm n path kind key bs hv.2) fun _ _ hx => blind_map hx fun _ _ hy => ⟨hv.1, hy⟩

theorem BlindFields.merge (h : BlindFields Q fs) {m m' : Mode} (hm : Below m m') {v w : β} (bs : Bytes) (hv : Q v w) : ModeRes m m' Q (fs.merge m v bs) (fs.merge m' w bs) := by
  refine untilEof_blind ?_ _ _ hv
  intro v w bs hv
  unfold FieldsD.mergeStep
  rcases readTag_mode hm bs with ⟨⟨⟨n, wt⟩, rest⟩, h1, h2⟩ | ⟨e, h1, h2⟩ | ⟨hm, h1⟩
  · rw [h1, h2]
    dsimp only
    have h1 := h.mergeField hm n wt rest hv
    cases hx : fs.mergeField m n wt v rest <;> cases hy : fs.mergeField m' n wt w rest <;> rw [hx, hy] at h1
    · dsimp only
      rcases skipField_mode hm wt rest with ⟨x, h1, h2⟩ | ⟨e, h1, h2⟩ | ⟨hm, h1⟩
      · rw [h1, h2]; exact .ok hv
      · rw [h1, h2]; exact .err hv
      · rw [h1]; exact .panic hm
    · exact h1.elim
    · exact h1.elim
    · exact h1
  · rw [h1, h2]; exact .err hv
  · rw [h1]; exact .panic hm

theorem struct_blind (ds cached : Bool) (h : BlindFields Q fs) :
    Blind (fun x y : StructV β => Q x.fields y.fields) (structDict ds cached fs) := by
  have hs : ∀ {m m' : Mode}, Below m m' → ∀ (v w : StructV β) (bs : Bytes), Q v.fields w.fields → ModeRes m m' (fun x y : StructV β => Q x.fields y.fields)
      ((fs.merge m v.fields bs).map (fun fields => { v with fields })) ((fs.merge m' w.fields bs).map (fun fields => { w with fields })) :=
    fun {m m'} hm v w bs hv => blind_map (h.merge hm bs hv) fun _ _ hx => hx
  cases ds with
  | false => exact plain_blind (h.init none none rfl) hs
  | true =>
    refine ⟨h.init _ _ rfl, fun _ _ => h.init _ _ rfl, fun {m m'} hm v w bs hv => hs hm v w bs hv, ?_⟩
    intro m m' hm v w path kind key bs hv
    show ModeRes m m' _ (structHandle fs m v path kind key bs) (structHandle fs m' w path kind key bs)
    unfold structHandle
    cases path with
    | cons n path =>
      dsimp only
      have h1 := h.handleField hm n path kind key bs hv
      cases hx : fs.handleField m n v.fields path kind key bs <;> cases hy : fs.handleField m' n w.fields path kind key bs <;> rw [hx, hy] at h1
      · exact .inl ⟨hv, rfl⟩
      · exact h1.elim
      · exact h1.elim
      · exact blind_map h1 fun _ _ hx => hx
    | nil =>
      cases kind with
      | update => exact blind_map (h.merge hm bs (h.init _ _ rfl)) fun _ _ hx => hx
      | listPush => exact .inl ⟨hv, rfl⟩
      | listPop => exact .inl ⟨hv, rfl⟩
      | mapRemove => exact .inl ⟨hv, rfl⟩

end

structure BlindVariants {γ : Type} (R : γ → γ → Prop) (vs : VariantsD γ) : Prop where
  tagOf : ∀ {v w}, R v w → vs.tagOf v = vs.tagOf w
  ctor : ∀ tag (o o' : Option Rt), o.isSome = o'.isSome → SameOption R (vs.ctor tag o) (vs.ctor tag o')
  mergeFields : ∀ {m m'}, Below m m' → ∀ {v w} bs, R v w → ModeRes m m' R (vs.mergeFields m v bs) (vs.mergeFields m' w bs)
  handleFields : ∀ {m m'}, Below m m' → ∀ {v w} path kind key bs, R v w → ModeRes m m' R (vs.handleFields m v path kind key bs) (vs.handleFields m' w path kind key bs)

theorem variantsNil_blind : BlindVariants (fun _ _ => False) variantsNil :=
  ⟨fun h => h.elim, fun _ _ _ _ => trivial, fun _ _ _ _ h => h.elim, fun _ _ _ _ _ _ _ h => h.elim⟩

section
variable {α β : Type} {R : α → α → Prop} {Q : β → β → Prop} {fs : FieldsD α} {vs : VariantsD β}

theorem variantHandle_blind (hf : BlindFields R fs) {m m' : Mode} (hm : Below m m') {v w : α} (path : List U32) (kind : LogKind) (key : Option U32) (bs : Bytes)
    (hv : R v w) : ModeRes m m' R (variantHandle fs m v path kind key bs) (variantHandle fs m' w path kind key bs) := by
  unfold variantHandle
  cases path with
  | nil => exact .inl ⟨hv, rfl⟩
  | cons n path =>
    dsimp only
    have h1 := hf.handleField hm n path kind key bs hv
    cases hx : fs.handleField m n v path kind key bs <;> cases hy : fs.handleField m' n w path kind key bs <;> rw [hx, hy] at h1
    · exact .inl ⟨hv, rfl⟩
    · exact h1.elim
    · exact h1.elim
    · exact h1

theorem variantsCons_blind (tag : U32) (cached : Bool) (hf : BlindFields R fs) (h : BlindVariants Q vs) :
    BlindVariants (SameSum R Q) (variantsCons tag cached fs vs) where
  tagOf := fun {v w} hv => by
    cases v <;> cases w <;> first | exact hv.elim | exact rfl | exact h.tagOf hv
  ctor := fun tag' o o' ho => by
    simp only [variantsCons]
    split
    · exact hf.init o o' ho
    · exact sameOption_map (h.ctor tag' o o' ho) fun _ _ hx => hx
  mergeFields := fun {m m'} hm v w bs hv => by
    cases v <;> cases w
    · exact blind_map (hf.merge hm bs hv) fun _ _ hx => hx
    · exact hv.elim
    · exact hv.elim
    · exact blind_map (h.mergeFields hm bs hv) fun _ _ hx => hx
  handleFields := fun {m m'} hm v w path kind key bs hv => by
    cases v <;> cases w
    · exact blind_map (variantHandle_blind hf hm path kind key bs hv) fun _ _ hx => hx
    · exact hv.elim
    · exact hv.elim
    · exact blind_map (h.handleFields hm path kind key bs hv) fun _ _ hx => hx

/-- Enums that are states have a parent. -/
def TwinEnum (ds : Bool) (Q : β → β → Prop) (x y : EnumV β) : Prop := (ds = true → x.rt.path ≠ [] ∧ y.rt.path ≠ []) ∧ Q x.val y.val

theorem nested_path (rt : Rt) (n : U32) : (rt.nested n).path ≠ [] := by simp [Rt.nested]

theorem parent_ok {rt : Rt} (h : rt.path ≠ []) : rt.parent = .ok ⟨rt.logger, rt.path.dropLast⟩ := by simp [Rt.parent, h]

theorem enumMerge_blind (ds : Bool) (h : BlindVariants Q vs) {m m' : Mode} (hm : Below m m') {v w : EnumV β} (bs : Bytes) (hv : TwinEnum ds Q v w) :
    ModeRes m m' (TwinEnum ds Q) (enumMerge ds vs m v bs) (enumMerge ds vs m' w bs) := by
  unfold enumMerge
  rcases getVarint_mode hm 32 bs with ⟨⟨tag, rest⟩, h1, h2⟩ | ⟨e, h1, h2⟩ | ⟨hm, h1⟩
  · rw [h1, h2]
    dsimp only
    rw [h.tagOf hv.2]
    split
    · exact blind_map (h.mergeFields hm rest hv.2) fun _ _ hx => ⟨hv.1, hx⟩
    · cases ds with
      | false =>
        simp only [Bool.false_eq_true, if_false]
        have h1 := h.ctor tag none none rfl
        cases hx : vs.ctor tag none with
        | none => exact .inl ⟨hv, rfl⟩
        | some val => rw [hx] at h1; exact blind_map (h.mergeFields hm rest h1) fun _ _ hx => ⟨hv.1, hx⟩
      | true =>
        obtain ⟨h1, h2⟩ := hv.1 rfl
        simp only [if_true, parent_ok h1, parent_ok h2]
        have h3 := h.ctor tag (some (Rt.nested ⟨v.rt.logger, v.rt.path.dropLast⟩ tag)) (some (Rt.nested ⟨w.rt.logger, w.rt.path.dropLast⟩ tag)) rfl
        cases hx : vs.ctor tag (some (Rt.nested ⟨v.rt.logger, v.rt.path.dropLast⟩ tag)) <;>
          cases hy : vs.ctor tag (some (Rt.nested ⟨w.rt.logger, w.rt.path.dropLast⟩ tag)) <;> rw [hx, hy] at h3
        · exact .inl ⟨hv, rfl⟩
        · exact h3.elim
        · exact h3.elim
        · exact blind_map (h.mergeFields hm rest h3) fun _ _ hx => ⟨fun _ => ⟨nested_path _ _, nested_path _ _⟩, hx⟩
  · rw [h1, h2]; exact .err hv
  · rw [h1]; exact .panic hm

theorem enum_blind (ds : Bool) {dv : Option Rt → β} (h : BlindVariants Q vs) (hd : ∀ o o' : Option Rt, o.isSome = o'.isSome → Q (dv o) (dv o')) :
    Blind (TwinEnum ds Q) (enumDict ds vs dv) := by
  cases ds with
  | false => exact plain_blind ⟨(fun h => nomatch h), hd _ _ rfl⟩ fun {m m'} hm v w bs hv => enumMerge_blind false h hm bs hv
  | true =>
    refine ⟨⟨fun _ => ⟨nested_path _ _, nested_path _ _⟩, hd _ _ rfl⟩, fun _ _ => ⟨fun _ => ⟨nested_path _ _, nested_path _ _⟩, hd _ _ rfl⟩,
      fun {m m'} hm v w bs hv => enumMerge_blind true h hm bs hv, ?_⟩
    intro m m' hm v w path kind key bs hv
    show ModeRes m m' _ (enumHandle vs dv m v path kind key bs) (enumHandle vs dv m' w path kind key bs)
    unfold enumHandle
    cases path with
    | cons n path =>
      dsimp only
      rw [h.tagOf hv.2]
      split
      · exact blind_map (h.handleFields hm path kind key bs hv.2) fun _ _ hx => ⟨hv.1, hx⟩
      · exact .inl ⟨hv, rfl⟩
    | nil =>
      dsimp only
      split
      · obtain ⟨h1, h2⟩ := hv.1 rfl
        unfold enumHandleUpdate
        simp only [parent_ok h1, parent_ok h2]
        exact enumMerge_blind true h hm bs ⟨fun _ => ⟨nested_path _ _, nested_path _ _⟩, hd _ _ rfl⟩
      · exact .inl ⟨hv, rfl⟩

end

end Steit
