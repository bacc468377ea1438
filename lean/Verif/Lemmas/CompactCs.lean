import Verif.Spec.CompactCs
import Verif.Lemmas.AlikeCs
import Verif.Lemmas.Compact

/-! # Entries beside an object of a client -/

namespace Steit
open Spec

variable {ρ : Bytes → Str}

/-- `f` does the same whatever is in the place, and leaves it there; or throws whatever is in the place. -/
def Uniform {τ σ : Type} (P : (σ → τ) → Prop) (put : σ → τ) (f : τ → Except Exn τ) : Prop :=
  (∃ put', P put' ∧ ∀ y, f (put y) = .ok (put' y)) ∨ ∃ e, ∀ y, f (put y) = .error e

theorem Uniform.map {τ τ' σ : Type} {P : (σ → τ) → Prop} {Q : (σ → τ') → Prop} {put : σ → τ} {put' : σ → τ'}
    {f : τ → Except Exn τ} {f' : τ' → Except Exn τ'} (F : τ → τ') (hf : ∀ y, f' (put' y) = (do
      let z ← f (put y)
      .ok (F z)))
    (hP : ∀ g, P g → Q (fun x => F (g x))) (h : Uniform P put f) : Uniform Q put' f' := by
  rcases h with ⟨g, hg, h⟩ | ⟨e, h⟩
  · exact .inl ⟨fun y => F (g y), hP g hg, fun y => by rw [hf, h]; rfl⟩
  · exact .inr ⟨e, fun y => by rw [hf, h]; rfl⟩

/-- Something is read that does not depend on the place. -/
theorem Uniform.read {τ σ α : Type} {P : (σ → τ) → Prop} {put : σ → τ} {f : τ → Except Exn τ} (a : Except Exn α) (F : α → σ → τ)
    (hf : ∀ y, f (put y) = (do
      let z ← a
      .ok (F z y)))
    (hP : ∀ z, P (F z)) : Uniform P put f := by
  cases a with
  | error e => exact .inr ⟨e, fun y => by rw [hf]; rfl⟩
  | ok z => exact .inl ⟨F z, hP z, fun y => by rw [hf]; rfl⟩

theorem Uniform.stay {τ σ : Type} {P : (σ → τ) → Prop} {put : σ → τ} {f : τ → Except Exn τ} (hp : P put) (h : ∀ y, f (put y) = .ok (put y)) :
    Uniform P put f := .inl ⟨put, hp, h⟩

theorem Uniform.throw {τ σ : Type} {P : (σ → τ) → Prop} {put : σ → τ} {f : τ → Except Exn τ} (e : Exn) (h : ∀ y, f (put y) = .error e) :
    Uniform P put f := .inr ⟨e, h⟩

/-! ### Fields -/

theorem place_wire {fs : Fields} {tag : U32} {s : Ty} {put : s.Cs → fs.Cs} (h : FieldPlace fs tag s put) :
    ∃ w, fs.csGetWireType tag = some w := by
  induction h with
  | @head tag attrs t fs rest => exact ⟨csFieldWire attrs t, by simp only [Fields.csGetWireType, if_true]⟩
  | tail hne h ih =>
    obtain ⟨w, ih⟩ := ih
    exact ⟨w, by simp only [Fields.csGetWireType, if_neg hne, ih]⟩

theorem place_replace {fs : Fields} {tag : U32} {s : Ty} {put : s.Cs → fs.Cs} (h : FieldPlace fs tag s put) (w : WireType) (b : Bytes)
    (y : s.Cs) : fs.csReplaceAt ρ tag w b (put y) = (do
      let x ← s.csDeserialize ρ b
      .ok (put x.1, x.2)) := by
  induction h with
  | head => simp only [Fields.csReplaceAt, if_true]
  | tail hne h ih =>
    simp only [Fields.csReplaceAt, if_neg hne, ih]
    cases Ty.csDeserialize ρ _ b <;> rfl

theorem place_perform {fs : Fields} {tag : U32} {s : Ty} {put : s.Cs → fs.Cs} (h : FieldPlace fs tag s put) (b : Bytes)
    (y : s.Cs) : fs.csPerform ρ (.update tag b) (put y) = (do
      let x ← s.csDeserialize ρ b
      .ok (put x.1)) := by
  obtain ⟨w, hw⟩ := place_wire h
  simp only [Fields.csPerform, hw, place_replace h]
  cases Ty.csDeserialize ρ _ b <;> rfl

theorem place_below {fs : Fields} {tag : U32} {s : Ty} {put : s.Cs → fs.Cs} (h : FieldPlace fs tag s put) (act : CsAct) (path : List U32)
    (y : s.Cs) : fs.csBelow ρ act tag path (put y) = if s.isCsState then (do
      let x ← s.csAt ρ act path y
      .ok (put x)) else .ok (put y) := by
  induction h with
  | head =>
    simp only [Fields.csBelow, if_true]
    rfl
  | tail hne h ih =>
    simp only [Fields.csBelow, if_neg hne, ih]
    split
    · cases Ty.csAt ρ _ act path y <;> rfl
    · rfl

theorem place_replace_aside {fs : Fields} {tag : U32} {s : Ty} {put : s.Cs → fs.Cs} (h : FieldPlace fs tag s put) {tag' : U32}
    (hne : tag' ≠ tag) (w : WireType) (b : Bytes) : Uniform (FieldPlace fs tag s) put (fun v => do
      let x ← fs.csReplaceAt ρ tag' w b v
      .ok x.1) := by
  induction h with
  | @head tag attrs t fs rest =>
    refine .read (fs.csReplaceAt ρ tag' w b rest) (fun z y => (y, z.1)) (fun y => ?_) (fun z => .head)
    simp only [Fields.csReplaceAt, if_neg hne]
    cases fs.csReplaceAt ρ tag' w b rest <;> rfl
  | @tail tag tag0 attrs t fs first s put hne0 h ih =>
    by_cases h0 : tag' = tag0
    · refine .read (t.csDeserialize ρ b) (fun z y => (z.1, put y)) (fun y => ?_) (fun z => .tail hne0 h)
      simp only [Fields.csReplaceAt, if_pos h0]
      cases t.csDeserialize ρ b <;> rfl
    · refine (ih hne).map (fun z => (first, z)) (fun y => ?_) (fun g hg => .tail hne0 hg)
      simp only [Fields.csReplaceAt, if_neg h0]
      cases fs.csReplaceAt ρ tag' w b (put y) <;> rfl

theorem place_below_aside {fs : Fields} {tag : U32} {s : Ty} {put : s.Cs → fs.Cs} (h : FieldPlace fs tag s put) {tag' : U32}
    (hne : tag' ≠ tag) (act : CsAct) (path : List U32) : Uniform (FieldPlace fs tag s) put (fs.csBelow ρ act tag' path) := by
  induction h with
  | @head tag attrs t fs rest =>
    refine .read (fs.csBelow ρ act tag' path rest) (fun z y => (y, z)) (fun y => ?_) (fun z => .head)
    simp only [Fields.csBelow, if_neg hne]
  | @tail tag tag0 attrs t fs first s put hne0 h ih =>
    by_cases h0 : tag' = tag0
    · by_cases hs : t.isCsState = true
      · refine .read (t.csAt ρ act path first) (fun z y => (z, put y)) (fun y => ?_) (fun z => .tail hne0 h)
        simp only [Fields.csBelow, if_pos h0, if_pos hs]
        rfl
      · exact .stay (.tail hne0 h) (fun y => by simp only [Fields.csBelow, if_pos h0, if_neg hs])
    · refine (ih hne).map (fun z => (first, z)) (fun y => ?_) (fun g hg => .tail hne0 hg)
      simp only [Fields.csBelow, if_neg h0]

/-- An action on the message with the field, or below another field. -/
theorem fields_aside {fs : Fields} {tag : U32} {s : Ty} {put : s.Cs → fs.Cs} (h : FieldPlace fs tag s put) (act : CsAct) (path : List U32)
    (hp : ¬ [tag] <+: path) (ha : ∀ b, path = [] → act ≠ .update tag b) :
    Uniform (FieldPlace fs tag s) put (descend (fs.csPerform ρ act) (fun k path v => fs.csBelow ρ act k path v) path) := by
  cases path with
  | cons k path => exact place_below_aside h (fun hk => hp (hk ▸ ⟨path, rfl⟩)) act path
  | nil =>
    cases act with
    | update tag' b =>
      show Uniform _ _ (fs.csPerform ρ (.update tag' b))
      cases hw : fs.csGetWireType tag' with
      | none => exact .stay h (fun y => by simp only [Fields.csPerform, hw])
      | some w =>
        have := place_replace_aside (ρ := ρ) h (tag' := tag') (fun hk => ha b rfl (hk ▸ rfl)) w b
        refine this.map (fun z => z) (fun y => ?_) (fun g hg => hg)
        simp only [Fields.csPerform, hw]
        cases fs.csReplaceAt ρ tag' w b (put y) <;> rfl
    | push _ => exact .throw .notSupported fun y => rfl
    | pop => exact .throw .notSupported fun y => rfl
    | remove _ => exact .throw .notSupported fun y => rfl

theorem place_alike {fs : Fields} {tag : U32} {s : Ty} {put : s.Cs → fs.Cs} (h : FieldPlace fs tag s put) {y z : s.Cs} (hyz : Alike s y z) :
    AlikeFields fs (put y) (put z) := by
  induction h with
  | head => exact ⟨hyz, alikeFields_refl _ _⟩
  | tail hne h ih => exact ⟨alike_refl _ _, ih hyz⟩

/-! ### Variants -/

theorem variantPlace_below {vs : Variants} {vtag tag : U32} {s : Ty} {put : s.Cs → vs.Cs} (h : VariantPlace vs vtag tag s put)
    (act : CsAct) (path : List U32) (y : s.Cs) : vs.csBelow ρ act vtag (tag :: path) (put y) = if s.isCsState then (do
      let x ← s.csAt ρ act path y
      .ok (put x)) else .ok (put y) := by
  induction h with
  | here h =>
    simp only [Variants.csBelow, if_true, descend, place_below h]
    split
    · cases Ty.csAt ρ _ act path y <;> rfl
    · rfl
  | there h ih =>
    simp only [Variants.csBelow, ih]
    split
    · cases Ty.csAt ρ _ act path y <;> rfl
    · rfl

theorem variantPlace_update {vs : Variants} {vtag tag : U32} {s : Ty} {put : s.Cs → vs.Cs} (h : VariantPlace vs vtag tag s put)
    (b : Bytes) (y : s.Cs) : vs.csBelow ρ (.update tag b) vtag [] (put y) = (do
      let x ← s.csDeserialize ρ b
      .ok (put x.1)) := by
  induction h with
  | here h =>
    simp only [Variants.csBelow, if_true, descend, place_perform h]
    cases Ty.csDeserialize ρ _ b <;> rfl
  | there h ih =>
    simp only [Variants.csBelow, ih]
    cases Ty.csDeserialize ρ _ b <;> rfl

theorem variantPlace_remove {vs : Variants} {vtag tag : U32} {s : Ty} {put : s.Cs → vs.Cs} (h : VariantPlace vs vtag tag s put)
    (k : U32) (y : s.Cs) : vs.csBelow ρ (.remove k) vtag [] (put y) = .error .notSupported := by
  induction h with
  | here h => simp only [Variants.csBelow, if_true, descend, Fields.csPerform]; rfl
  | there h ih => simp only [Variants.csBelow, ih]; rfl

theorem variantPlace_aside {vs : Variants} {vtag tag : U32} {s : Ty} {put : s.Cs → vs.Cs} (h : VariantPlace vs vtag tag s put)
    (act : CsAct) (k : U32) (path : List U32) (hp : ¬ [vtag, tag] <+: k :: path) (ha : ∀ b, path = [] → k = vtag → act ≠ .update tag b) :
    Uniform (VariantPlace vs vtag tag s) put (vs.csBelow ρ act k path) := by
  induction h with
  | @here vtag tag cached fs vs s put h =>
    by_cases hk : k = vtag
    · subst hk
      refine (fields_aside (ρ := ρ) h act path (fun hp' => hp ?_) (fun b h1 => ha b h1 rfl)).map (fun z => .inl z) (fun y => ?_)
        (fun g hg => .here hg)
      · obtain ⟨r, rfl⟩ := hp'
        exact ⟨r, rfl⟩
      · simp only [Variants.csBelow, if_true]
    · exact .stay (.here h) (fun y => by simp only [Variants.csBelow, if_neg hk])
  | there h ih =>
    refine (ih hp ha).map (fun z => .inr z) (fun y => ?_) (fun g hg => .there hg)
    simp only [Variants.csBelow]

theorem variantPlace_alike {vs : Variants} {vtag tag : U32} {s : Ty} {put : s.Cs → vs.Cs} (h : VariantPlace vs vtag tag s put)
    {y z : s.Cs} (hyz : Alike s y z) : AlikeVariant vs (put y) (put z) := by
  induction h with
  | here h => exact place_alike h hyz
  | there h ih => exact ih hyz

/-! ### Enums -/

/-- An enum behaves as its list of variants, with the default one first. -/
theorem enum_below (reg cached : Bool) (fs : Fields) (vs : Variants) (act : CsAct) (k : U32) (path : List U32)
    (v : (Variants.cons 0#32 cached fs vs).Cs) : (Ty.enum reg cached fs vs).csBelow ρ act k path v =
      (Variants.cons 0#32 cached fs vs).csBelow ρ act k path v := by
  cases v <;> simp only [Ty.csBelow, Variants.csBelow]

/-! ### Lists and dictionaries -/

theorem beside_get {α : Type} {pre post : List α} {j : Nat} (hj : j ≠ pre.length) (y z : α) :
    (pre ++ y :: post)[j]? = (pre ++ z :: post)[j]? := by
  rcases Nat.lt_or_gt_of_ne hj with h | h
  · rw [List.getElem?_append_left h, List.getElem?_append_left h]
  · rw [List.getElem?_append_right (Nat.le_of_lt h), List.getElem?_append_right (Nat.le_of_lt h)]
    obtain ⟨i, hi⟩ : ∃ i, j - pre.length = i + 1 := ⟨j - pre.length - 1, by omega⟩
    rw [hi]
    rfl

theorem beside_set {α : Type} {pre post : List α} {j : Nat} (hj : j ≠ pre.length) (x : α) :
    ∃ pre' post', pre'.length = pre.length ∧ ∀ y, (pre ++ y :: post).set j x = pre' ++ y :: post' := by
  rcases Nat.lt_or_gt_of_ne hj with h | h
  · exact ⟨pre.set j x, post, by simp, fun y => by rw [List.set_append_left _ _ h]⟩
  · obtain ⟨i, hi⟩ : ∃ i, j - pre.length = i + 1 := ⟨j - pre.length - 1, by omega⟩
    exact ⟨pre, post.set i x, rfl, fun y => by rw [List.set_append_right _ _ (Nat.le_of_lt h), hi]; rfl⟩

theorem here_get {α : Type} {pre post : List α} (y : α) : (pre ++ y :: post)[pre.length]? = some y := by simp

theorem here_set {α : Type} {pre post : List α} (y z : α) : (pre ++ y :: post).set pre.length z = pre ++ z :: post := by simp

theorem here_lookup {α : Type} {k : U32} (y : α) {post : List (U32 × α)} : ∀ {pre : List (U32 × α)}, (∀ e ∈ pre, e.1 ≠ k) →
    (pre ++ (k, y) :: post).lookup k = some y
  | [], _ => by simp
  | e :: pre, h => by
    have h1 : (k == e.1) = false := by simpa using fun h' => h e (by simp) h'.symm
    rw [List.cons_append, List.lookup_cons, h1]
    exact here_lookup y (fun e he => h e (by simp [he]))

theorem here_put {α : Type} {k : U32} (y z : α) {post : List (U32 × α)} : ∀ {pre : List (U32 × α)}, (∀ e ∈ pre, e.1 ≠ k) →
    dictPut k z (pre ++ (k, y) :: post) = pre ++ (k, z) :: post
  | [], _ => by simp [dictPut]
  | e :: pre, h => by
    rw [List.cons_append, dictPut, if_neg (h e (by simp)), here_put y z (fun e he => h e (by simp [he]))]
    rfl

theorem beside_lookup {α : Type} {k j : U32} (hj : j ≠ k) (y z : α) {post : List (U32 × α)} : ∀ {pre : List (U32 × α)},
    (pre ++ (k, y) :: post).lookup j = (pre ++ (k, z) :: post).lookup j
  | [] => by
    have h1 : (j == k) = false := by simpa using hj
    simp [List.lookup_cons, h1]
  | e :: pre => by
    rw [List.cons_append, List.cons_append, List.lookup_cons, List.lookup_cons, beside_lookup hj y z]

theorem beside_put {α : Type} {k j : U32} (hj : j ≠ k) (x : α) {post : List (U32 × α)} : ∀ (pre : List (U32 × α)), (∀ e ∈ pre, e.1 ≠ k) →
    ∃ pre' post', (∀ e ∈ pre', e.1 ≠ k) ∧ ∀ y, dictPut j x (pre ++ (k, y) :: post) = pre' ++ (k, y) :: post'
  | [], _ => ⟨[], dictPut j x post, (fun _ h => nomatch h), fun y => by
    rw [List.nil_append, dictPut, if_neg (fun h => hj h.symm)]; rfl⟩
  | e :: pre, h => by
    by_cases he : e.1 = j
    · refine ⟨(e.1, x) :: pre, post, ?_, fun y => by rw [List.cons_append, dictPut, if_pos he]; rfl⟩
      intro e' he'
      rcases List.mem_cons.1 he' with rfl | he'
      · exact h e (by simp)
      · exact h e' (by simp [he'])
    · obtain ⟨pre', post', h1, h2⟩ := beside_put hj x (post := post) pre (fun e he => h e (by simp [he]))
      refine ⟨e :: pre', post', ?_, fun y => by rw [List.cons_append, dictPut, if_neg he, h2]; rfl⟩
      intro e' he'
      rcases List.mem_cons.1 he' with rfl | he'
      · exact h e' (by simp)
      · exact h1 e' he'

theorem beside_remove {α : Type} {k j : U32} (hj : j ≠ k) {pre post : List (U32 × α)} (h : ∀ e ∈ pre, e.1 ≠ k) :
    ∃ pre' post', (∀ e ∈ pre', e.1 ≠ k) ∧ ∀ y, dictRemove j (pre ++ (k, y) :: post) = pre' ++ (k, y) :: post' := by
  refine ⟨dictRemove j pre, dictRemove j post, fun e he => h e (List.mem_filter.1 he).1, fun y => ?_⟩
  simp only [dictRemove, List.filter_append]
  rw [List.filter_cons_of_pos (by simpa using fun h => hj h.symm)]

theorem beside_dictSet {α : Type} {k j : U32} (hj : j ≠ k) (x : α) {pre post : List (U32 × α)} (h : ∀ e ∈ pre, e.1 ≠ k) :
    ∃ pre' post', (∀ e ∈ pre', e.1 ≠ k) ∧ ∀ y, dictSet j x (pre ++ (k, y) :: post) = pre' ++ (k, y) :: post' := by
  obtain ⟨pre', post', h1, h2⟩ := beside_remove hj (post := post) h
  refine ⟨(j, x) :: pre', post', ?_, fun y => ?_⟩
  · intro e he
    rcases List.mem_cons.1 he with rfl | he
    · exact hj
    · exact h1 e he
  · show (j, x) :: dictRemove j _ = _
    rw [h2]
    rfl

theorem here_remove {α : Type} {k : U32} (y z : α) (pre post : List (U32 × α)) :
    dictRemove k (pre ++ (k, y) :: post) = dictRemove k (pre ++ (k, z) :: post) := by
  simp only [dictRemove, List.filter_append]
  rw [List.filter_cons_of_neg (by simp), List.filter_cons_of_neg (by simp)]

theorem here_dictSet {α : Type} {k : U32} (x y z : α) (pre post : List (U32 × α)) :
    dictSet k x (pre ++ (k, y) :: post) = dictSet k x (pre ++ (k, z) :: post) := by
  show (k, x) :: dictRemove k _ = (k, x) :: dictRemove k _
  rw [here_remove y z]

/-! ### Direct children -/

theorem childPlace_state {t : Ty} {p : List U32} {ns : List (List U32)} {s : Ty} {put : s.Cs → t.Cs} (h : ChildPlace t p ns s put) :
    t.isCsState = true := by cases h <;> rfl

theorem childPlace_path {t : Ty} {p : List U32} {ns : List (List U32)} {s : Ty} {put : s.Cs → t.Cs} (h : ChildPlace t p ns s put) :
    (∃ a, p = [a]) ∨ ∃ a b, p = [a, b] ∧ [] ∈ ns := by
  cases h with
  | item => exact .inl ⟨_, rfl⟩
  | value => exact .inl ⟨_, rfl⟩
  | field => exact .inl ⟨_, rfl⟩
  | variant => exact .inr ⟨_, _, rfl, by simp⟩

theorem index_toNat {n : Nat} (h : n < 2 ^ 32) : (BitVec.ofNat 32 n).toNat = n := by simp [BitVec.toNat_ofNat, Nat.mod_eq_of_lt h]

theorem childPlace_below {t : Ty} {p : List U32} {ns : List (List U32)} {s : Ty} {put : s.Cs → t.Cs} (h : ChildPlace t p ns s put)
    (act : CsAct) (path : List U32) (y : s.Cs) : t.csAt ρ act (p ++ path) (put y) = if s.isCsState then (do
      let x ← s.csAt ρ act path y
      .ok (put x)) else .ok (put y) := by
  cases h with
  | @item t pre post hi =>
    show (Ty.list s).csBelow ρ act _ path _ = _
    simp only [Ty.csBelow, index_toNat hi, here_get, here_set]
    rfl
  | @value kt t pre post k hk =>
    show (Ty.map kt s).csBelow ρ act _ path _ = _
    simp only [Ty.csBelow, here_lookup _ hk, here_put _ _ hk]
    rfl
  | field h =>
    show (Ty.struct _ _ _).csBelow ρ act _ path _ = _
    simp only [Ty.csBelow]
    exact place_below h act path y
  | variant h =>
    show (Ty.enum _ _ _ _).csBelow ρ act _ (_ :: path) _ = _
    rw [enum_below]
    exact variantPlace_below h act path y

theorem childPlace_alike {t : Ty} {p : List U32} {ns : List (List U32)} {s : Ty} {put : s.Cs → t.Cs} (h : ChildPlace t p ns s put)
    {y z : s.Cs} (hyz : Alike s y z) : Alike t (put y) (put z) := by
  cases h with
  | @item t pre post hi =>
    show List.Forall₂ _ _ _
    exact List.rel_append (List.forall₂_same.2 fun x _ => alike_refl s x) (.cons hyz (List.forall₂_same.2 fun x _ => alike_refl s x))
  | @value kt t pre post k hk =>
    intro j
    by_cases hj : j = k
    · subst hj
      show Option.Rel _ (List.lookup j _) (List.lookup j _)
      rw [here_lookup _ hk, here_lookup _ hk]
      exact .some hyz
    · show Option.Rel _ (List.lookup j _) (List.lookup j _)
      rw [beside_lookup hj y z]
      cases List.lookup j (pre ++ (k, z) :: post) with
      | none => exact .none
      | some x => exact .some (alike_refl s x)
  | field h => exact place_alike h hyz
  | @variant reg cached fs vs vtag tag s put h =>
    have := variantPlace_alike h hyz
    show Alike (.enum reg cached fs vs) (put y) (put z)
    revert this
    cases put y <;> cases put z <;> exact fun h => h

/-- The child is replaced. -/
theorem childPlace_replace {t : Ty} {p : List U32} {ns : List (List U32)} {s : Ty} {put : s.Cs → t.Cs} (h : ChildPlace t p ns s put)
    (b : Bytes) (y : s.Cs) : ExRel (Alike t) (t.csReplayEntry ρ (put y) (.update p b)) (do
      let x ← s.csDeserialize ρ b
      .ok (put x.1)) := by
  cases h with
  | @item t pre post hi =>
    show ExRel _ ((Ty.list s).csPerform ρ (.update (BitVec.ofNat 32 pre.length) b) _) _
    simp only [Ty.csPerform, index_toNat hi, here_set]
    rw [if_neg (by simp)]
    exact ExRel.read _ fun x => alike_refl (.list s) _
  | @value kt t pre post k hk =>
    show ExRel _ ((Ty.map kt s).csPerform ρ (.update k b) _) _
    simp only [Ty.csPerform]
    refine ExRel.read _ fun x j => ?_
    show Option.Rel _ (List.lookup j _) (List.lookup j _)
    rw [lookup_dictSet]
    by_cases hj : j = k
    · subst hj
      rw [if_pos rfl, here_lookup _ hk]
      exact .some (alike_refl s _)
    · rw [if_neg hj, beside_lookup hj y x.1]
      cases List.lookup j (pre ++ (k, x.1) :: post) with
      | none => exact .none
      | some x => exact .some (alike_refl s x)
  | @field reg cached fs tag s put h =>
    show ExRel _ ((Ty.struct _ _ _).csPerform ρ (.update tag b) _) _
    simp only [Ty.csPerform]
    rw [place_perform h]
    exact ExRel.read _ fun x => alike_refl (.struct _ _ _) _
  | @variant reg cached fs vs vtag tag s put h =>
    show ExRel _ ((Ty.enum _ _ _ _).csBelow ρ (.update tag b) _ [] _) _
    rw [enum_below, variantPlace_update h]
    exact ExRel.read _ fun x => alike_refl (.enum _ _ _ _) _

/-- What it is replaced with does not depend on it. -/
theorem childPlace_erase {t : Ty} {p : List U32} {ns : List (List U32)} {s : Ty} {put : s.Cs → t.Cs} (h : ChildPlace t p ns s put)
    (b : Bytes) (x y : s.Cs) : t.csReplayEntry ρ (put x) (.update p b) = t.csReplayEntry ρ (put y) (.update p b) := by
  cases h with
  | @item t pre post hi =>
    show (Ty.list s).csPerform ρ (.update (BitVec.ofNat 32 pre.length) b) _ = (Ty.list s).csPerform ρ (.update (BitVec.ofNat 32 pre.length) b) _
    simp only [Ty.csPerform, index_toNat hi, here_set]
    rw [if_neg (by simp), if_neg (by simp)]
  | @value kt t pre post k hk =>
    show (Ty.map kt s).csPerform ρ (.update k b) _ = (Ty.map kt s).csPerform ρ (.update k b) _
    simp only [Ty.csPerform, here_dictSet _ x y]
  | @field reg cached fs tag s put h =>
    show (Ty.struct _ _ _).csPerform ρ (.update tag b) _ = (Ty.struct _ _ _).csPerform ρ (.update tag b) _
    simp only [Ty.csPerform]
    rw [place_perform h, place_perform h]
  | @variant reg cached fs vs vtag tag s put h =>
    show (Ty.enum _ _ _ _).csBelow ρ (.update tag b) _ [] _ = (Ty.enum _ _ _ _).csBelow ρ (.update tag b) _ [] _
    rw [enum_below, enum_below, variantPlace_update h, variantPlace_update h]

theorem childPlace_remove {t : Ty} {p : List U32} {ns : List (List U32)} {s : Ty} {put : s.Cs → t.Cs} (h : ChildPlace t p ns s put)
    {q : List U32} {k : U32} (hq : q ++ [k] <+: p) (x y : s.Cs) : t.csAt ρ (.remove k) q (put x) = t.csAt ρ (.remove k) q (put y) := by
  have one : ∀ {a : U32}, q ++ [k] <+: [a] → q = [] ∧ k = a := by
    rintro a ⟨r, hr⟩
    cases q with
    | nil => exact ⟨rfl, (List.cons.inj hr).1⟩
    | cons b q => simp at hr
  cases h with
  | @item t pre post hi =>
    obtain ⟨rfl, -⟩ := one hq
    rfl
  | @value kt t pre post j hk =>
    obtain ⟨rfl, rfl⟩ := one hq
    show (Ty.map kt s).csPerform ρ (.remove k) _ = (Ty.map kt s).csPerform ρ (.remove k) _
    simp only [Ty.csPerform, here_lookup _ hk, here_remove x y, Option.isNone_some]
  | field h =>
    obtain ⟨rfl, -⟩ := one hq
    rfl
  | variant h =>
    obtain ⟨r, hr⟩ := hq
    cases q with
    | nil => rfl
    | cons a q =>
      cases q with
      | nil =>
        obtain ⟨rfl, -⟩ := List.cons.inj hr
        show (Ty.enum _ _ _ _).csBelow ρ (.remove k) _ [] _ = (Ty.enum _ _ _ _).csBelow ρ (.remove k) _ [] _
        rw [enum_below, enum_below, variantPlace_remove h, variantPlace_remove h]
      | cons b q => simp at hr

/-- What `path` and `act` have to be for the action at the path to leave the object at `p` alone. -/
def AsideAct (p path : List U32) : CsAct → Prop
  | .update tag _ => ¬ p <+: path ++ [tag] ∧ ¬ path ++ [tag] <+: p
  | .push _ => ¬ p <+: path
  | .pop => ¬ p <+: path ∧ ¬ path <+: p
  | .remove k => ¬ p <+: path ∧ ¬ path ++ [k] <+: p

theorem asideAct_path {p path : List U32} {act : CsAct} (h : AsideAct p path act) : ¬ p <+: path := by
  cases act with
  | update tag b => exact fun hp => h.1 (hp.trans (List.prefix_append ..))
  | push b => exact h
  | pop => exact h.1
  | remove k => exact h.1

/-- The action is not the replacement of a variant. -/
def NoVariantAct (ns : List (List U32)) (path : List U32) : CsAct → Prop
  | .update _ _ => path ∉ ns
  | _ => True

theorem childPlace_aside {t : Ty} {p : List U32} {ns : List (List U32)} {s : Ty} {put : s.Cs → t.Cs} (h : ChildPlace t p ns s put)
    (act : CsAct) (path : List U32) (hp : AsideAct p path act) (hn : NoVariantAct ns path act) :
    Uniform (ChildPlace t p ns s) put (t.csAt ρ act path) := by
  have hpath := asideAct_path hp
  cases h with
  | @item t pre post hi =>
    have place : ∀ pre' post', pre'.length = pre.length →
        ChildPlace (.list s) [BitVec.ofNat 32 pre.length] [] s (fun x => pre' ++ x :: post') := by
      intro pre' post' hl
      rw [← hl] at hi ⊢
      exact .item hi
    have hget : ∀ j : U32, j ≠ BitVec.ofNat 32 pre.length → j.toNat ≠ pre.length := by
      intro j hj hj'
      exact hj (by rw [← hj']; simp)
    cases path with
    | nil =>
      cases act with
      | update j b =>
        have hj := hget j (fun h => hp.1 (by rw [h]; exact ⟨[], rfl⟩))
        show Uniform _ _ ((Ty.list s).csPerform ρ (.update j b))
        by_cases hl : (pre ++ post).length + 1 ≤ j.toNat
        · refine .throw .indexOutOfRange fun y => ?_
          simp only [Ty.csPerform]
          rw [if_pos (by simp at hl ⊢; omega)]
        · cases hd : s.csDeserialize ρ b with
          | error e =>
            refine .throw e fun y => ?_
            simp only [Ty.csPerform, hd]
            rw [if_neg (by simp at hl ⊢; omega)]
            rfl
          | ok x =>
            obtain ⟨pre', post', h1, h2⟩ := beside_set (post := post) hj x.1
            refine .inl ⟨_, place pre' post' h1, fun y => ?_⟩
            simp only [Ty.csPerform, hd]
            rw [if_neg (by simp at hl ⊢; omega)]
            exact congrArg Except.ok (h2 y)
      | push b =>
        refine .read (s.csDeserialize ρ b) (fun x y => pre ++ y :: (post ++ [x.1])) (fun y => ?_) (fun x => place _ _ rfl)
        show (Ty.list s).csPerform ρ (.push b) _ = _
        simp only [Ty.csPerform, List.append_assoc, List.cons_append]
      | pop => exact (hp.2 (List.nil_prefix)).elim
      | remove k => exact .throw .notSupported fun y => rfl
    | cons j path =>
      have hj := hget j (fun h => hpath (by rw [h]; exact ⟨path, rfl⟩))
      show Uniform _ _ ((Ty.list s).csBelow ρ act j path)
      by_cases hs : s.isCsState = true
      · have hg : ∀ y, (pre ++ y :: post)[j.toNat]? = (pre ++ post)[if j.toNat < pre.length then j.toNat else j.toNat - 1]? := by
          intro y
          split
          · rename_i h
            rw [List.getElem?_append_left h, List.getElem?_append_left h]
          · rename_i h
            rw [List.getElem?_append_right (by omega), List.getElem?_append_right (by omega)]
            obtain ⟨i, hi⟩ : ∃ i, j.toNat - pre.length = i + 1 := ⟨j.toNat - pre.length - 1, by omega⟩
            rw [hi, show j.toNat - 1 - pre.length = i by omega]
            rfl
        cases hx : (pre ++ post)[if j.toNat < pre.length then j.toNat else j.toNat - 1]? with
        | none => exact .stay (.item hi) (fun y => by simp only [Ty.csBelow, if_pos hs, hg, hx])
        | some x =>
          have hb : ∀ y, (Ty.list s).csBelow ρ act j path (pre ++ y :: post) = (do
              let z ← s.csAt ρ act path x
              .ok ((pre ++ y :: post).set j.toNat z)) := by
            intro y
            simp only [Ty.csBelow, if_pos hs, hg, hx]
            rfl
          cases hz : s.csAt ρ act path x with
          | error e => exact .throw e fun y => by rw [hb, hz]; rfl
          | ok z =>
            obtain ⟨pre', post', h1, h2⟩ := beside_set (post := post) hj z
            exact .inl ⟨_, place pre' post' h1, fun y => by rw [hb, hz]; exact congrArg Except.ok (h2 y)⟩
      · exact .stay (.item hi) (fun y => by simp only [Ty.csBelow, if_neg hs])
  | @value kt t pre post k hk =>
    cases path with
    | nil =>
      cases act with
      | update j b =>
        have hj : j ≠ k := fun h => hp.1 (by rw [h]; exact ⟨[], rfl⟩)
        show Uniform _ _ ((Ty.map kt s).csPerform ρ (.update j b))
        cases hd : s.csDeserialize ρ b with
        | error e => exact .throw e fun y => by simp only [Ty.csPerform, hd]; rfl
        | ok x =>
          obtain ⟨pre', post', h1, h2⟩ := beside_dictSet (post := post) hj x.1 hk
          exact .inl ⟨_, .value h1, fun y => by simp only [Ty.csPerform, hd]; exact congrArg Except.ok (h2 y)⟩
      | push b => exact .throw .notSupported fun y => rfl
      | pop => exact .throw .notSupported fun y => rfl
      | remove j =>
        have hj : j ≠ k := fun h => hp.2 (by rw [h]; exact ⟨[], rfl⟩)
        show Uniform _ _ ((Ty.map kt s).csPerform ρ (.remove j))
        have hl : ∀ y, (pre ++ (k, y) :: post).lookup j = (pre ++ post).lookup j := by
          intro y
          clear hk
          induction pre with
          | nil =>
            have h1 : (j == k) = false := by simpa using hj
            simp [List.lookup_cons, h1]
          | cons e pre ih => rw [List.cons_append, List.cons_append, List.lookup_cons, List.lookup_cons, ih]
        by_cases hn : ((pre ++ post).lookup j).isNone = true
        · exact .throw .keyNotFound fun y => by simp only [Ty.csPerform, hl]; rw [if_pos hn]
        · obtain ⟨pre', post', h1, h2⟩ := beside_remove (post := post) hj hk
          exact .inl ⟨_, .value h1, fun y => by simp only [Ty.csPerform, hl]; rw [if_neg hn]; exact congrArg Except.ok (h2 y)⟩
    | cons j path =>
      have hj : j ≠ k := fun h => hpath (by rw [h]; exact ⟨path, rfl⟩)
      show Uniform _ _ ((Ty.map kt s).csBelow ρ act j path)
      by_cases hs : s.isCsState = true
      · have hl : ∀ y, (pre ++ (k, y) :: post).lookup j = (pre ++ post).lookup j := by
          intro y
          clear hk
          induction pre with
          | nil =>
            have h1 : (j == k) = false := by simpa using hj
            simp [List.lookup_cons, h1]
          | cons e pre ih => rw [List.cons_append, List.cons_append, List.lookup_cons, List.lookup_cons, ih]
        cases hx : (pre ++ post).lookup j with
        | none => exact .stay (.value hk) (fun y => by simp only [Ty.csBelow, if_pos hs, hl, hx])
        | some x =>
          have hb : ∀ y, (Ty.map kt s).csBelow ρ act j path (pre ++ (k, y) :: post) = (do
              let z ← s.csAt ρ act path x
              .ok (dictPut j z (pre ++ (k, y) :: post))) := by
            intro y
            simp only [Ty.csBelow, if_pos hs, hl, hx]
            rfl
          cases hz : s.csAt ρ act path x with
          | error e => exact .throw e fun y => by rw [hb, hz]; rfl
          | ok z =>
            obtain ⟨pre', post', h1, h2⟩ := beside_put (post := post) hj z pre hk
            exact .inl ⟨_, .value h1, fun y => by rw [hb, hz]; exact congrArg Except.ok (h2 y)⟩
      · exact .stay (.value hk) (fun y => by simp only [Ty.csBelow, if_neg hs])
  | @field reg cached fs tag s put h =>
    refine (fields_aside (ρ := ρ) h act path hpath ?_).map (fun z => z) (fun y => ?_) (fun g hg => .field hg)
    · rintro b rfl rfl
      exact hp.1 ⟨[], rfl⟩
    · cases path with
      | nil =>
        show (Ty.struct _ _ _).csPerform ρ act _ = _
        simp only [Ty.csPerform, descend]
        cases fs.csPerform ρ act (put y) <;> rfl
      | cons k path =>
        show (Ty.struct _ _ _).csBelow ρ act k path _ = _
        simp only [Ty.csBelow, descend]
        cases fs.csBelow ρ act k path (put y) <;> rfl
  | @variant reg cached fs vs vtag tag s put h =>
    cases path with
    | nil =>
      cases act with
      | update j b => exact (hn (by simp)).elim
      | push b => exact .throw .notSupported fun y => rfl
      | pop => exact .throw .notSupported fun y => rfl
      | remove k => exact .throw .notSupported fun y => rfl
    | cons k path =>
      refine (variantPlace_aside (ρ := ρ) h act k path hpath ?_).map (fun z => z) (fun y => ?_) (fun g hg => .variant hg)
      · rintro b rfl rfl rfl
        exact hp.1 ⟨[], rfl⟩
      · show (Ty.enum _ _ _ _).csBelow ρ act k path _ = _
        rw [enum_below]
        cases (Variants.cons 0#32 cached fs vs).csBelow ρ act k path (put y) <;> rfl

/-! ### Objects further inside -/

/-- The entry replaces the object it is addressed from. -/
def replaces : Entry → Bool
  | .update [] _ => true
  | _ => false

/-- What becomes of an object when an entry for it, or for something inside of it, is replayed. What is no `IState` can only be replaced. -/
def slotEntry (ρ : Bytes → Str) (s : Ty) (x : s.Cs) (e : Entry) : Except Exn s.Cs :=
  if s.isCsState = true ∨ replaces e = true then s.csReplayEntry ρ x e else .ok x

theorem slotEntry_state {s : Ty} (hs : s.isCsState = true) (x : s.Cs) (e : Entry) : slotEntry ρ s x e = s.csReplayEntry ρ x e :=
  if_pos (.inl hs)

theorem slotEntry_box {s : Ty} (x : s.Cs) (e : Entry) : slotEntry ρ (.box s) x e = slotEntry ρ s x e := by
  have hat : ∀ act path, (Ty.box s).csAt ρ act path x = s.csAt ρ act path x := by
    intro act path
    cases path with
    | nil => show (Ty.box s).csPerform ρ act x = _; rw [Ty.csPerform]; rfl
    | cons k path => show (Ty.box s).csBelow ρ act k path x = _; rw [Ty.csBelow]; rfl
  have : (Ty.box s).csReplayEntry ρ x e = s.csReplayEntry ρ x e := by
    cases e with
    | update q b =>
      simp only [Ty.csReplayEntry]
      cases q.getLast? with
      | none => simp only [Ty.csDeserialize]
      | some tag => exact hat _ _
    | listPush q b => exact hat _ _
    | listPop q => exact hat _ _
    | mapRemove q k => exact hat _ _
  unfold slotEntry
  rw [this]
  rfl

theorem ExRel.refl {α : Type} {E : α → α → Prop} (h : ∀ x, E x x) (a : Except Exn α) : ExRel E a a := by
  cases a with
  | error e => rfl
  | ok x => exact h x

theorem ExRel.trans {α : Type} {E : α → α → Prop} (h : ∀ x y z, E x y → E y z → E x z) {a b c : Except Exn α} (h1 : ExRel E a b)
    (h2 : ExRel E b c) : ExRel E a c := by
  cases a <;> cases b <;> cases c <;> first | exact h1.elim | exact h2.elim | exact Eq.trans h1 h2 | exact h _ _ _ h1 h2

theorem bind_ok {α : Type} (a : Except Exn α) : (do
    let x ← a
    .ok x) = a := by cases a <;> rfl

theorem getLast?_under (p q : List U32) (k : U32) : (p ++ (q ++ [k])).getLast? = some k := by
  rw [← List.append_assoc, List.getLast?_concat]

theorem dropLast_under (p q : List U32) (k : U32) : (p ++ (q ++ [k])).dropLast = p ++ q := by
  rw [← List.append_assoc, List.dropLast_concat]

theorem csUpdate_snoc (t : Ty) (q : List U32) (k : U32) (b : Bytes) (v : t.Cs) :
    t.csReplayEntry ρ v (.update (q ++ [k]) b) = t.csAt ρ (.update k b) q v := by
  simp only [Ty.csReplayEntry, List.getLast?_concat, List.dropLast_concat]

theorem csUpdate_under (t : Ty) (p q : List U32) (k : U32) (b : Bytes) (v : t.Cs) :
    t.csReplayEntry ρ v (.update (p ++ (q ++ [k])) b) = t.csAt ρ (.update k b) (p ++ q) v := by
  rw [← List.append_assoc, csUpdate_snoc]

theorem path_snoc : ∀ q : List U32, q = [] ∨ ∃ r k, q = r ++ [k] := by
  intro q
  rcases List.eq_nil_or_concat q with h | ⟨r, k, h⟩
  · exact .inl h
  · exact .inr ⟨r, k, by rw [h, List.concat_eq_append]⟩

/-- An entry for the child or something inside of it, other than its replacement. -/
theorem childPlace_inside {t : Ty} {p : List U32} {ns : List (List U32)} {s : Ty} {put : s.Cs → t.Cs} (h : ChildPlace t p ns s put)
    (y : s.Cs) (e : Entry) (he : replaces e = false) : t.csReplayEntry ρ (put y) (under p e) = (do
      let x ← slotEntry ρ s y e
      .ok (put x)) := by
  have key : ∀ (act : CsAct) (path : List U32), t.csReplayEntry ρ (put y) (under p e) = t.csAt ρ act (p ++ path) (put y) →
      s.csReplayEntry ρ y e = s.csAt ρ act path y → t.csReplayEntry ρ (put y) (under p e) = (do
        let x ← slotEntry ρ s y e
        .ok (put x)) := by
    intro act path h1 h2
    rw [h1, childPlace_below h]
    unfold slotEntry
    by_cases hs : s.isCsState = true
    · rw [if_pos hs, if_pos (.inl hs), h2]
    · rw [if_neg hs, if_neg (by rw [he]; simpa using hs)]
      rfl
  cases e with
  | update q b =>
    rcases path_snoc q with rfl | ⟨q, k, rfl⟩
    · cases he
    · exact key (.update k b) q (csUpdate_under t p q k b _) (csUpdate_snoc s q k b _)
  | listPush q b => exact key (.push b) q rfl rfl
  | listPop q => exact key .pop q rfl rfl
  | mapRemove q k => exact key (.remove k) q rfl rfl

theorem childPlace_within {t : Ty} {p : List U32} {ns : List (List U32)} {s : Ty} {put : s.Cs → t.Cs} (h : ChildPlace t p ns s put)
    (y : s.Cs) (e : Entry) : ExRel (Alike t) (slotEntry ρ t (put y) (under p e)) (do
      let x ← slotEntry ρ s y e
      .ok (put x)) := by
  rw [slotEntry_state (childPlace_state h)]
  by_cases he : replaces e = true
  · obtain ⟨b, rfl⟩ : ∃ b, e = .update [] b := by
      cases e with
      | update q b =>
        cases q with
        | nil => exact ⟨b, rfl⟩
        | cons _ _ => cases he
      | _ => cases he
    have h1 := childPlace_replace (ρ := ρ) h b y
    have h2 : slotEntry ρ s y (.update [] b) = (do
        let x ← s.csDeserialize ρ b
        .ok x.1) := if_pos (.inr rfl)
    rw [h2]
    show ExRel _ (t.csReplayEntry ρ (put y) (.update (p ++ []) b)) _
    rw [List.append_nil]
    cases hd : s.csDeserialize ρ b with
    | error x => rw [hd] at h1; exact h1
    | ok x => rw [hd] at h1; exact h1
  · rw [childPlace_inside h y e (by simpa using he)]
    exact ExRel.refl (alike_refl t) _

theorem place_put_alike {t : Ty} {p : List U32} {ns : List (List U32)} {s : Ty} {put : s.Cs → t.Cs} (h : Place t p ns s put)
    {y z : s.Cs} (hyz : Alike s y z) : Alike t (put y) (put z) := by
  induction h with
  | self => exact hyz
  | box h ih => exact ih hyz
  | inside h1 h2 ih => exact childPlace_alike h1 (ih hyz)

theorem place_within {t : Ty} {p : List U32} {ns : List (List U32)} {s : Ty} {put : s.Cs → t.Cs} (h : Place t p ns s put)
    (y : s.Cs) (e : Entry) : ExRel (Alike t) (slotEntry ρ t (put y) (under p e)) (do
      let x ← slotEntry ρ s y e
      .ok (put x)) := by
  induction h with
  | @self t =>
    have : under [] e = e := by cases e <;> rfl
    rw [this, bind_ok]
    exact ExRel.refl (alike_refl t) _
  | box h ih =>
    rw [slotEntry_box]
    exact ih y
  | @inside t p q ns ns' c s put put' h1 h2 ih =>
    have hu : under (p ++ q) e = under p (under q e) := by cases e <;> simp [under]
    rw [hu]
    refine ExRel.trans (alike_trans t) (childPlace_within h1 (put' y) (under q e)) ?_
    have := (ih y).map (f := put) (g := put) (F := Alike t) (fun a b hab => childPlace_alike h1 hab)
    refine ExRel.trans (alike_trans t) this ?_
    cases slotEntry ρ s y e with
    | error x => rfl
    | ok x => exact alike_refl t _

/-! ### Beside -/

theorem place_at_aside {t : Ty} {p : List U32} {ns : List (List U32)} {s : Ty} {put : s.Cs → t.Cs} (h : Place t p ns s put)
    (act : CsAct) (path : List U32) (hp : AsideAct p path act) (hn : NoVariantAct ns path act) :
    Uniform (Place t p ns s) put (t.csAt ρ act path) := by
  induction h generalizing path with
  | self => exact (asideAct_path hp List.nil_prefix).elim
  | @box t p ns s put h ih =>
    refine (ih path hp hn).map (fun z => z) (fun y => ?_) (fun g hg => .box hg)
    rw [bind_ok]
    cases path with
    | nil => show (Ty.box t).csPerform ρ act _ = _; rw [Ty.csPerform]; rfl
    | cons k path => show (Ty.box t).csBelow ρ act k path _ = _; rw [Ty.csBelow]; rfl
  | @inside t p q ns ns' c s put put' h1 h2 ih =>
    by_cases hq : p <+: path
    · obtain ⟨path, rfl⟩ := hq
      by_cases hs : c.isCsState = true
      · refine (ih path ?_ ?_).map put (fun y => ?_) (fun g hg => .inside h1 hg)
        · cases act with
          | update tag b =>
            simp only [AsideAct, List.append_assoc, List.prefix_append_right_inj] at hp
            exact hp
          | push b =>
            simp only [AsideAct, List.prefix_append_right_inj] at hp
            exact hp
          | pop =>
            simp only [AsideAct, List.prefix_append_right_inj] at hp
            exact hp
          | remove k =>
            simp only [AsideAct, List.append_assoc, List.prefix_append_right_inj] at hp
            exact hp
        · cases act with
          | update tag b => exact fun h => hn (List.mem_append_right _ (List.mem_map.2 ⟨_, h, rfl⟩))
          | _ => exact trivial
        · rw [childPlace_below h1, if_pos hs]
      · exact .stay (.inside h1 h2) (fun y => by rw [childPlace_below h1, if_neg hs])
    · have := childPlace_aside (ρ := ρ) h1 act path ?_ ?_
      · rcases this with ⟨g, hg, h3⟩ | ⟨e, h3⟩
        · exact .inl ⟨_, .inside hg h2, fun y => h3 (put' y)⟩
        · exact .inr ⟨e, fun y => h3 (put' y)⟩
      · cases act with
        | update tag b =>
          refine ⟨fun h => ?_, fun h => hp.2 (h.trans (List.prefix_append ..))⟩
          rcases List.prefix_concat_iff.1 h with h | h
          · exact hp.2 (h ▸ List.prefix_append ..)
          · exact hq h
        | push b => exact hq
        | pop => exact ⟨hq, fun h => hp.2 (h.trans (List.prefix_append ..))⟩
        | remove k => exact ⟨hq, fun h => hp.2 (h.trans (List.prefix_append ..))⟩
      · cases act with
        | update tag b => exact fun h => hn (List.mem_append_left _ h)
        | _ => exact trivial

theorem place_aside {t : Ty} {p : List U32} {ns : List (List U32)} {s : Ty} {put : s.Cs → t.Cs} (h : Place t p ns s put) {e : Entry}
    (he : Aside p e) (hn : NoVariant ns e) : Uniform (Place t p ns s) put (fun v => t.csReplayEntry ρ v e) := by
  cases e with
  | update q b =>
    rcases path_snoc q with rfl | ⟨q, k, rfl⟩
    · exact (he.2 List.nil_prefix).elim
    · have := place_at_aside (ρ := ρ) h (.update k b) q he (fun hq => hn q hq k rfl)
      simpa only [csUpdate_snoc] using this
  | listPush q b => exact place_at_aside h (.push b) q he trivial
  | listPop q => exact place_at_aside h .pop q he trivial
  | mapRemove q k => exact place_at_aside h (.remove k) q he trivial

/-! ### Erased -/

theorem place_erases {t : Ty} {p : List U32} {ns : List (List U32)} {s : Ty} {put : s.Cs → t.Cs} (h : Place t p ns s put) (x y : s.Cs)
    {e : Entry} (he : Erases p e) (hn : NoVariant ns e) : slotEntry ρ t (put x) e = slotEntry ρ t (put y) e := by
  induction h generalizing e with
  | @self t =>
    cases e with
    | update q b =>
      obtain rfl : q = [] := List.prefix_nil.1 he
      unfold slotEntry
      rw [if_pos (.inr rfl), if_pos (.inr rfl)]
      rfl
    | listPush q b => exact he.elim
    | listPop q => exact he.elim
    | mapRemove q k => exact absurd (congrArg List.length (List.prefix_nil.1 he)) (by simp)
  | box h ih =>
    rw [slotEntry_box, slotEntry_box]
    exact ih x y he hn
  | @inside t p q ns ns' c s put put' h1 h2 ih =>
    rw [slotEntry_state (childPlace_state h1), slotEntry_state (childPlace_state h1)]
    cases e with
    | update r b =>
      by_cases hr : p <+: r
      · obtain ⟨r, rfl⟩ := hr
        by_cases h0 : r = []
        · subst h0
          rw [List.append_nil]
          exact childPlace_erase h1 b _ _
        · have hb : replaces (.update r b) = false := by
            cases r with
            | nil => exact absurd rfl h0
            | cons _ _ => rfl
          have h3 := childPlace_inside (ρ := ρ) h1 (put' x) (.update r b) hb
          have h4 := childPlace_inside (ρ := ρ) h1 (put' y) (.update r b) hb
          have h5 := ih x y (e := .update r b) ((List.prefix_append_right_inj p).1 he) (fun n hn' k hk =>
            hn (p ++ n) (List.mem_append_right _ (List.mem_map.2 ⟨n, hn', rfl⟩)) k (by rw [hk, List.append_assoc]))
          rw [h5, ← h4] at h3
          exact h3
      · have h3 : r <+: p := (List.prefix_or_prefix_of_prefix he (List.prefix_append ..)).resolve_right hr
        have h4 : r = [] := by
          rcases childPlace_path h1 with ⟨a, rfl⟩ | ⟨a, b', rfl, h5⟩
          · cases r with
            | nil => rfl
            | cons k r =>
              obtain ⟨w, hw⟩ := h3
              simp at hw
              exact (hr ⟨[], by simp [hw.1, hw.2.1]⟩).elim
          · match r, h3 with
            | [], _ => rfl
            | [k], _ => exact (hn [] (List.mem_append_left _ h5) k rfl).elim
            | k :: k' :: r, ⟨w, hw⟩ =>
              simp at hw
              exact (hr ⟨[], by simp [hw.1, hw.2.1, hw.2.2.1]⟩).elim
        subst h4
        rfl
    | listPush r b => exact he.elim
    | listPop r => exact he.elim
    | mapRemove r k =>
      by_cases hr : p <+: r
      · obtain ⟨r, rfl⟩ := hr
        have hb : replaces (.mapRemove r k) = false := rfl
        have h3 := childPlace_inside (ρ := ρ) h1 (put' x) (.mapRemove r k) hb
        have h4 := childPlace_inside (ρ := ρ) h1 (put' y) (.mapRemove r k) hb
        have h5 := ih x y (e := .mapRemove r k) (by
          have : p ++ r ++ [k] <+: p ++ q := he
          rw [List.append_assoc] at this
          exact (List.prefix_append_right_inj p).1 this) trivial
        rw [h5, ← h4] at h3
        exact h3
      · have h3 : r ++ [k] <+: p := by
          rcases List.prefix_or_prefix_of_prefix (show r ++ [k] <+: p ++ q from he) (List.prefix_append p q) with h | h
          · exact h
          · rcases List.prefix_concat_iff.1 h with h | h
            · rw [h]; exact ⟨[], List.append_nil _⟩
            · exact (hr h).elim
        exact childPlace_remove h1 h3 _ _

/-! ### Logs -/

/-- The object after entries for it. -/
def slotAll (ρ : Bytes → Str) (s : Ty) : s.Cs → List Entry → Except Exn s.Cs
  | x, [] => .ok x
  | x, e :: es => do
    let x ← slotEntry ρ s x e
    slotAll ρ s x es

theorem ExRel.ok_left {α : Type} {E : α → α → Prop} {a : α} {b : Except Exn α} (h : ExRel E (.ok a) b) : ∃ b', b = .ok b' ∧ E a b' := by
  cases b with
  | error e => exact h.elim
  | ok b => exact ⟨b, rfl, h⟩

theorem ExRel.ok_right {α : Type} {E : α → α → Prop} {a : Except Exn α} {b : α} (h : ExRel E a (.ok b)) : ∃ a', a = .ok a' ∧ E a' b := by
  cases a with
  | error e => exact h.elim
  | ok a => exact ⟨a, rfl, h⟩

theorem csApplyAll_cons (t : Ty) (e : Entry) (es : List Entry) (c c' : t.Cs) :
    csApplyAll ρ t c (e :: es) = .ok c' ↔ ∃ c1, t.csReplayEntry ρ c e = .ok c1 ∧ csApplyAll ρ t c1 es = .ok c' := by
  simp only [csApplyAll]
  cases t.csReplayEntry ρ c e with
  | error x => exact ⟨fun h => (nomatch h), fun ⟨_, h, _⟩ => (nomatch h)⟩
  | ok c1 => exact ⟨fun h => ⟨c1, rfl, h⟩, fun ⟨_, h, h'⟩ => by cases h; exact h'⟩

theorem slotAll_cons (s : Ty) (e : Entry) (es : List Entry) (c c' : s.Cs) :
    slotAll ρ s c (e :: es) = .ok c' ↔ ∃ c1, slotEntry ρ s c e = .ok c1 ∧ slotAll ρ s c1 es = .ok c' := by
  simp only [slotAll]
  cases slotEntry ρ s c e with
  | error x => exact ⟨fun h => (nomatch h), fun ⟨_, h, _⟩ => (nomatch h)⟩
  | ok c1 => exact ⟨fun h => ⟨c1, rfl, h⟩, fun ⟨_, h, h'⟩ => by cases h; exact h'⟩

/-- A log of entries inside of the object and entries beside it falls apart into the two. -/
theorem csApplyAll_split {t : Ty} (ht : t.isCsState = true) {p : List U32} {ns : List (List U32)} {s : Ty} : ∀ {es : List Entry},
    (∀ e ∈ es, Within p e ∨ Aside p e ∧ NoVariant ns e) → ∀ {c' : t.Cs} {x : s.Cs} {put : s.Cs → t.Cs}, Place t p ns s put →
    csApplyAll ρ t (put x) es = .ok c' →
    ∃ x' put', (∃ A, (es.filter (fun e => decide (Within p e))) = A.map (under p) ∧ slotAll ρ s x A = .ok x') ∧
      (∀ y, csApplyAll ρ t (put y) (without p es) = .ok (put' y)) ∧ Place t p ns s put' ∧ Alike t c' (put' x')
  | [], _, c', x, put, h, ha => by
    cases ha
    exact ⟨x, put, ⟨[], rfl, rfl⟩, fun y => rfl, h, alike_refl t _⟩
  | e :: es, he, c', x, put, h, ha => by
    obtain ⟨c1, h1, h2⟩ := (csApplyAll_cons t e es _ _).1 ha
    have he' : ∀ e ∈ es, Within p e ∨ Aside p e ∧ NoVariant ns e := fun e h => he e (List.mem_cons_of_mem _ h)
    by_cases hw : Within p e
    · obtain ⟨e', rfl⟩ := within_under hw
      have h3 := place_within (ρ := ρ) h x e'
      rw [slotEntry_state ht, h1] at h3
      obtain ⟨c2, h4, h5⟩ := h3.ok_left
      cases hx : slotEntry ρ s x e' with
      | error w => rw [hx] at h4; cases h4
      | ok x1 =>
        rw [hx] at h4
        cases h4
        have h6 := applyAll_alike (ρ := ρ) t es _ _ h5
        rw [h2] at h6
        obtain ⟨c3, h7, h8⟩ := h6.ok_left
        obtain ⟨x', put', ⟨A, h9, h10⟩, h11, h12, h13⟩ := csApplyAll_split ht he' h h7
        refine ⟨x', put', ⟨e' :: A, ?_, (slotAll_cons s e' A x x').2 ⟨x1, hx, h10⟩⟩, ?_, h12, alike_trans t _ _ _ h8 h13⟩
        · rw [List.filter_cons_of_pos (by simpa using hw), h9]; rfl
        · have : without p (under p e' :: es) = without p es := List.filter_cons_of_neg (by simpa using hw)
          rw [this]
          exact h11
    · have hb := (he e (List.mem_cons_self ..)).resolve_left hw
      rcases place_aside (ρ := ρ) h hb.1 hb.2 with ⟨put1, h3, h4⟩ | ⟨w, h4⟩
      · have h4x := h4 x
        simp only at h4x
        rw [h1] at h4x
        cases h4x
        obtain ⟨x', put', ⟨A, h9, h10⟩, h11, h12, h13⟩ := csApplyAll_split ht he' h3 h2
        refine ⟨x', put', ⟨A, ?_, h10⟩, fun y => ?_, h12, h13⟩
        · rw [List.filter_cons_of_neg (by simpa using hw), h9]
        · have : without p (e :: es) = e :: without p es := List.filter_cons_of_pos (by simpa using hw)
          rw [this]
          exact (csApplyAll_cons t e _ _ _).2 ⟨put1 y, h4 y, h11 y⟩
      · have h4x := h4 x
        simp only at h4x
        rw [h1] at h4x
        cases h4x

/-- And the two can be put together again in any way. -/
theorem csApplyAll_join {t : Ty} (ht : t.isCsState = true) {p : List U32} {ns : List (List U32)} {s : Ty} : ∀ {es : List Entry},
    (∀ e ∈ es, Within p e ∨ Aside p e ∧ NoVariant ns e) → ∀ {x x' : s.Cs} {put put' : s.Cs → t.Cs} {A : List Entry}, Place t p ns s put →
    (es.filter (fun e => decide (Within p e))) = A.map (under p) → slotAll ρ s x A = .ok x' →
    (∀ y, csApplyAll ρ t (put y) (without p es) = .ok (put' y)) → ∃ c', csApplyAll ρ t (put x) es = .ok c' ∧ Alike t c' (put' x')
  | [], _, x, x', put, put', A, h, hA, ha, hb => by
    obtain rfl : A = [] := List.map_eq_nil_iff.1 hA.symm
    cases ha
    exact ⟨_, hb x, alike_refl t _⟩
  | e :: es, he, x, x', put, put', A, h, hA, ha, hb => by
    have he' : ∀ e ∈ es, Within p e ∨ Aside p e ∧ NoVariant ns e := fun e h => he e (List.mem_cons_of_mem _ h)
    by_cases hw : Within p e
    · rw [List.filter_cons_of_pos (by simpa using hw)] at hA
      obtain ⟨e', A', rfl, rfl, hA'⟩ := List.map_eq_cons_iff.1 hA.symm
      obtain ⟨x1, h1, h2⟩ := (slotAll_cons s e' A' x x').1 ha
      have h3 := place_within (ρ := ρ) h x e'
      rw [slotEntry_state ht, h1] at h3
      obtain ⟨c1, h4, h5⟩ := ExRel.ok_right h3
      have : without p (under p e' :: es) = without p es := List.filter_cons_of_neg (by simpa using hw)
      rw [this] at hb
      obtain ⟨c', h6, h7⟩ := csApplyAll_join ht he' h hA'.symm h2 hb
      have h8 := applyAll_alike (ρ := ρ) t es _ _ h5
      rw [h6] at h8
      obtain ⟨c2, h9, h10⟩ := h8.ok_right
      exact ⟨c2, (csApplyAll_cons t _ es _ _).2 ⟨c1, h4, h9⟩, alike_trans t _ _ _ h10 h7⟩
    · have hbs := (he e (List.mem_cons_self ..)).resolve_left hw
      have : without p (e :: es) = e :: without p es := List.filter_cons_of_pos (by simpa using hw)
      rw [this] at hb
      rw [List.filter_cons_of_neg (by simpa using hw)] at hA
      rcases place_aside (ρ := ρ) h hbs.1 hbs.2 with ⟨put1, h3, h4⟩ | ⟨w, h4⟩
      · obtain ⟨c', h5, h6⟩ := csApplyAll_join ht he' h3 hA ha (fun y => by
          obtain ⟨c1, h5, h6⟩ := (csApplyAll_cons t e _ _ _).1 (hb y)
          have h7 := h4 y
          simp only at h7
          rw [h5] at h7
          cases h7
          exact h6)
        exact ⟨c', (csApplyAll_cons t e es _ _).2 ⟨put1 x, h4 x, h5⟩, h6⟩
      · obtain ⟨c1, h5, -⟩ := (csApplyAll_cons t e _ _ _).1 (hb x)
        have h7 := h4 x
        simp only at h7
        rw [h5] at h7
        cases h7

mutual
theorem alike_symm : (t : Ty) → ∀ (a b : t.Cs), Alike t a b → Alike t b a
  | .box t, a, b, h => alike_symm t a b h
  | .list t, a, b, h => by
    change List.Forall₂ _ a b at h
    show List.Forall₂ _ b a
    induction h with
    | nil => exact .nil
    | cons h1 h2 ih => exact .cons (alike_symm t _ _ h1) ih
  | .map _ t, a, b, h => fun k => by
    have h1 := h k
    revert h1
    cases a.lookup k <;> cases b.lookup k <;> intro h1 <;> cases h1
    · exact .none
    · rename_i h1
      exact .some (alike_symm t _ _ h1)
  | .struct _ _ fs, a, b, h => alikeFields_symm fs a b h
  | .enum _ _ fs vs, .inl a, .inl b, h => alikeFields_symm fs a b h
  | .enum _ _ fs vs, .inr a, .inr b, h => alikeVariant_symm vs a b h
  | .enum _ _ fs vs, .inl a, .inr b, h => h.elim
  | .enum _ _ fs vs, .inr a, .inl b, h => h.elim
  | .uint _, _, _, h => Eq.symm h
  | .sint _, _, _, h => Eq.symm h
  | .bool, _, _, h => Eq.symm h
  | .string, _, _, h => Eq.symm h
  | .bytes, _, _, h => Eq.symm h
  | .vec _, _, _, h => Eq.symm h
  | .array _ _, _, _, h => Eq.symm h
  | .tuple _, _, _, h => Eq.symm h
  | .option _, _, _, h => Eq.symm h
  | .hashMap _ _, _, _, h => Eq.symm h

theorem alikeFields_symm : (fs : Fields) → ∀ (a b : fs.Cs), AlikeFields fs a b → AlikeFields fs b a
  | .nil, _, _, _ => trivial
  | .cons _ _ t fs, a, b, h => ⟨alike_symm t _ _ h.1, alikeFields_symm fs _ _ h.2⟩

theorem alikeVariant_symm : (vs : Variants) → ∀ (a b : vs.Cs), AlikeVariant vs a b → AlikeVariant vs b a
  | .nil, _, _, _ => trivial
  | .cons _ _ fs vs, .inl a, .inl b, h => alikeFields_symm fs a b h
  | .cons _ _ fs vs, .inr a, .inr b, h => alikeVariant_symm vs a b h
  | .cons _ _ fs vs, .inl a, .inr b, h => h.elim
  | .cons _ _ fs vs, .inr a, .inl b, h => h.elim
end

end Steit
