import Verif.Spec.PeersKeys
import Verif.Lemmas.Jumble
import Verif.Lemmas.Peers
import Verif.Lemmas.CompactFound

/-!
# Programs that each have a place in a map: lemmas

Entries about different keys of a map can change places, up to the order in which the map has its keys (`map_diamond`).
-/

namespace Steit
open Spec Prog

/-! ## A value in its place -/

theorem entriesGet_middle {α : Type} {k : U32} {x : α} {post : List (U32 × α)} (j : U32) : ∀ {pre : List (U32 × α)}, (∀ e ∈ pre, e.1 ≠ k) →
    entriesGet j (pre ++ (k, x) :: post) = if j = k then some x else entriesGet j (pre ++ post)
  | [], _ => by
    simp only [List.nil_append, entriesGet]
    by_cases h : j = k
    · simp [h]
    · simp [h, Ne.symm h]
  | (a, z) :: pre, hk => by
    have ha : a ≠ k := hk (a, z) (List.mem_cons_self ..)
    have ih := entriesGet_middle (x := x) (post := post) j (pre := pre) fun e he => hk e (List.mem_cons_of_mem _ he)
    simp only [List.cons_append, entriesGet, ih]
    by_cases haj : a = j
    · subst haj; simp [ha]
    · simp [haj]

theorem fieldPart_jumble {fs : Fields} {v : fs.El} {tag : U32} {s : Ty} {u : s.El} {put : s.El → fs.El} (h : FieldPart fs v tag s u put)
    (hv : JumbleFields fs v v) : Jumble s u u ∧ ∀ x y, Jumble s x y → JumbleFields fs (put x) (put y) := by
  induction h with
  | head _ => exact ⟨hv.1, fun x y hxy => ⟨hxy, hv.2⟩⟩
  | tail _ ih => exact ⟨(ih hv.2).1, fun x y hxy => ⟨hv.1, (ih hv.2).2 x y hxy⟩⟩

theorem variantPart_jumble {vs : Variants} {v : vs.El} {vtag tag : U32} {s : Ty} {u : s.El} {put : s.El → vs.El}
    (h : VariantPart vs v vtag tag s u put) (hv : JumbleVariant vs v v) :
    Jumble s u u ∧ ∀ x y, Jumble s x y → JumbleVariant vs (put x) (put y) := by
  induction h with
  | here hf => exact fieldPart_jumble hf hv
  | there _ ih => exact ih hv

theorem child_jumble {t : Ty} {v : t.El} {p : List U32} {s : Ty} {u : s.El} {put : s.El → t.El} (h : Child t v p s u put) (hv : Jumble t v v) :
    Jumble s u u ∧ ∀ x y, Jumble s x y → Jumble t (put x) (put y) := by
  cases h with
  | @item _ l i _ hi hx => exact ⟨by simpa [hx, SameOption] using sameItems_get hv i, fun x y hxy => sameItems_set hv i hxy⟩
  | @value kt _ v pre post k _ hx hk =>
    have hn := hv.1
    have hg := hv.2.2
    rw [hx] at hn
    have hkey := hg k
    rw [hx, entriesGet_middle k hk, if_pos rfl] at hkey
    refine ⟨hkey, fun x y hxy => ⟨by simpa using hn, by simpa using hn, fun j => ?_⟩⟩
    show SameOption _ (entriesGet j (pre ++ (k, x) :: post)) (entriesGet j (pre ++ (k, y) :: post))
    rw [entriesGet_middle j hk, entriesGet_middle j hk]
    by_cases hj : j = k
    · rw [if_pos hj, if_pos hj]; exact hxy
    · have := hg j
      rw [hx, entriesGet_middle j hk, if_neg hj] at this
      rw [if_neg hj, if_neg hj]
      exact this
  | field hf => exact fieldPart_jumble hf hv
  | @variant cached fs vs v vtag tag s u put hf =>
    have := variantPart_jumble hf (show JumbleVariant (.cons 0#32 cached fs vs) v.val v.val from hv.2)
    exact ⟨this.1, fun x y hxy => ⟨hv.1, this.2 x y hxy⟩⟩

/-- An object in its place. -/
theorem part_jumble {t : Ty} {v : t.El} {p : List U32} {s : Ty} {u : s.El} {put : s.El → t.El} (h : Part t v p s u put) (hv : Jumble t v v) :
    ∀ x y, Jumble s x y → Jumble t (put x) (put y) := by
  induction h with
  | self => exact fun _ _ h => h
  | box _ ih => exact ih hv
  | inside hc _ ih => exact fun x y hxy => (child_jumble hc hv).2 _ _ (ih (child_jumble hc hv).1 x y hxy)

/-! ## Entries about a key -/

/-- The entry is about key `k` of the map it is sent to. -/
def About (k : U32) (e : Entry) : Prop := Within [k] e ∨ e = .mapRemove [] k

/-- What an entry about key `k` does: it reads the value of this key, and changes no other one. -/
def KeyStep {α : Type} (h : MapV α → List U32 → LogKind → Option U32 → Bytes → Res (MapV α)) (k : U32) (e : Entry) : Prop :=
  ∃ f : Rt → Option α → Option (Option α), ∀ u : MapV α, (u.entries.map (·.1)).Nodup →
    (∀ u1 r, applyE h u e = .ok u1 r → ∃ o, f u.rt (entriesGet k u.entries) = some o ∧ u1.rt = u.rt ∧ (u1.entries.map (·.1)).Nodup ∧
      ∀ j, entriesGet j u1.entries = if j = k then o else entriesGet j u.entries) ∧
    (∀ o, f u.rt (entriesGet k u.entries) = some o → ∃ u1 r, applyE h u e = .ok u1 r)

theorem get_insert {α : Type} (j k : U32) (x : α) (es : List (U32 × α)) :
    entriesGet j (entriesInsert k x es) = if j = k then some x else entriesGet j es := by
  by_cases h : j = k
  · subst h; rw [if_pos rfl, entriesGet_insert]
  · rw [if_neg h, entriesGet_other h]

theorem keyStep_cons {α : Type} (kt : KeyTy) (d : Dict α) (m : Mode) (k : U32) (path : List U32) (kind : LogKind) (key : Option U32) (bs : Bytes) :
    ∃ f : Rt → Option α → Option (Option α), ∀ u : MapV α, (u.entries.map (·.1)).Nodup →
    (∀ u1 r, mapHandle kt d m u (k :: path) kind key bs = .ok u1 r → ∃ o, f u.rt (entriesGet k u.entries) = some o ∧ u1.rt = u.rt ∧
      (u1.entries.map (·.1)).Nodup ∧ ∀ j, entriesGet j u1.entries = if j = k then o else entriesGet j u.entries) ∧
    (∀ o, f u.rt (entriesGet k u.entries) = some o → ∃ u1 r, mapHandle kt d m u (k :: path) kind key bs = .ok u1 r) := by
  refine ⟨fun rt o => match o with
    | some x => match d.handle m x path kind key bs with
      | .ok y _ => some (some y)
      | .err _ _ => none
    | none => if kind = .update ∧ path = [] then
        match d.merge m (d.withRuntime (rt.nested k)) bs with
        | .ok y _ => some (some y)
        | .err _ _ => none
      else none, fun u hu => ?_⟩
  simp only [mapHandle]
  cases hg : entriesGet k u.entries with
  | some x =>
    simp only
    cases hh : d.handle m x path kind key bs with
    | ok y r =>
      refine ⟨fun u1 r1 h => ?_, fun _ _ => ⟨_, _, rfl⟩⟩
      simp only [Res.map, Res.ok.injEq] at h
      obtain ⟨rfl, rfl⟩ := h
      exact ⟨_, rfl, rfl, entriesInsert_nodup k y u.entries hu, fun j => get_insert j k y u.entries⟩
    | err y e => exact ⟨(fun u1 r1 h => nomatch h), fun _ h => nomatch h⟩
  | none =>
    simp only
    by_cases hc : kind = .update ∧ path = []
    · simp only [if_pos hc]
      cases hh : d.merge m (d.withRuntime (u.rt.nested k)) bs with
      | ok y r =>
        refine ⟨fun u1 r1 h => ?_, fun _ _ => ⟨_, _, rfl⟩⟩
        simp only [Res.ok.injEq] at h
        obtain ⟨rfl, rfl⟩ := h
        exact ⟨_, rfl, rfl, entriesInsert_nodup k y u.entries hu, fun j => get_insert j k y u.entries⟩
      | err y e => exact ⟨(fun u1 r1 h => nomatch h), fun _ h => nomatch h⟩
    · simp only [if_neg hc]
      exact ⟨(fun u1 r1 h => nomatch h), fun _ h => nomatch h⟩

theorem keyStep {α : Type} (kt : KeyTy) (d : Dict α) (m : Mode) {k : U32} {e : Entry} (he : About k e) : KeyStep ((mapDict kt d).handle m) k e := by
  rcases he with he | rfl
  · obtain ⟨e, rfl⟩ := within_under he
    cases e <;> exact keyStep_cons kt d m k _ _ _ _
  · refine ⟨fun _ o => match o with
      | some _ => some none
      | none => none, fun u hu => ?_⟩
    show (∀ u1 r, mapHandle kt d m u [] .mapRemove (some k) [] = .ok u1 r → _) ∧ (∀ o, _ → ∃ u1 r, mapHandle kt d m u [] .mapRemove (some k) [] = .ok u1 r)
    simp only [mapHandle]
    cases hg : entriesGet k u.entries with
    | some x =>
      refine ⟨fun u1 r1 h => ?_, fun _ _ => ⟨_, _, rfl⟩⟩
      simp only [Res.ok.injEq] at h
      obtain ⟨rfl, rfl⟩ := h
      exact ⟨_, rfl, rfl, entriesRemove_nodup k u.entries hu, fun j => entriesGet_removed k j u.entries hu⟩
    | none => exact ⟨(fun u1 r1 h => nomatch h), fun _ h => nomatch h⟩

/-- What leaves the value of key `k` alone is about another key, or refused by maps. -/
theorem about_other {k : U32} {e : Entry} (he : Aside [k] e) :
    (∃ k', k' ≠ k ∧ About k' e) ∨ ∀ {α : Type} (kt : KeyTy) (d : Dict α) (m : Mode) (u u1 : MapV α) r, applyE ((mapDict kt d).handle m) u e ≠ .ok u1 r := by
  have key : ∀ {a : U32} {q : List U32}, ¬ [k] <+: a :: q → a ≠ k ∧ [a] <+: a :: q :=
    fun {a q} h => ⟨fun h' => h (h' ▸ ⟨q, rfl⟩), ⟨q, rfl⟩⟩
  cases e with
  | update q b =>
    cases q with
    | nil => exact absurd List.nil_prefix he.2
    | cons a q => exact .inl ⟨a, (key he.1).1, .inl (key he.1).2⟩
  | listPush q b =>
    cases q with
    | nil => exact .inr fun kt d m u u1 r h => nomatch h
    | cons a q => exact .inl ⟨a, (key he).1, .inl (key he).2⟩
  | listPop q =>
    cases q with
    | nil => exact absurd List.nil_prefix he.2
    | cons a q => exact .inl ⟨a, (key he.1).1, .inl (key he.1).2⟩
  | mapRemove q k' =>
    cases q with
    | nil => exact .inl ⟨k', fun h => he.2 (h ▸ List.prefix_refl _), .inr rfl⟩
    | cons a q => exact .inl ⟨a, (key he.1).1, .inl (key he.1).2⟩

/-- Entries about different keys can change places. -/
theorem map_diamond {kt : KeyTy} {s : Ty} (hs : (Ty.map kt s).WF) {rt : Rt} {m : Mode} {u : (Ty.map kt s).El} (hu : At (.map kt s) rt u) {k : U32}
    {x y : Entry} (hx : About k x) (hy : Aside [k] y) : Diamond ((Ty.map kt s).dict.handle m) (Jumble (.map kt s)) u x y := by
  change Diamond ((mapDict kt s.dict).handle m) (Jumble (.map kt s)) u x y
  have hstep : ∀ {v w : MapV s.El} {e : Entry} {r : Bytes}, At (.map kt s) rt v → applyE ((mapDict kt s.dict).handle m) v e = .ok w r → At (.map kt s) rt w :=
    fun hv h => applies_at (t := .map kt s) hs rfl hv (.one h)
  rcases about_other hy with ⟨k', hk, hy⟩ | hno
  · obtain ⟨f, hf⟩ := keyStep kt s.dict m hx
    obtain ⟨g, hg⟩ := keyStep kt s.dict m hy
    refine ⟨fun {v1 w1 r r'} h1 h2 => ?_, fun {v1 v2 r r'} h1 h2 => ?_, fun {w1 w2 r r'} h1 h2 => ?_⟩
    · obtain ⟨o, a1, a2, a3, a4⟩ := (hf u hu.2.1).1 _ _ h1
      obtain ⟨o', b1, b2, b3, b4⟩ := (hg u hu.2.1).1 _ _ h2
      have c1 : g v1.rt (entriesGet k' v1.entries) = some o' := by rw [a2, a4, if_neg hk]; exact b1
      have c2 : f w1.rt (entriesGet k w1.entries) = some o := by rw [b2, b4, if_neg (Ne.symm hk)]; exact a1
      obtain ⟨v2, r2, h3⟩ := (hg v1 a3).2 _ c1
      obtain ⟨w2, r3, h4⟩ := (hf w1 b3).2 _ c2
      obtain ⟨p, d1, -, d3, d4⟩ := (hg v1 a3).1 _ _ h3
      obtain ⟨p', e1, -, e3, e4⟩ := (hf w1 b3).1 _ _ h4
      rw [c1] at d1
      rw [c2] at e1
      cases d1
      cases e1
      refine ⟨v2, w2, r2, r3, h3, h4, d3, e3, fun j => ?_⟩
      have hsame : entriesGet j v2.entries = entriesGet j w2.entries := by
        rw [d4, e4, a4, b4]
        by_cases h5 : j = k
        · subst h5; simp [Ne.symm hk]
        · simp [h5]
      have hv2 := hstep (hstep hu h1) h3
      rw [← hsame]
      cases hget : entriesGet j v2.entries with
      | none => trivial
      | some z => exact jumble_refl (hv2.2.2 _ (entriesGet_mem hget))
    · obtain ⟨o, a1, a2, a3, a4⟩ := (hf u hu.2.1).1 _ _ h1
      obtain ⟨o', b1, -⟩ := (hg v1 a3).1 _ _ h2
      rw [a2, a4, if_neg hk] at b1
      exact (hg u hu.2.1).2 _ b1
    · obtain ⟨o, a1, a2, a3, a4⟩ := (hg u hu.2.1).1 _ _ h1
      obtain ⟨o', b1, -⟩ := (hf w1 a3).1 _ _ h2
      rw [a2, a4, if_neg (Ne.symm hk)] at b1
      exact (hf u hu.2.1).2 _ b1
  · exact ⟨fun _ h => absurd h (hno kt s.dict m _ _ _), fun _ h => absurd h (hno kt s.dict m _ _ _), fun h _ => absurd h (hno kt s.dict m _ _ _)⟩

/-! ## Any state -/

theorem Diamond.imp {τ : Type} {h : τ → List U32 → LogKind → Option U32 → Bytes → Res τ} {R Q : τ → τ → Prop} {v : τ} {x y : Entry}
    (d : Diamond h R v x y) (hR : ∀ {v1 v2 w1 w2 r r' s s'}, applyE h v x = .ok v1 r → applyE h v1 y = .ok v2 r' → applyE h v y = .ok w1 s →
      applyE h w1 x = .ok w2 s' → R v2 w2 → Q v2 w2) : Diamond h Q v x y := by
  refine ⟨fun h1 h2 => ?_, d.left, d.right⟩
  obtain ⟨v2, w2, s, s', h3, h4, h5⟩ := d.both h1 h2
  exact ⟨v2, w2, s, s', h3, h4, hR h1 h3 h2 h4 h5⟩

theorem diamond_under {t : Ty} (ht : t.WF) {m : Mode} {p : List U32} {s : Ty} {v : t.El} {u : s.El} {put : s.El → t.El}
    (hp : Part t v p s u put) (hv : Jumble t v v) {x y : Entry} (d : Diamond (s.dict.handle m) (Jumble s) u x y) :
    Diamond (t.dict.handle m) (Jumble t) v (under p x) (under p y) := by
  have put_ok : ∀ {w : s.El} {e : Entry} {w1 : s.El} {r : Bytes}, applyE (s.dict.handle m) w e = .ok w1 r →
      applyE (t.dict.handle m) (put w) (under p e) = .ok (put w1) r := fun {w e w1 r} h => by rw [applyE_part (part_put hp w) ht, h]; rfl
  have get_ok : ∀ {w : s.El} {e : Entry} {v1 : t.El} {r : Bytes}, applyE (t.dict.handle m) (put w) (under p e) = .ok v1 r →
      ∃ w1, applyE (s.dict.handle m) w e = .ok w1 r ∧ put w1 = v1 := fun {w e v1 r} h => by
    rw [applyE_part (part_put hp w) ht] at h
    obtain ⟨w1, h1, h2⟩ := Res.map_ok h
    exact ⟨w1, h1, h2.symm⟩
  have hself := part_self hp
  rw [← hself]
  refine ⟨fun h1 h2 => ?_, fun h1 h2 => ?_, fun h1 h2 => ?_⟩
  · obtain ⟨a, g1, rfl⟩ := get_ok h1
    obtain ⟨b, g2, rfl⟩ := get_ok h2
    obtain ⟨v2, w2, r, r', g3, g4, g5⟩ := d.both g1 g2
    exact ⟨_, _, _, _, put_ok g3, put_ok g4, part_jumble hp hv _ _ g5⟩
  · obtain ⟨a, g1, rfl⟩ := get_ok h1
    obtain ⟨b, g2, rfl⟩ := get_ok h2
    obtain ⟨w1, r, g3⟩ := d.left g1 g2
    exact ⟨_, _, put_ok g3⟩
  · obtain ⟨a, g1, rfl⟩ := get_ok h1
    obtain ⟨b, g2, rfl⟩ := get_ok h2
    obtain ⟨w1, r, g3⟩ := d.right g1 g2
    exact ⟨_, _, put_ok g3⟩

/-! ## Entries of different programs -/

section
variable {ι : Type} {own : ι → List U32} {keyed : ι → Prop}

theorem placed_aside (ho : OwnApart own) {i : ι} {k : Option ι} (hk : k ≠ some i) {e : Entry} (h : OwnedAt own keyed k e) : Aside (own i) e := by
  cases k with
  | none => exact h i
  | some j =>
    rcases h with h | ⟨-, q, k, h1, rfl⟩
    · exact owned_aside ho (k := some j) hk h
    · have hij : j ≠ i := fun h => hk (h ▸ rfl)
      refine ⟨fun h => ho i j (Ne.symm hij) ?_, fun h => ho j i hij (h1 ▸ h)⟩
      rw [h1]
      exact h.trans (List.prefix_append ..)

theorem mine_not_aside {i : ι} {e : Entry} (h : OwnedAt own keyed (some i) e) : ¬ Aside (own i) e := by
  rcases h with h | ⟨-, q, k, h1, rfl⟩
  · exact fun h' => aside_not_within h' h
  · exact fun h' => h'.2 (h1 ▸ List.prefix_refl _)

theorem placed_unique (ho : OwnApart own) {k k' : Option ι} {e : Entry} (h : OwnedAt own keyed k e) (h' : OwnedAt own keyed k' e) : k = k' := by
  rcases Classical.em (k = k') with hk | hk
  · exact hk
  · cases k with
    | some i => exact absurd (placed_aside ho (Ne.symm hk) h') (mine_not_aside h)
    | none =>
      cases k' with
      | none => rfl
      | some i => exact absurd (placed_aside ho hk h) (mine_not_aside h')

theorem aside_under {q r : List U32} {e : Entry} (h : Aside (q ++ r) (under q e)) : Aside r e := by
  have key : ∀ {a b : List U32}, a <+: b → q ++ a <+: q ++ b := fun h => (List.prefix_append_right_inj q).2 h
  cases e with
  | update a b => exact ⟨fun h' => h.1 (key h'), fun h' => h.2 (key h')⟩
  | listPush a b => exact fun h' => h (key h')
  | listPop a => exact ⟨fun h' => h.1 (key h'), fun h' => h.2 (key h')⟩
  | mapRemove a b => exact ⟨fun h' => h.1 (key h'), fun h' => h.2 (by rw [List.append_assoc]; exact key h')⟩

/-- What a program says about its place in a map is said to the map. -/
theorem mine_about {i : ι} {e : Entry} (h : OwnedAt own keyed (some i) e) {q : List U32} {k : U32} (hq : own i = q ++ [k]) :
    ∃ e', e = under q e' ∧ About k e' := by
  rcases h with h | ⟨-, q', k', h1, rfl⟩
  · obtain ⟨e', rfl⟩ := within_under h
    rw [hq]
    refine ⟨under [k] e', by rw [under_under], .inl ?_⟩
    cases e' <;> exact List.prefix_append ..
  · obtain ⟨rfl, hk⟩ := List.append_inj' (hq.symm.trans h1) rfl
    cases hk
    exact ⟨.mapRemove [] k, by simp [under], .inr rfl⟩

theorem within_of_under {q : List U32} (e : Entry) : Within q (under q e) := by cases e <;> exact List.prefix_append ..

theorem place_diamond {t : Ty} (ht : t.WF) (hs : t.isState = true) {rt : Rt} {m : Mode} {v : t.El} (hv : At t rt v)
    (hp : HasPlaces own keyed t v) {i : ι} {x y : Entry} (hx : OwnedAt own keyed (some i) x) (hy : Aside (own i) y) :
    Diamond (t.dict.handle m) (Jumble t) v x y := by
  have exact' : ∀ {x y : Entry}, Diamond (t.dict.handle m) Eq v x y → Diamond (t.dict.handle m) (Jumble t) v x y := by
    intro x y d
    refine d.imp fun {v1 v2 w1 w2 r r' s s'} h1 h2 _ _ h5 => ?_
    subst h5
    exact jumble_refl (applies_at ht hs hv (Applies.trans (.one h1) (.one h2)))
  rcases hp i with ⟨-, q, k, kt, s, u, put, hq, hp⟩ | ⟨hk, s, u, put, hp⟩
  · obtain ⟨x, rfl, hab⟩ := mine_about hx hq
    rw [hq] at hy
    by_cases hw : Within q y
    · obtain ⟨y, rfl⟩ := within_under hw
      exact diamond_under ht hp (jumble_refl hv) (map_diamond (wf_part hp ht hs).1 (at_part hp hv) hab (aside_under hy))
    · exact exact' (diamond_aside ht hp hv (within_of_under x) (aside_prefix hy hw))
  · exact exact' (diamond_aside ht hp hv (hx.resolve_right fun h => hk h.1) hy)

theorem hasPlaces_step (ho : OwnApart own) {t : Ty} (ht : t.WF) {rt : Rt} {m : Mode} {v v1 : t.El} (hv : At t rt v)
    (hp : HasPlaces own keyed t v) {k : Option ι} {e : Entry} (he : OwnedAt own keyed k e) {r : Bytes} (h : applyE (t.dict.handle m) v e = .ok v1 r) :
    HasPlaces own keyed t v1 := by
  intro i
  rcases hp i with ⟨hk, q, n, kt, s, u, put, hq, hp⟩ | ⟨hk, s, u, put, hp⟩
  · have : Within q e ∨ Aside q e := by
      rcases Classical.em (k = some i) with rfl | hki
      · obtain ⟨e, rfl, -⟩ := mine_about he hq
        exact .inl (within_of_under e)
      · have := placed_aside ho hki he
        rw [hq] at this
        exact within_or_aside (.inr this)
    obtain ⟨u', put', h1⟩ := part_step ht hp hv this h
    exact .inl ⟨hk, q, n, kt, s, u', put', hq, h1⟩
  · have : Within (own i) e ∨ Aside (own i) e := by
      rcases Classical.em (k = some i) with rfl | hki
      · exact .inl (he.resolve_right fun h => hk h.1)
      · exact .inr (placed_aside ho hki he)
    obtain ⟨u', put', h1⟩ := part_step ht hp hv this h
    exact .inr ⟨hk, s, u', put', h1⟩

theorem jumble_applyE {t : Ty} {m : Mode} {v w v1 : t.El} {e : Entry} {r : Bytes} (h : Jumble t v w) (h1 : applyE (t.dict.handle m) v e = .ok v1 r) :
    ∃ w1 r', applyE (t.dict.handle m) w e = .ok w1 r' ∧ Jumble t v1 w1 := by
  unfold applyE at h1 ⊢
  rcases blind_cases ((jumbleTy t).handle (m := m) (m' := m) (.inl rfl) _ _ _ _ h) with ⟨x, y, rest, h2, h3, h4⟩ | ⟨x, y, e, h2, h3, h4⟩ | ⟨hm, -⟩
  · cases h2.symm.trans h1
    exact ⟨y, r, h3, h4⟩
  · cases h2.symm.trans h1
  · exact absurd rfl hm

theorem commutes_placed (ho : OwnApart own) {t : Ty} (ht : t.WF) (hs : t.isState = true) (rt : Rt) (m : Mode) :
    Commutes (t.dict.handle m) (OwnedAt own keyed) (fun v => At t rt v ∧ HasPlaces own keyed t v) (Jumble t) := by
  have diamond : ∀ {v : t.El} {k k' : Option ι} {x y : Entry}, At t rt v ∧ HasPlaces own keyed t v → k ≠ k' → OwnedAt own keyed k x →
      OwnedAt own keyed k' y → Diamond (t.dict.handle m) (Jumble t) v x y := by
    intro v k k' x y hv hk hx hy
    cases k with
    | some i => exact place_diamond ht hs hv.1 hv.2 hx (placed_aside ho (Ne.symm hk) hy)
    | none =>
      cases k' with
      | none => exact absurd rfl hk
      | some i => exact (place_diamond ht hs hv.1 hv.2 hy (placed_aside ho hk hx)).flip fun h => jumble_symm t _ _ h
  exact ⟨placed_unique ho, fun hv he h => ⟨applies_at ht hs hv.1 (.one h), hasPlaces_step ho ht hv.1 hv.2 he h⟩, fun h => jumble_refl h.1,
    fun h => jumble_symm t _ _ h, fun h h' => jumble_trans t _ _ _ h h', jumble_applyE,
    fun hv hk hx hy => (diamond hv hk hx hy).swap, fun hv hk hx hy => (diamond hv hk hx hy).beside⟩

end

end Steit
