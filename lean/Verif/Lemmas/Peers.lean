import Verif.Lemmas.Commute
import Verif.Lemmas.Compact
import Verif.Lemmas.CompactSays

/-!
# Programs that change one state together: lemmas

An entry for an object and one that leaves it alone can change places (`Diamond`); so entries of different programs can (`commutes_owned`).
-/

namespace Steit
open Spec Prog

/-- Two entries that can change places. -/
structure Diamond {τ : Type} (h : τ → List U32 → LogKind → Option U32 → Bytes → Res τ) (R : τ → τ → Prop) (v : τ) (x y : Entry) : Prop where
  both : ∀ {v1 w1 r r'}, applyE h v x = .ok v1 r → applyE h v y = .ok w1 r' →
    ∃ v2 w2 s s', applyE h v1 y = .ok v2 s ∧ applyE h w1 x = .ok w2 s' ∧ R v2 w2
  left : ∀ {v1 v2 r r'}, applyE h v x = .ok v1 r → applyE h v1 y = .ok v2 r' → ∃ w1 s, applyE h v y = .ok w1 s
  right : ∀ {w1 w2 r r'}, applyE h v y = .ok w1 r → applyE h w1 x = .ok w2 r' → ∃ v1 s, applyE h v x = .ok v1 s

namespace Diamond
variable {τ : Type} {h : τ → List U32 → LogKind → Option U32 → Bytes → Res τ} {R : τ → τ → Prop} {v : τ} {x y : Entry}

theorem flip (hR : ∀ {v w}, R v w → R w v) (d : Diamond h R v x y) : Diamond h R v y x := by
  refine ⟨fun h1 h2 => ?_, d.right, d.left⟩
  obtain ⟨v2, w2, s, s', h3, h4, h5⟩ := d.both h2 h1
  exact ⟨w2, v2, s', s, h4, h3, hR h5⟩

theorem swap (d : Diamond h R v x y) {v1 v2 : τ} {r r' : Bytes} (h1 : applyE h v x = .ok v1 r) (h2 : applyE h v1 y = .ok v2 r') :
    ∃ w1 w2 s s', applyE h v y = .ok w1 s ∧ applyE h w1 x = .ok w2 s' ∧ R v2 w2 := by
  obtain ⟨w1, s, h3⟩ := d.left h1 h2
  obtain ⟨v2', w2, s1, s2, h4, h5, h6⟩ := d.both h1 h3
  rw [h2] at h4
  cases h4
  exact ⟨w1, w2, s, s2, h3, h5, h6⟩

theorem beside (d : Diamond h R v x y) {v1 w1 : τ} {r r' : Bytes} (h1 : applyE h v x = .ok v1 r) (h2 : applyE h v y = .ok w1 r') :
    ∃ v2 s, applyE h v1 y = .ok v2 s := by
  obtain ⟨v2, w2, s, s', h3, -⟩ := d.both h1 h2
  exact ⟨v2, s, h3⟩

end Diamond

theorem diamond_aside {t : Ty} (ht : t.WF) {rt : Rt} {m : Mode} {p : List U32} {s : Ty} {v : t.El} {u : s.El} {put : s.El → t.El}
    (hp : Part t v p s u put) (hv : At t rt v) {x y : Entry} (hx : Within p x) (hy : Aside p y) : Diamond (t.dict.handle m) Eq v x y := by
  obtain ⟨x, rfl⟩ := within_under hx
  have h0 := part_self hp
  rcases applyE_aside hp ht hv m hy with ⟨put1, rest, h1⟩ | h1
  · have h2 := (h1 u).1
    rw [h0] at h2
    refine ⟨fun h3 h4 => ?_, fun _ _ => ⟨_, _, h2⟩, fun h3 h4 => ?_⟩
    · rw [applyE_part hp ht] at h3
      obtain ⟨u1, h5, rfl⟩ := Res.map_ok h3
      have h4' := h2.symm.trans h4
      cases h4'
      exact ⟨_, _, _, _, (h1 u1).1, by rw [applyE_part (h1 u).2 ht, h5]; rfl, rfl⟩
    · have h3' := h2.symm.trans h3
      cases h3'
      rw [applyE_part (h1 u).2 ht] at h4
      obtain ⟨u1, h5, -⟩ := Res.map_ok h4
      exact ⟨_, _, by rw [applyE_part hp ht, h5]; rfl⟩
  · obtain ⟨a, e, h2⟩ := h1 u
    rw [h0] at h2
    refine ⟨fun h3 h4 => ?_, fun h3 h4 => ?_, fun h3 h4 => ?_⟩
    · cases h2.symm.trans h4
    · rw [applyE_part hp ht] at h3
      obtain ⟨u1, h5, rfl⟩ := Res.map_ok h3
      obtain ⟨a, e, h6⟩ := h1 u1
      cases h6.symm.trans h4
    · cases h2.symm.trans h3

theorem aside_not_within {p : List U32} {e : Entry} (h : Aside p e) : ¬ Within p e := by
  cases e <;> first | exact h | exact h.1

variable {ι : Type}

theorem owned_aside {own : ι → List U32} (ho : OwnApart own) {i : ι} {k : Option ι} (hk : k ≠ some i) {e : Entry} (h : Owned own k e) :
    Aside (own i) e := by
  cases k with
  | none => exact h i
  | some j =>
    have hij : j ≠ i := fun h => hk (h ▸ rfl)
    have key : ∀ q : List U32, own j <+: q → ¬ own i <+: q ∧ ¬ q <+: own i := by
      intro q hq
      refine ⟨fun h => ?_, fun h => ho j i hij (hq.trans h)⟩
      rcases List.prefix_or_prefix_of_prefix hq h with h | h
      · exact ho j i hij h
      · exact ho i j (Ne.symm hij) h
    cases e with
    | update q b => exact key q h
    | listPush q b => exact (key q h).1
    | listPop q => exact key q h
    | mapRemove q b => exact ⟨(key q h).1, (key (q ++ [b]) (h.trans (List.prefix_append ..))).2⟩

theorem owned_unique {own : ι → List U32} (ho : OwnApart own) {k k' : Option ι} {e : Entry} (h : Owned own k e) (h' : Owned own k' e) : k = k' := by
  rcases Classical.em (k = k') with hk | hk
  · exact hk
  · cases k with
    | some i => exact absurd h (aside_not_within (owned_aside ho (Ne.symm hk) h'))
    | none =>
      cases k' with
      | none => rfl
      | some i => exact absurd h' (aside_not_within (owned_aside ho hk h))

/-- After an entry that leaves an object alone, or is for it, the object is still there. -/
theorem part_step {t : Ty} (ht : t.WF) {rt : Rt} {m : Mode} {p : List U32} {s : Ty} {v v1 : t.El} {u : s.El} {put : s.El → t.El}
    (hp : Part t v p s u put) (hv : At t rt v) {e : Entry} (he : Within p e ∨ Aside p e) {r : Bytes} (h : applyE (t.dict.handle m) v e = .ok v1 r) :
    ∃ u' put', Part t v1 p s u' put' := by
  rcases he with he | he
  · obtain ⟨e, rfl⟩ := within_under he
    rw [applyE_part hp ht] at h
    obtain ⟨u1, -, rfl⟩ := Res.map_ok h
    exact ⟨u1, put, part_put hp u1⟩
  · rcases applyE_aside hp ht hv m he with ⟨put1, rest, h1⟩ | h1
    · have h2 := h1 u
      rw [part_self hp] at h2
      cases h2.1.symm.trans h
      exact ⟨u, put1, h2.2⟩
    · obtain ⟨a, e, h2⟩ := h1 u
      rw [part_self hp] at h2
      cases h2.symm.trans h

theorem commutes_owned {own : ι → List U32} (ho : OwnApart own) {t : Ty} (ht : t.WF) (hs : t.isState = true) (rt : Rt) (m : Mode) :
    Commutes (t.dict.handle m) (Owned own) (fun v => At t rt v ∧ HasOwn own t v) Eq := by
  have diamond : ∀ {v : t.El} {k k' : Option ι} {x y : Entry}, At t rt v ∧ HasOwn own t v → k ≠ k' → Owned own k x → Owned own k' y →
      Diamond (t.dict.handle m) Eq v x y := by
    intro v k k' x y hv hk hx hy
    cases k with
    | some i =>
      obtain ⟨s, u, put, hp⟩ := hv.2 i
      exact diamond_aside ht hp hv.1 hx (owned_aside ho (Ne.symm hk) hy)
    | none =>
      cases k' with
      | none => exact absurd rfl hk
      | some i =>
        obtain ⟨s, u, put, hp⟩ := hv.2 i
        exact (diamond_aside ht hp hv.1 hy (owned_aside ho hk hx)).flip Eq.symm
  refine ⟨owned_unique ho, fun {v v1 k e r} hv he h => ⟨applies_at ht hs hv.1 (.one h), fun i => ?_⟩, fun _ => rfl, Eq.symm, Eq.trans, ?_,
    fun hv hk hx hy => (diamond hv hk hx hy).swap, fun hv hk hx hy => (diamond hv hk hx hy).beside⟩
  · obtain ⟨s, u, put, hp⟩ := hv.2 i
    have : Within (own i) e ∨ Aside (own i) e := by
      rcases Classical.em (k = some i) with rfl | hk
      · exact .inl he
      · exact .inr (owned_aside ho hk he)
    obtain ⟨u', put', h1⟩ := part_step ht hp hv.1 this h
    exact ⟨s, u', put', h1⟩
  · rintro v w v1 e r rfl h
    exact ⟨v1, r, h, rfl⟩

end Steit
