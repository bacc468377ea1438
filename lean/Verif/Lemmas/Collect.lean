import Verif.Spec.Graph

/-!
# Traversals of type graphs
-/

namespace Steit.Gen

open Spec

variable {ν : Type} {G : Graph ν} {getName : MessageMeta → String} {root : ν}

/-! ## Depth -/

theorem visitAll_mono {f g : ν → Visit → Option Visit} (h : ∀ n s r, f n s = some r → g n s = some r) :
    ∀ ns s r, visitAll f ns s = some r → visitAll g ns s = some r
  | [], _, _, hr => hr
  | n :: ns, s, r, hr => by
    unfold visitAll at hr ⊢
    cases hf : f n s with
    | none => rw [hf] at hr; cases hr
    | some s' =>
      rw [hf] at hr
      rw [h n s s' hf]
      exact visitAll_mono h ns s' r hr

theorem visit_succ : ∀ fuel n s r, visit G getName fuel n s = some r → visit G getName (fuel + 1) n s = some r
  | 0, _, _, _, h => by cases h
  | fuel + 1, n, s, r, h => by
    unfold visit at h ⊢
    simp only at h ⊢
    split at h
    · rename_i hv; rw [if_pos hv]; exact h
    · rename_i hv; rw [if_neg hv]
      exact visitAll_mono (fun n s r => visit_succ fuel n s r) _ _ _ h

theorem visit_le {fuel fuel' n s r} (h : fuel ≤ fuel') (hv : visit G getName fuel n s = some r) :
    visit G getName fuel' n s = some r := by
  induction h with
  | refl => exact hv
  | step _ ih => exact visit_succ _ _ _ _ ih

/-! ## Invariants of a traversal -/

/-- A property of states that each visit of a reachable node keeps. -/
theorem visit_inv {Inv : Visit → Prop}
    (hmsg : ∀ n s, Reach G.links root n → Inv s → Inv (collectMsg getName (G.msg n) s))
    (hvis : ∀ n s, Reach G.links root n → Inv s → Inv { s with visited := G.type n :: s.visited }) :
    ∀ fuel n s r, Reach G.links root n → visit G getName fuel n s = some r → Inv s → Inv r
  | 0, _, _, _, _, h, _ => by cases h
  | fuel + 1, n, s, r, hn, h, hs => by
    have hall : ∀ ns s r, (∀ n ∈ ns, Reach G.links root n) → visitAll (visit G getName fuel) ns s = some r → Inv s → Inv r := by
      intro ns
      induction ns with
      | nil => intro s r _ h hs; cases h; exact hs
      | cons n ns ih =>
        intro s r hr h hs
        unfold visitAll at h
        cases hf : visit G getName fuel n s with
        | none => rw [hf] at h; cases h
        | some s' =>
          rw [hf] at h
          exact ih s' r (fun n hn => hr n (List.mem_cons_of_mem _ hn)) h
            (visit_inv hmsg hvis fuel n s s' (hr n List.mem_cons_self) hf hs)
    unfold visit at h
    simp only at h
    split at h
    · cases h; exact hmsg n s hn hs
    · exact hall _ _ _ (fun m hm => .link hn hm) h (hvis n _ hn (hmsg n s hn hs))

theorem collectMsg_visited (msg : Option MessageMeta) (s : Visit) : (collectMsg getName msg s).visited = s.visited := by
  cases msg <;> rfl

/-- Extension of states. -/
structure Extends (s r : Visit) : Prop where
  visited : ∀ t ∈ s.visited, t ∈ r.visited
  names : ∀ k ∈ s.collected.map (·.1), k ∈ r.collected.map (·.1)

theorem Extends.refl (s : Visit) : Extends s s := ⟨fun _ h => h, fun _ h => h⟩

theorem Extends.trans {a b c : Visit} (h : Extends a b) (h' : Extends b c) : Extends a c :=
  ⟨fun t ht => h'.1 t (h.1 t ht), fun t ht => h'.2 t (h.2 t ht)⟩

theorem orInsert_names (col : List (String × MessageMeta)) (name : String) (m : MessageMeta) (k : String) :
    k ∈ (orInsert col name m).map (·.1) ↔ k ∈ col.map (·.1) ∨ k = name := by
  unfold orInsert
  split
  · rename_i h
    constructor
    · exact .inl
    · rintro (h' | rfl)
      · exact h'
      · exact h
  · simp

theorem collectMsg_extends (msg : Option MessageMeta) (s : Visit) : Extends s (collectMsg getName msg s) := by
  refine ⟨fun t ht => by rw [collectMsg_visited]; exact ht, fun k hk => ?_⟩
  cases msg with
  | none => exact hk
  | some m => exact (orInsert_names _ _ _ _).2 (.inl hk)

theorem visit_extends {fuel n s r} (hn : Reach G.links root n) (h : visit G getName fuel n s = some r) : Extends s r :=
  visit_inv (root := root) (Inv := Extends s)
    (fun n s' _ hs => hs.trans (collectMsg_extends _ s'))
    (fun n s' _ hs => hs.trans ⟨fun t ht => List.mem_cons_of_mem _ ht, fun _ h => h⟩)
    fuel n s r hn h (.refl s)

/-! ## Termination -/

/-- Types among the nodes not visited yet. -/
def unseen (G : Graph ν) (nodes : List ν) (s : Visit) : Nat := ((nodes.map G.type).filter fun t => decide (t ∉ s.visited)).length

theorem filter_length_mono {α : Type} {p q : α → Bool} (h : ∀ a, p a = true → q a = true) :
    ∀ l : List α, (l.filter p).length ≤ (l.filter q).length
  | [] => Nat.le_refl _
  | a :: l => by
    have ih := filter_length_mono h l
    rw [List.filter_cons, List.filter_cons]
    by_cases hp : p a = true
    · rw [if_pos hp, if_pos (h a hp)]; exact Nat.succ_le_succ ih
    · rw [if_neg hp]
      split
      · exact Nat.le_succ_of_le ih
      · exact ih

theorem unseen_le (nodes : List ν) {s r : Visit} (h : ∀ t ∈ s.visited, t ∈ r.visited) : unseen G nodes r ≤ unseen G nodes s := by
  unfold unseen
  refine filter_length_mono (fun t ht => ?_) _
  simp only [decide_eq_true_eq] at ht ⊢
  exact fun hs => ht (h t hs)

theorem unseen_lt (nodes : List ν) {n : ν} (hn : n ∈ nodes) {s : Visit} (h : G.type n ∉ s.visited) :
    unseen G nodes { s with visited := G.type n :: s.visited } < unseen G nodes s := by
  unfold unseen
  have hm : G.type n ∈ nodes.map G.type := List.mem_map_of_mem hn
  generalize nodes.map G.type = ts at hm
  induction ts with
  | nil => cases hm
  | cons t ts ih =>
    have hle : (ts.filter fun t => decide (t ∉ G.type n :: s.visited)).length ≤ (ts.filter fun t => decide (t ∉ s.visited)).length := by
      refine filter_length_mono (fun t ht => ?_) _
      simp only [decide_eq_true_eq, List.mem_cons, not_or] at ht ⊢
      exact ht.2
    rw [List.filter_cons, List.filter_cons]
    by_cases he : t = G.type n
    · subst he
      simp only [List.mem_cons, true_or, not_true_eq_false, decide_false, Bool.false_eq_true, if_false, h, not_false_eq_true,
        decide_true, if_true, List.length_cons]
      simp only [List.mem_cons] at hle
      omega
    · have hm' : G.type n ∈ ts := by
        cases hm with
        | head => exact absurd rfl he
        | tail _ h => exact h
      have := ih hm'
      simp only at this ⊢
      by_cases hv : t ∈ s.visited
      · have h1 : decide (t ∉ G.type n :: s.visited) = false := by simp [hv]
        have h2 : decide (t ∉ s.visited) = false := by simp [hv]
        simp only [h1, h2, Bool.false_eq_true, if_false]
        exact this
      · have h1 : decide (t ∉ G.type n :: s.visited) = true := by simp [hv, he]
        have h2 : decide (t ∉ s.visited) = true := by simp [hv]
        simp only [h1, h2, if_true, List.length_cons]
        omega

theorem visit_ends {nodes : List ν} (hnodes : ∀ n, Reach G.links root n → n ∈ nodes) :
    ∀ fuel n s, Reach G.links root n → unseen G nodes s < fuel → ∃ r, visit G getName fuel n s = some r
  | 0, _, _, _, h => by omega
  | fuel + 1, n, s, hn, h => by
    have hall : ∀ ns s, (∀ n ∈ ns, Reach G.links root n) → unseen G nodes s < fuel →
        ∃ r, visitAll (visit G getName fuel) ns s = some r := by
      intro ns
      induction ns with
      | nil => intro s _ _; exact ⟨s, rfl⟩
      | cons n ns ih =>
        intro s hr hs
        obtain ⟨s', hs'⟩ := visit_ends hnodes fuel n s (hr n List.mem_cons_self) hs
        have hle := unseen_le (G := G) nodes (visit_extends (hr n List.mem_cons_self) hs').visited
        obtain ⟨r, hr'⟩ := ih s' (fun n hn => hr n (List.mem_cons_of_mem _ hn)) (by omega)
        exact ⟨r, by unfold visitAll; rw [hs']; exact hr'⟩
    unfold visit
    simp only
    split
    · exact ⟨_, rfl⟩
    · rename_i hv
      refine hall _ _ (fun m hm => .link hn hm) ?_
      have := unseen_lt (G := G) nodes (hnodes n hn) hv
      have h2 := unseen_le (G := G) nodes (s := s) (r := collectMsg getName (G.msg n) s) (by rw [collectMsg_visited]; exact fun _ h => h)
      omega

variable {core : ν → ν}

/-- The type of a node has been visited, and the message it stands for collected. -/
def Seen (G : Graph ν) (core : ν → ν) (getName : MessageMeta → String) (s : Visit) (n : ν) : Prop :=
  G.type n ∈ s.visited ∧ ∀ m, G.msg (core n) = some m → getName m ∈ s.collected.map (·.1)

theorem Seen.extends {s r : Visit} {n : ν} (h : Seen G core getName s n) (e : Extends s r) : Seen G core getName r n :=
  ⟨e.visited _ h.1, fun m hm => e.names _ (h.2 m hm)⟩

theorem Walk.reach {passed : List ν} {n : ν} (h : Walk G.links root passed n) : Reach G.links root n := by
  induction h with
  | root => exact .root
  | link _ hl ih => exact .link ih hl

theorem Reach.walk {n : ν} (h : Reach G.links root n) : ∃ passed, Walk G.links root passed n := by
  induction h with
  | root => exact ⟨[], .root⟩
  | link _ hl ih => obtain ⟨p, hp⟩ := ih; exact ⟨_, .link hp hl⟩

/-- Everything behind the types visited since `old` has been seen. -/
def Closed (G : Graph ν) (core : ν → ν) (getName : MessageMeta → String) (root : ν) (old : List TypeMeta) (s : Visit) : Prop :=
  ∀ a, Reach G.links root a → core a = a → G.type a ∈ s.visited → G.type a ∉ old → ∀ b ∈ G.links a, Seen G core getName s b

theorem visit_closed (ht : TypesTell G core root) : ∀ fuel n passed s r, Walk G.links root passed n →
    (∀ x ∈ passed, Seen G core getName s x) → visit G getName fuel n s = some r →
    Seen G core getName r n ∧ Closed G core getName root s.visited r
  | 0, _, _, _, _, _, _, h => by cases h
  | fuel + 1, n, passed, s, r, hn, hp, h => by
    have hall : ∀ ns passed s r, (∀ n ∈ ns, Walk G.links root passed n) → (∀ x ∈ passed, Seen G core getName s x) →
        visitAll (visit G getName fuel) ns s = some r →
        Extends s r ∧ (∀ n ∈ ns, Seen G core getName r n) ∧ Closed G core getName root s.visited r := by
      intro ns
      induction ns with
      | nil =>
        intro passed s r _ _ h
        cases h
        exact ⟨.refl _, by simp, fun a _ _ h1 h2 => absurd h1 h2⟩
      | cons n ns ih =>
        intro passed s r hr hp h
        unfold visitAll at h
        cases hf : visit G getName fuel n s with
        | none => rw [hf] at h; cases h
        | some s' =>
          rw [hf] at h
          have hn := hr n List.mem_cons_self
          have he := visit_extends (Walk.reach hn) hf
          obtain ⟨a1, a2⟩ := visit_closed ht fuel n passed s s' hn hp hf
          obtain ⟨b1, b2, b3⟩ := ih passed s' r (fun n hn => hr n (List.mem_cons_of_mem _ hn)) (fun x hx => (hp x hx).extends he) h
          refine ⟨he.trans b1, ?_, ?_⟩
          · intro x hx
            cases hx with
            | head => exact a1.extends b1
            | tail _ hx => exact b2 x hx
          · intro a ha hc hv ho b hb
            by_cases hv' : G.type a ∈ s'.visited
            · exact (a2 a ha hc hv' ho b hb).extends b1
            · exact b3 a ha hc hv hv' b hb
    have hname : ∀ m, G.msg (core n) = some m → getName m ∈ (collectMsg getName (G.msg n) s).collected.map (·.1) := by
      intro m hm
      by_cases hc : core n = n
      · rw [hc] at hm
        rw [hm]
        exact (orInsert_names _ _ _ _).2 (.inr rfl)
      · have hpass := (ht.stands n (Walk.reach hn) hc).2.2 passed hn
        refine (collectMsg_extends _ s).names _ ((hp _ hpass).2 m ?_)
        rw [ht.same]
        exact hm
    unfold visit at h
    simp only at h
    split at h
    · rename_i hv
      cases h
      refine ⟨⟨hv, hname⟩, fun a _ _ h1 h2 => ?_⟩
      rw [collectMsg_visited] at h1
      exact absurd h1 h2
    · rename_i hv
      have hc : core n = n := Classical.byContradiction fun hc => by
        have hpass := (ht.stands n (Walk.reach hn) hc).2.2 passed hn
        have := (hp _ hpass).1
        rw [ht.type] at this
        rw [collectMsg_visited] at hv
        exact hv this
      have hself : Seen G core getName ⟨G.type n :: (collectMsg getName (G.msg n) s).visited, (collectMsg getName (G.msg n) s).collected⟩ n :=
        ⟨List.mem_cons_self, hname⟩
      have hext : Extends s ⟨G.type n :: (collectMsg getName (G.msg n) s).visited, (collectMsg getName (G.msg n) s).collected⟩ :=
        (collectMsg_extends _ s).trans ⟨fun t ht => List.mem_cons_of_mem _ ht, fun _ h => h⟩
      obtain ⟨b1, b2, b3⟩ := hall _ (n :: passed) _ _ (fun m hm => .link hn hm) (fun x hx => by
        rcases List.mem_cons.1 hx with rfl | hx
        · exact hself
        · exact (hp x hx).extends hext) h
      refine ⟨hself.extends b1, ?_⟩
      intro a ha hca hva ho b hb
      by_cases he : G.type a = G.type n
      · have hmap := ht.tell a n ha (Walk.reach hn) hca hc he
        have : (G.type b, G.msg (core b)) ∈ (G.links n).map fun n => (G.type n, G.msg (core n)) := by
          rw [← hmap]; exact List.mem_map.2 ⟨b, hb, rfl⟩
        obtain ⟨b', hb', heq⟩ := List.mem_map.1 this
        simp only [Prod.mk.injEq] at heq
        have := b2 b' hb'
        unfold Seen at this
        rw [heq.1, heq.2] at this
        exact this
      · refine b3 a ha hca hva ?_ b hb
        intro hm
        rw [collectMsg_visited] at hm
        rcases List.mem_cons.1 hm with hm | hm
        · exact he hm
        · exact ho hm

/-- Everything that can be reached has been seen when the traversal is over. -/
theorem visit_all (ht : TypesTell G core root) {fuel : Nat} {r : Visit} (h : visit G getName fuel root ⟨[], []⟩ = some r) {n : ν}
    (hn : Reach G.links root n) : Seen G core getName r n := by
  obtain ⟨h1, h2⟩ := visit_closed ht fuel root [] _ r .root (by simp) h
  obtain ⟨passed, hw⟩ := Reach.walk hn
  have key : Seen G core getName r n ∧ ∀ x ∈ passed, Seen G core getName r x := by
    clear hn
    induction hw with
    | root => exact ⟨h1, by simp⟩
    | @link passed m n hw hl ih =>
      refine ⟨?_, fun x hx => ?_⟩
      · by_cases hc : core m = m
        · exact h2 m (Walk.reach hw) hc ih.1.1 (by simp) n hl
        · obtain ⟨_, hl', hp⟩ := ht.stands m (Walk.reach hw) hc
          have hcore := hl' n hl
          have htype : G.type n = G.type m := by rw [← ht.type n, hcore, ht.type]
          refine ⟨by rw [htype]; exact ih.1.1, fun msg hm => ?_⟩
          rw [hcore] at hm
          exact ih.1.2 msg hm
      · rcases List.mem_cons.1 hx with rfl | hx
        · exact ih.1
        · exact ih.2 x hx
  exact key.1

/-! ## Rust types -/

variable {M : Type} {P : Program M}

theorem told_msg (h : Told P) : ∀ {a b : RTy M}, unboxed a = a → unboxed b = b → a.type P = b.type P →
    P.graph.msg a = P.graph.msg b ∧ (P.graph.links a).map (RTy.type P) = (P.graph.links b).map (RTy.type P) := by
  have hbox : ∀ t : RTy M, unboxed (.box t) ≠ .box t := by
    intro t he
    replace he : unboxed t = .box t := he
    have hu : ∀ t : RTy M, sizeOf (unboxed t) ≤ sizeOf t := by
      intro t
      induction t with
      | box t ih => simp only [unboxed, RTy.box.sizeOf_spec]; omega
      | _ => exact Nat.le_refl _
    have := hu t
    rw [he, RTy.box.sizeOf_spec] at this
    omega
  intro a b ha hb hab
  cases a <;> cases b <;> first
    | exact absurd ha (hbox _)
    | exact absurd hb (hbox _)
    | skip
  all_goals simp only [RTy.type, TypeMeta.primitive.injEq, TypeMeta.ref.injEq, reduceCtorEq] at hab
  case msg.msg m m' =>
    have hargs : P.args m = P.args m' := by
      have := hab.2
      generalize P.args m = x at this
      generalize P.args m' = y at this
      clear hab
      induction x generalizing y with
      | nil => cases y with
        | nil => rfl
        | cons => cases this
      | cons t ts ih => cases y with
        | nil => cases this
        | cons u us =>
          simp only [TypeArgs.ofList, TypeArgs.cons.injEq, FieldTypeMeta.type.injEq] at this
          rw [this.1, ih us this.2]
    have := h.same m m' hab.1 hargs
    exact ⟨congrArg some this.1, this.2⟩
  all_goals first
    | exact ⟨rfl, rfl⟩
    | (exfalso; simp [NameMeta.mk.injEq] at hab; done)
    | (exact absurd (by rw [hab.1]; decide) (h.fresh _); done)
    | (exact absurd (by rw [← hab.1]; decide) (h.fresh _); done)
    | (simp only [TypeArgs.ofList, TypeArgs.cons.injEq, FieldTypeMeta.type.injEq] at hab
       refine ⟨rfl, ?_⟩
       simp [Program.graph, hab.2.1])

theorem unboxed_unboxed (t : RTy M) : unboxed (unboxed t) = unboxed t := by
  induction t with
  | box t ih => exact ih
  | _ => rfl

theorem unboxed_type (t : RTy M) : (unboxed t).type P = t.type P := by
  induction t with
  | box t ih => exact ih
  | _ => rfl

theorem box_of_unboxed {t : RTy M} (h : unboxed t ≠ t) : ∃ u, t = .box u := by
  cases t with
  | box u => exact ⟨u, rfl⟩
  | _ => exact absurd rfl h

theorem links_noBox (hf : ∀ m, ∀ t ∈ P.fields m, NoBox t) {a b : RTy M} (ha : NoBox a) (hb : b ∈ P.graph.links a) : NoBox b := by
  cases ha with
  | msg => exact hf _ b hb
  | prim => cases hb
  | bytes => cases hb
  | vec h => cases List.mem_singleton.1 hb; exact h
  | array h => cases List.mem_singleton.1 hb; exact h
  | option h => cases List.mem_singleton.1 hb; exact h
  | list h => cases List.mem_singleton.1 hb; exact h
  | map h => cases List.mem_singleton.1 hb; exact h

end Steit.Gen
