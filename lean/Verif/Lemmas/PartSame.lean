import Verif.Lemmas.PartPair

/-! # Objects inside equal states -/

namespace Steit
open Spec

theorem carried_field {fs : Fields} {v : fs.El} {tag : U32} {s : Ty} {u : s.El} {put : s.El → fs.El}
    (h : FieldPart fs v tag s u put) (hc : CarriedFields fs v) : Carried s u := by
  induction h with
  | head _ => exact hc.1
  | tail _ ih => exact ih hc.2

theorem carried_variant {vs : Variants} {v : vs.El} {vtag tag : U32} {s : Ty} {u : s.El} {put : s.El → vs.El}
    (h : VariantPart vs v vtag tag s u put) (hc : CarriedVariant vs v) : Carried s u := by
  induction h with
  | here hp => exact carried_field hp hc
  | there _ ih => exact ih hc

theorem carried_child {t : Ty} {v : t.El} {p : List U32} {s : Ty} {u : s.El} {put : s.El → t.El} (h : Child t v p s u put)
    (hc : Carried t v) : Carried s u := by
  cases h with
  | @item _ l i _ hi hx => exact hc u (List.mem_of_getElem? hx)
  | @value kt _ v pre post k _ hx hk => exact (hc.1 (k, u) (by rw [hx]; simp)).2.2
  | field hf => exact carried_field hf hc
  | variant hv => exact carried_variant hv (carried_enum.1 hc)

theorem carried_part {t : Ty} {v : t.El} {p : List U32} {s : Ty} {u : s.El} {put : s.El → t.El} (h : Part t v p s u put)
    (hc : Carried t v) : Carried s u := by
  induction h with
  | self => exact hc
  | box _ ih => exact ih hc
  | inside hp _ ih => exact ih (carried_child hp hc)

theorem field_same {fs : Fields} {v : fs.El} {tag : U32} {s : Ty} {u : s.El} {put : s.El → fs.El}
    (h : FieldPart fs v tag s u put) {r : fs.El} (hr : stripFields fs r = stripFields fs v) :
    ∃ u' put', FieldPart fs r tag s u' put' ∧ Same s u' u ∧ ∀ x y, Same s x y → stripFields fs (put' x) = stripFields fs (put y) := by
  induction h with
  | @head tag attrs t fs v hs =>
    have h1 := congrArg Prod.fst hr
    have h2 := congrArg Prod.snd hr
    exact ⟨r.1, _, .head hs, h1, fun x y hxy => Prod.ext hxy h2⟩
  | @tail tag tag' attrs t fs v s u put _ ih =>
    have h1 := congrArg Prod.fst hr
    obtain ⟨u', put', h3, h4, h5⟩ := ih (r := r.2) (congrArg Prod.snd hr)
    exact ⟨u', _, .tail h3, h4, fun x y hxy => Prod.ext h1 (h5 x y hxy)⟩

theorem variant_same {vs : Variants} {v : vs.El} {vtag tag : U32} {s : Ty} {u : s.El} {put : s.El → vs.El}
    (h : VariantPart vs v vtag tag s u put) {r : vs.El} (hr : stripVariant vs r = stripVariant vs v) :
    ∃ u' put', VariantPart vs r vtag tag s u' put' ∧ Same s u' u ∧
      ∀ x y, Same s x y → stripVariant vs (put' x) = stripVariant vs (put y) := by
  induction h with
  | here hp =>
    rcases r with r | r
    · obtain ⟨u', put', h3, h4, h5⟩ := field_same hp (r := r) (Sum.inl.inj hr)
      exact ⟨u', _, .here h3, h4, fun x y hxy => congrArg Sum.inl (h5 x y hxy)⟩
    · exact nomatch hr
  | there _ ih =>
    rcases r with r | r
    · exact nomatch hr
    · obtain ⟨u', put', h3, h4, h5⟩ := ih (r := r) (Sum.inr.inj hr)
      exact ⟨u', _, .there h3, h4, fun x y hxy => congrArg Sum.inr (h5 x y hxy)⟩

theorem child_same {t : Ty} {v : t.El} {p : List U32} {s : Ty} {u : s.El} {put : s.El → t.El} (h : Child t v p s u put)
    {r : t.El} (hr : Same t r v) :
    ∃ u' put', Child t r p s u' put' ∧ Same s u' u ∧ ∀ x y, Same s x y → Same t (put' x) (put y) := by
  cases h with
  | @item _ l i _ hi hx =>
    have hm : r.items.map (strip s) = l.items.map (strip s) := list_same.1 hr
    have h1 : (r.items.map (strip s))[i]? = (l.items.map (strip s))[i]? := by rw [hm]
    rw [List.getElem?_map, List.getElem?_map, hx] at h1
    obtain ⟨u', h2, h3⟩ := Option.map_eq_some_iff.1 h1
    refine ⟨u', _, .item hi h2, h3, fun x y hxy => list_same.2 ?_⟩
    show (r.items.set i x).map (strip s) = (l.items.set i y).map (strip s)
    rw [List.map_set, List.map_set, hm]
    exact congrArg _ hxy
  | @value kt _ v pre post k _ hx hk =>
    have hm : r.entries.map (fun e => (e.1, strip s e.2)) = v.entries.map (fun e => (e.1, strip s e.2)) :=
      congrArg MapV.entries hr
    rw [hx, List.map_append, List.map_cons] at hm
    obtain ⟨pre', post', h1, h2, h3⟩ := List.map_eq_append_iff.1 hm
    obtain ⟨⟨k', u'⟩, post', rfl, h4, h5⟩ := List.map_eq_cons_iff.1 h3
    have hk' : k' = k := congrArg Prod.fst h4
    subst hk'
    refine ⟨u', _, .value h1 ?_, congrArg Prod.snd h4, fun x y hxy => ?_⟩
    · intro e he
      have : (e.1, strip s e.2) ∈ pre.map (fun e => (e.1, strip s e.2)) := by
        rw [← h2]; exact List.mem_map_of_mem he
      obtain ⟨e', he', h6⟩ := List.mem_map.1 this
      rw [← congrArg Prod.fst h6]
      exact hk e' he'
    · show (⟨Rt.dflt, (pre' ++ (k', x) :: post').map (fun e => (e.1, strip s e.2))⟩ : MapV s.El) =
        ⟨Rt.dflt, (pre ++ (k', y) :: post).map (fun e => (e.1, strip s e.2))⟩
      rw [List.map_append, List.map_append, List.map_cons, List.map_cons, h2, h5]
      unfold Same at hxy
      rw [hxy]
  | @field cached fs v tag s u put hf =>
    obtain ⟨u', put', h1, h2, h3⟩ := field_same hf (r := r.fields) (congrArg StructV.fields hr)
    exact ⟨u', _, .field h1, h2, fun x y hxy => congrArg (StructV.mk Rt.dflt) (h3 x y hxy)⟩
  | @variant cached fs vs v vtag tag s u put hv =>
    obtain ⟨u', put', h1, h2, h3⟩ := variant_same hv (r := r.val) (enum_same.1 hr)
    exact ⟨u', _, .variant h1, h2, fun x y hxy => enum_same.2 (h3 x y hxy)⟩

theorem part_same {t : Ty} {v : t.El} {p : List U32} {s : Ty} {u : s.El} {put : s.El → t.El} (h : Part t v p s u put)
    {r : t.El} (hr : Same t r v) :
    ∃ u' put', Part t r p s u' put' ∧ Same s u' u ∧ ∀ x y, Same s x y → Same t (put' x) (put y) := by
  induction h with
  | self => exact ⟨r, _, .self, hr, fun x y hxy => hxy⟩
  | box _ ih =>
    obtain ⟨u', put', h1, h2, h3⟩ := ih (r := r) hr
    exact ⟨u', put', .box h1, h2, h3⟩
  | inside hc _ ih =>
    obtain ⟨u1, put1, h1, h2, h3⟩ := child_same hc hr
    obtain ⟨u2, put2, h4, h5, h6⟩ := ih h2
    exact ⟨u2, _, .inside h1 h4, h5, fun x y hxy => h3 _ _ (h6 x y hxy)⟩

theorem applyE_part {t : Ty} {v : t.El} {p : List U32} {s : Ty} {u : s.El} {put : s.El → t.El} (h : Part t v p s u put)
    (ht : t.WF) (m : Mode) (e : Entry) :
    applyE (t.dict.handle m) v (under p e) = (applyE (s.dict.handle m) u e).map put := by
  cases e <;> exact handle_part h ht m _ _ _ _

theorem applies_part {t : Ty} {p : List U32} {s : Ty} (ht : t.WF) (m : Mode) {es : List Entry} :
    ∀ {v : t.El} {u u' : s.El} {put : s.El → t.El}, Part t v p s u put → Applies (s.dict.handle m) u es u' →
      Applies (t.dict.handle m) v (es.map (under p)) (put u') := by
  induction es with
  | nil => intro v u u' put h ha; cases ha; exact part_self h
  | cons e es ih =>
    intro v u u' put h ha
    obtain ⟨x, rest, h1, h2⟩ := ha
    refine ⟨put x, rest, ?_, ih (part_put h x) h2⟩
    rw [applyE_part h ht, h1]
    rfl

end Steit
