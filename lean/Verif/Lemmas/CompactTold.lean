import Verif.Lemmas.CompactCs
import Verif.Lemmas.CSharpFollow

/-! # No entry of a source is an update addressed to a variant -/

namespace Steit
open Spec

theorem told_under {k j : U32} {q : List U32} {b : Bytes} {e : Entry} (h : Entry.update (k :: q) b = under [j] e) :
    k = j ∧ e = .update q b := by
  cases e with
  | update r c =>
    obtain ⟨h1, rfl⟩ := Entry.update.inj h
    obtain ⟨rfl, rfl⟩ := List.cons.inj h1
    exact ⟨rfl, rfl⟩
  | listPush r c => cases h
  | listPop r => cases h
  | mapRemove r c => cases h

theorem toldFields_tag : (fs : Fields) → ∀ {v v' : fs.El} {k : U32} {q : List U32} {b : Bytes},
    InsideFields fs v (.update (k :: q) b) v' → k ∈ fs.tags
  | .nil, _, _, _, _, _, h => nomatch h
  | .cons tag _ _ fs, _, _, _, _, _, h => by
    rcases h with ⟨_, _, e', _, he⟩ | ⟨_, h⟩
    · exact List.mem_cons.2 (.inl (told_under he).1)
    · exact List.mem_cons.2 (.inr (toldFields_tag fs h))

theorem toldVariant_tag : (vs : Variants) → ∀ {v v' : vs.El} {k : U32} {q : List U32} {b : Bytes},
    InsideVariant vs v (.update (k :: q) b) v' → k ∈ vs.tags
  | .nil, _, _, _, _, _, h => nomatch h
  | .cons tag _ fs vs, v, v', k, q, b, h => by
    rcases v with v | v <;> rcases v' with v' | v'
    · obtain ⟨e', he, _⟩ := h
      exact List.mem_cons.2 (.inl (told_under he).1)
    · exact nomatch h
    · exact nomatch h
    · exact List.mem_cons.2 (.inr (toldVariant_tag vs (v := v) (v' := v') h))

theorem insideFields_place {fs : Fields} {tag : U32} {s : Ty} {put : s.Cs → fs.Cs} (h : FieldPlace fs tag s put) {d : Bool}
    (hn : fs.tags.Nodup) (hw : fs.WF d) {v v' : fs.El} {q : List U32} {b : Bytes} (hi : InsideFields fs v (.update (tag :: q) b) v') :
    s.WF ∧ ∃ x x', Means s x (.update q b) x' := by
  induction h with
  | @head tag attrs t fs rest =>
    refine ⟨hw.2.2.1, ?_⟩
    rcases hi with ⟨_, _, e', h1, he⟩ | ⟨_, h1⟩
    · obtain ⟨-, rfl⟩ := told_under he
      exact ⟨_, _, h1⟩
    · exact ((List.nodup_cons.1 hn).1 (toldFields_tag fs h1)).elim
  | tail hne h ih =>
    rcases hi with ⟨_, _, e', h1, he⟩ | ⟨_, h1⟩
    · exact (hne (told_under he).1).elim
    · exact ih (List.nodup_cons.1 hn).2 hw.2.2.2 h1

theorem variantPlace_tag {vs : Variants} {vtag tag : U32} {s : Ty} {put : s.Cs → vs.Cs} (h : VariantPlace vs vtag tag s put) :
    vtag ∈ vs.tags := by
  induction h with
  | here h => exact List.mem_cons_self ..
  | there h ih => exact List.mem_cons.2 (.inr ih)

theorem insideVariant_place {vs : Variants} {vtag tag : U32} {s : Ty} {put : s.Cs → vs.Cs} (h : VariantPlace vs vtag tag s put) {d : Bool}
    (hn : vs.tags.Nodup) (hw : vs.WF d) {v v' : vs.El} {q : List U32} {b : Bytes}
    (hi : InsideVariant vs v (.update (vtag :: tag :: q) b) v') : s.WF ∧ ∃ x x', Means s x (.update q b) x' := by
  induction h with
  | @here vtag tag cached fs vs s put h =>
    rcases v with v | v <;> rcases v' with v' | v'
    · obtain ⟨e', he, h1⟩ := hi
      obtain ⟨-, rfl⟩ := told_under he
      exact insideFields_place h hw.2.1 hw.2.2.1 h1
    · exact nomatch hi
    · exact nomatch hi
    · exact ((List.nodup_cons.1 hn).1 (toldVariant_tag vs (v := v) (v' := v') hi)).elim
  | @there vtag vtag' tag cached fs vs s put h ih =>
    rcases v with v | v <;> rcases v' with v' | v'
    · obtain ⟨e', he, h1⟩ := hi
      have := (told_under he).1
      subst this
      exact ((List.nodup_cons.1 hn).1 (variantPlace_tag h)).elim
    · exact nomatch hi
    · exact nomatch hi
    · exact ih (List.nodup_cons.1 hn).2 hw.2.2.2 (v := v) (v' := v') hi

/-- An update of something further inside the child is one of the child. -/
theorem childPlace_means {t : Ty} {p : List U32} {ns : List (List U32)} {s : Ty} {put : s.Cs → t.Cs} (h : ChildPlace t p ns s put)
    (ht : t.WF) {v v' : t.El} {q : List U32} (hq : q ≠ []) {b : Bytes} (hm : Means t v (.update (p ++ q) b) v') :
    s.WF ∧ ∃ x x', Means s x (.update q b) x' := by
  have hi : Inside t v (.update (p ++ q) b) v' := by
    rcases hm with ⟨h1, _⟩ | h1
    · have := (Entry.update.inj h1).1
      exact (hq (List.append_eq_nil_iff.1 this).2).elim
    · exact h1
  cases h with
  | item hl =>
    refine ⟨ht.2, ?_⟩
    rcases hi with ⟨x, _, he, _⟩ | ⟨_, he, _⟩ | ⟨i, x, e', x', _, _, h1, he, _⟩
    · cases he
    · cases he
    · obtain ⟨-, rfl⟩ := told_under he
      exact ⟨_, _, h1⟩
  | value hk =>
    refine ⟨ht.2, ?_⟩
    rcases hi with ⟨k, x, _, _, _, he, _⟩ | ⟨k, _, _, he, _⟩ | ⟨k, x, e', x', _, h1, he, _⟩
    · obtain ⟨h1, -⟩ := Entry.update.inj he
      exact (hq (List.cons.inj h1).2).elim
    · cases he
    · obtain ⟨-, rfl⟩ := told_under he
      exact ⟨_, _, h1⟩
  | @field reg cached fs tag s put h =>
    cases reg with
    | false => exact nomatch hi
    | true => exact insideFields_place h ht.1 ht.2 hi
  | @variant reg cached fs vs vtag tag s put h =>
    cases reg with
    | false => exact nomatch hi
    | true =>
      have hi := inside_enum.1 hi
      have hw : (Variants.cons 0#32 cached fs vs).WF true := ⟨by decide, ht.1, ht.2.1, ht.2.2.2.2⟩
      exact insideVariant_place h (List.nodup_cons.2 ⟨ht.2.2.2.1, ht.2.2.1⟩) hw hi

theorem insideVariant_short : (vs : Variants) → ∀ {v v' : vs.El} {k : U32} {b : Bytes}, ¬ InsideVariant vs v (.update [k] b) v'
  | .nil, _, _, _, _, h => nomatch h
  | .cons tag _ fs vs, v, v', k, b, h => by
    rcases v with v | v <;> rcases v' with v' | v'
    · obtain ⟨e', he, h1⟩ := h
      obtain ⟨-, rfl⟩ := told_under he
      exact inner_insideFields fs h1 b rfl
    · exact nomatch h
    · exact nomatch h
    · exact insideVariant_short vs (v := v) (v' := v') h

/-- No update says that only a variant was changed. -/
theorem childPlace_variant {t : Ty} {p : List U32} {ns : List (List U32)} {s : Ty} {put : s.Cs → t.Cs} (h : ChildPlace t p ns s put)
    {v v' : t.El} {n : List U32} (hn : n ∈ ns) {k : U32} {b : Bytes} (hm : Means t v (.update (n ++ [k]) b) v') : False := by
  cases h with
  | item => exact nomatch hn
  | value => exact nomatch hn
  | field => exact nomatch hn
  | @variant reg cached fs vs vtag tag s put h =>
    obtain rfl : n = [] := by simpa using hn
    rcases hm with ⟨h1, _⟩ | hi
    · cases (Entry.update.inj h1).1
    · cases reg with
      | false => exact nomatch hi
      | true =>
        have hi := inside_enum.1 hi
        exact insideVariant_short _ hi

theorem means_noVariant {t : Ty} {p : List U32} {ns : List (List U32)} {s : Ty} {put : s.Cs → t.Cs} (h : Place t p ns s put)
    (ht : t.WF) {v v' : t.El} {e : Entry} (hm : Means t v e v') : NoVariant ns e := by
  cases e with
  | update q b =>
    intro n hn k hk
    subst hk
    induction h generalizing n with
    | self => exact nomatch hn
    | @box t p ns s put h ih => exact ih ht (v := v) (v' := v') n hn hm
    | @inside t p q ns ns' c s put put' h1 h2 ih =>
      rcases List.mem_append.1 hn with hn | hn
      · exact childPlace_variant h1 hn hm
      · obtain ⟨n', hn', rfl⟩ := List.mem_map.1 hn
        rw [List.append_assoc] at hm
        obtain ⟨hw, x, x', h3⟩ := childPlace_means h1 ht (by simp) hm
        exact ih hw n' hn' h3
  | _ => trivial

theorem steps_noVariant {t : Ty} {p : List U32} {ns : List (List U32)} {s : Ty} {put : s.Cs → t.Cs} (h : Place t p ns s put)
    (ht : t.WF) : ∀ {es : List Entry} {v v' : t.El}, Steps (Means t) v es v' → ∀ e ∈ es, NoVariant ns e
  | [], _, _, _, e, he => nomatch he
  | e :: es, v, v', ⟨u, h1, h2⟩, e', he' => by
    rcases List.mem_cons.1 he' with rfl | he'
    · exact means_noVariant h ht h1
    · exact steps_noVariant h ht h2 e' he'

end Steit
