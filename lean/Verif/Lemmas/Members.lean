import Verif.Spec.Members
import Verif.Lemmas.TablesGen

/-!
# What the reader of declarations sees

`Shown w n ds`: the writer is at level `n`, and what it has written declares `ds`.
-/

namespace Steit.Gen

open Steit.Gen.Spec Steit.Spec

set_option maxRecDepth 8192

/-! ## Lines -/

theorem dropWhile_all {p : Char → Bool} {t : Text} (h : ∀ x ∈ t, p x = true) : t.dropWhile p = [] := by
  have := List.dropWhile_append_of_pos (l₂ := []) h
  simpa using this

theorem takeWhile_all {p : Char → Bool} {t : Text} (h : ∀ x ∈ t, p x = true) : t.takeWhile p = t := by
  have := List.takeWhile_append_of_pos (l₂ := []) h
  simpa using this

theorem lastWord_append {type name : Text} (h : ' ' ∉ name) : lastWord? (type ++ ' ' :: name) = some (type, name) := by
  unfold lastWord?
  have h' : ' ' ∉ name.reverse := fun hm => h (List.mem_reverse.1 hm)
  have e : (type ++ ' ' :: name).reverse = name.reverse ++ ' ' :: type.reverse := by simp
  rw [e, upTo_append h']
  simp only [after?, if_true, Option.map_some, List.reverse_reverse]

theorem lastWord_none {t : Text} (h : ' ' ∉ t) : lastWord? t = none := by
  unfold lastWord?
  have : (upTo ' ' t.reverse).2 = [] := by
    unfold upTo
    simp only
    refine dropWhile_all fun x hx => ?_
    have : x ≠ ' ' := fun e => h (e ▸ List.mem_reverse.1 hx)
    simpa using this
  rw [this]; rfl

/-- No opening bracket. -/
def Open (t : Text) : Prop := '(' ∉ t ∧ '{' ∉ t

instance (t : Text) : Decidable (Open t) := inferInstanceAs (Decidable (_ ∧ _))

theorem Open.append {a b : Text} (ha : Open a) (hb : Open b) : Open (a ++ b) :=
  ⟨fun h => (List.mem_append.1 h).elim ha.1 hb.1, fun h => (List.mem_append.1 h).elim ha.2 hb.2⟩

theorem unbr_open {t : Text} (h : Unbr t) : Open t := ⟨fun hm => h _ hm (by decide), fun hm => h _ hm (by decide)⟩
theorem name_open {t : Text} (h : IsName t) : Open t := unbr_open (isName_unbr h)

theorem open_pred {t : Text} (h : Open t) : ∀ x ∈ t, (x != '(' && x != '{') = true := by
  intro x hx
  have h1 : x ≠ '(' := fun e => h.1 (e ▸ hx)
  have h2 : x ≠ '{' := fun e => h.2 (e ▸ hx)
  simp [h1, h2]

theorem upToBracket_append {t : Text} (h : Open t) {c : Char} (hc : c = '(' ∨ c = '{') (r : Text) :
    upToBracket (t ++ c :: r) = (t, c :: r) := by
  have hc' : (c != '(' && c != '{') = false := by rcases hc with rfl | rfl <;> decide
  unfold upToBracket
  rw [List.takeWhile_append_of_pos (open_pred h), List.dropWhile_append_of_pos (open_pred h)]
  simp [List.takeWhile_cons, List.dropWhile_cons, hc']

theorem upToBracket_none {t : Text} (h : Open t) : (upToBracket t).2 = [] :=
  dropWhile_all (open_pred h)

theorem bare_append {n r : Text} (h : '<' ∉ n) : bare (n ++ '<' :: r) = n := by
  unfold bare
  rw [upTo_append h]

theorem bare_self {n : Text} (h : '<' ∉ n) : bare n = n := by
  unfold bare upTo
  simp only
  refine takeWhile_all fun x hx => ?_
  have : x ≠ '<' := fun e => h (e ▸ hx)
  simpa using this

theorem declared_method {access type name : Text} (ht : Open type) (hn : IsName name) (r : Text) :
    declared? access (type ++ (' ' :: (name ++ '(' :: r))) = some ⟨access, .method, type, bare name⟩ := by
  have e : type ++ (' ' :: (name ++ '(' :: r)) = (type ++ ' ' :: name) ++ '(' :: r := by simp
  have ho : Open (type ++ ' ' :: name) := ht.append (by
    have := name_open hn
    exact ⟨fun h => by cases h with | tail _ h => exact this.1 h, fun h => by cases h with | tail _ h => exact this.2 h⟩)
  unfold declared?
  rw [e, upToBracket_append ho (.inl rfl)]
  simp only [lastWord_append (name_no_space hn)]

theorem declared_ctor {access name : Text} (hn : IsName name) (r : Text) :
    declared? access (name ++ '(' :: r) = some ⟨access, .ctor, [], name⟩ := by
  unfold declared?
  rw [upToBracket_append (name_open hn) (.inl rfl)]
  simp only [lastWord_none (name_no_space hn)]

theorem declared_property {access type name : Text} (ht : Open type) (hn : IsName name) (r : Text) :
    declared? access (type ++ (' ' :: (name ++ (' ' :: '{' :: r)))) = some ⟨access, .property, type, name⟩ := by
  have e : type ++ (' ' :: (name ++ (' ' :: '{' :: r))) = ((type ++ ' ' :: name) ++ [' ']) ++ '{' :: r := by simp
  have ho : Open ((type ++ ' ' :: name) ++ [' ']) := (ht.append (by
    have := name_open hn
    exact ⟨fun h => by cases h with | tail _ h => exact this.1 h, fun h => by cases h with | tail _ h => exact this.2 h⟩)).append
      ⟨by decide, by decide⟩
  unfold declared?
  rw [e, upToBracket_append ho (.inr rfl)]
  simp only [before_append, Option.bind_some, lastWord_append (name_no_space hn), Option.map_some]

theorem declared_field {access type name : Text} (ht : Open type) (he : before? (lit! " =") type = none) (hn : IsName name) :
    declared? access (type ++ (' ' :: (name ++ [';']))) = some ⟨access, .field, type, name⟩ := by
  have e : type ++ (' ' :: (name ++ [';'])) = (type ++ ' ' :: name) ++ [';'] := by simp
  have ho : Open (type ++ ' ' :: name ++ [';']) := (ht.append (by
    have := name_open hn
    exact ⟨fun h => by cases h with | tail _ h => exact this.1 h, fun h => by cases h with | tail _ h => exact this.2 h⟩)).append
      ⟨by decide, by decide⟩
  unfold declared?
  rw [e, upToBracket_none ho]
  simp only [before_append, Option.bind_some, lastWord_append (name_no_space hn), he]

theorem declared_const {access type name value : Text} (ht : Open type) (hn : IsName name) (hv : IsName value) :
    declared? access (type ++ (' ' :: (name ++ (lit! " = " ++ (value ++ [';']))))) = some ⟨access, .field, type, name⟩ := by
  have e : type ++ (' ' :: (name ++ (lit! " = " ++ (value ++ [';'])))) = (((type ++ ' ' :: name) ++ lit! " =") ++ ' ' :: value) ++ [';'] := by
    simp
  have ho : Open ((((type ++ ' ' :: name) ++ lit! " =") ++ ' ' :: value) ++ [';']) := by
    have h1 := name_open hn
    have h2 := name_open hv
    refine ((ht.append ?_).append ⟨by decide, by decide⟩ |>.append ?_).append ⟨by decide, by decide⟩
    · exact ⟨fun h => by cases h with | tail _ h => exact h1.1 h, fun h => by cases h with | tail _ h => exact h1.2 h⟩
    · exact ⟨fun h => by cases h with | tail _ h => exact h2.1 h, fun h => by cases h with | tail _ h => exact h2.2 h⟩
  unfold declared?
  rw [e, upToBracket_none ho]
  simp only [before_append, Option.bind_some, lastWord_append (name_no_space hv), lastWord_append (name_no_space hn), Option.map_some]

/-! ## Lines of a writer -/

/-- The ends of lines that open classes. -/
def classEnds : List Text := [lit! " : IState {", lit! " : IEnumState {"]

theorem class_none {s l : Text} (hs : s <:+ l) (hi : (classEnds.all fun q => !q.isSuffixOf s && !s.isSuffixOf q) = true) :
    class? l = none := by
  have bt : ∀ p, ∀ q ∈ classEnds, between? p q l = none := fun p q hq => by
    cases h : between? p q l with
    | none => rfl
    | some u =>
      have h1 := between_suffix h
      have h2 := List.all_eq_true.1 hi q hq
      simp only [Bool.and_eq_true, Bool.not_eq_true', ← Bool.not_eq_true, List.isSuffixOf_iff_suffix] at h2
      rcases List.suffix_or_suffix_of_suffix h1 hs with h | h
      · exact absurd h h2.1
      · exact absurd h h2.2
  unfold class?
  rw [bt _ _ (by simp [classEnds]), bt _ _ (by simp [classEnds])]; rfl

/-- See the head of this file. -/
def Shown (w : Writer) (n : Nat) (ds : List (Nat × Decl)) : Prop :=
  w.indentSize = 4 ∧ w.level = n ∧
    ∃ ls : List Text, (∀ l ∈ ls, '\n' ∉ l) ∧ w.out = (ls.map (· ++ ['\n'])).flatten ∧ ls.filterMap declLine = ds

variable {w : Writer} {n : Nat} {ds : List (Nat × Decl)} {cm : CaseMap}

theorem shown_new : Shown (.new 4) 0 [] := ⟨rfl, rfl, [], fun l hl => (nomatch hl), rfl, rfl⟩

theorem Shown.outline (h : Shown w n ds) : outline w.finish = ds := by
  obtain ⟨_, _, ls, hn, ho, hs⟩ := h
  unfold Spec.outline Writer.finish
  rw [ho, linesOf_lines hn, List.filterMap_append, hs]
  exact List.append_nil _

theorem Shown.indent (h : Shown w n ds) : Shown w.indent (n + 1) ds := ⟨h.1, congrArg (· + 1) h.2.1, h.2.2⟩

theorem Shown.outdent (h : Shown w (n + 1) ds) : Shown w.outdent n ds := by
  have hl := h.2.1
  unfold Writer.outdent
  rw [if_pos (by omega)]
  exact ⟨h.1, by show w.level - 1 = n; omega, h.2.2⟩

theorem Shown.line (h : Shown w n ds) {l : Text} (hn : '\n' ∉ l) {new : List (Nat × Decl)}
    (he : [List.replicate (n * 4) ' ' ++ l].filterMap declLine = new) : Shown (w.writeln l) n (ds ++ new) := by
  obtain ⟨hi, hl, ls, h1, h2, h3⟩ := h
  refine ⟨hi, hl, ls ++ [List.replicate (w.level * w.indentSize) ' ' ++ l], ?_, ?_, ?_⟩
  · intro x hx
    rcases List.mem_append.1 hx with hx | hx
    · exact h1 x hx
    · rw [List.mem_singleton.1 hx, List.mem_append]
      rintro (hm | hm)
      · exact absurd (List.eq_of_mem_replicate hm) (by decide)
      · exact hn hm
  · rw [writeln_out]
    simp [h2]
  · rw [List.filterMap_append, h3, hi, hl, he]

/-- A line that declares nothing. -/
theorem Shown.skip (h : Shown w n ds) {l : Text} (hn : '\n' ∉ l) (he : decl? (unindented l) = none) : Shown (w.writeln l) n ds := by
  have := h.line hn (new := []) (by simp [declLine, unindented_replicate, he])
  rwa [List.append_nil] at this

/-- A line that declares something. -/
theorem Shown.decl (h : Shown w n ds) {l : Text} (hn : '\n' ∉ l) (hs : ∀ c t, l = c :: t → c ≠ ' ') {d : Decl} (he : decl? l = some d) :
    Shown (w.writeln l) n (ds ++ [(n * 4, d)]) := by
  refine h.line hn ?_
  have hu : unindented l = l := by
    cases l with
    | nil => rfl
    | cons c t => unfold unindented; rw [List.dropWhile_cons]; simp [hs c t rfl]
  have hi : indentation (List.replicate (n * 4) ' ' ++ l) = n * 4 := by
    unfold indentation
    rw [List.takeWhile_append_of_pos (by intro x hx; simp [List.eq_of_mem_replicate hx])]
    have : List.takeWhile (fun c => c == ' ') l = [] := by
      cases l with
      | nil => rfl
      | cons c t => rw [List.takeWhile_cons]; simp [hs c t rfl]
    simp [this]
  simp [declLine, unindented_replicate, hu, he, hi]

theorem Shown.newline (h : Shown w n ds) : Shown w.newline n ds := by
  obtain ⟨hi, hl, ls, h1, h2, h3⟩ := h
  refine ⟨hi, hl, ls ++ [[]], ?_, ?_, ?_⟩
  · intro x hx
    rcases List.mem_append.1 hx with hx | hx
    · exact h1 x hx
    · rw [List.mem_singleton.1 hx]; exact fun hm => (nomatch hm)
  · simp [Writer.newline, h2]
  · rw [List.filterMap_append, h3]
    exact List.append_nil _

/-- A line of literal text that declares nothing. -/
theorem Shown.lit (h : Shown w n ds) {l : Text} (he : decl? (unindented l) = none) (hn : (l.all (· != '\n')) = true := by rfl) :
    Shown (w.writeln l) n ds :=
  h.skip (fun hm => by have := List.all_eq_true.1 hn _ hm; revert this; decide) he

/-- A line of literal text that declares something. -/
theorem Shown.declLit (h : Shown w n ds) {c : Char} {l : Text} {d : Decl} (he : decl? (c :: l) = some d)
    (hn : ((c :: l).all (· != '\n')) = true := by rfl) (hc : c ≠ ' ' := by decide) : Shown (w.writeln (c :: l)) n (ds ++ [(n * 4, d)]) :=
  h.decl (fun hm => by have := List.all_eq_true.1 hn _ hm; revert this; decide) (fun c' t e => by cases e; exact hc) he

theorem Shown.newlineIf (h : Shown w n ds) (b : Bool) : Shown (if b then w.newline else w) n ds := by
  cases b with
  | true => exact h.newline
  | false => exact h

/-- A loop of lines. -/
theorem Shown.each {α : Type} {f : Writer → α → Writer} {xs : List α} {e : α → List (Nat × Decl)} (h : Shown w n ds)
    (hf : ∀ x ∈ xs, ∀ w ds, Shown w n ds → Shown (f w x) n (ds ++ e x)) : Shown (Gen.each xs f w) n (ds ++ xs.flatMap e) := by
  induction xs generalizing w ds with
  | nil => rw [List.flatMap_nil, List.append_nil]; exact h
  | cons x xs ih =>
    have := ih (hf x List.mem_cons_self w ds h) fun y hy => hf y (List.mem_cons_of_mem _ hy)
    rw [List.append_assoc] at this
    exact this

/-- A loop of lines that declare one thing each. -/
theorem Shown.eachDecl {α : Type} {f : Writer → α → Writer} {xs : List α} {e : α → Decl} (h : Shown w n ds)
    (hf : ∀ x ∈ xs, ∀ w ds, Shown w n ds → Shown (f w x) n (ds ++ [(n * 4, e x)])) :
    Shown (Gen.each xs f w) n (ds ++ (xs.map e).map fun d => (n * 4, d)) := by
  have := h.each (e := fun x => [(n * 4, e x)]) hf
  have e' : xs.flatMap (fun x => [(n * 4, e x)]) = (xs.map e).map fun d => (n * 4, d) := by
    clear this hf
    induction xs with
    | nil => rfl
    | cons x xs ih => rw [List.flatMap_cons, ih]; rfl
  rwa [e'] at this

/-- A loop of lines that declare nothing. -/
theorem Shown.eachSkip {α : Type} {f : Writer → α → Writer} {xs : List α} (h : Shown w n ds)
    (hf : ∀ x ∈ xs, ∀ w, Shown w n ds → Shown (f w x) n ds) : Shown (Gen.each xs f w) n ds := by
  induction xs generalizing w with
  | nil => exact h
  | cons x xs ih => exact ih (hf x List.mem_cons_self w h) fun y hy => hf y (List.mem_cons_of_mem _ hy)

/-! ## Kinds of lines -/

/-- Access modifiers. -/
def Access (a : Text) : Prop := a = lit! "public" ∨ a = lit! "private" ∨ a = lit! "internal"

theorem decl_access {a t : Text} (ha : Access a) (hc : class? (a ++ ' ' :: t) = none) : decl? (a ++ ' ' :: t) = declared? a t := by
  unfold decl?
  rw [hc]
  rcases ha with rfl | rfl | rfl
  · rfl
  · rfl
  · rfl

theorem access_start {a t : Text} (ha : Access a) : ∀ c r, a ++ t = c :: r → c ≠ ' ' := by
  rcases ha with rfl | rfl | rfl <;> (intro c r h; cases h; decide)

theorem access_nl {a : Text} (ha : Access a) : '\n' ∉ a := by rcases ha with rfl | rfl | rfl <;> decide

theorem not_mem_append {c : Char} {a b : Text} (ha : c ∉ a) (hb : c ∉ b) : c ∉ a ++ b := fun h => (List.mem_append.1 h).elim ha hb
theorem not_mem_cons {c x : Char} {b : Text} (hx : c ≠ x) (hb : c ∉ b) : c ∉ x :: b := fun h => by
  cases h with
  | head => exact hx rfl
  | tail _ h => exact hb h

theorem Shown.method (h : Shown w n ds) {a type name r l : Text} (ha : Access a) (ht : Open type) (htn : '\n' ∉ type) (hn : IsName name)
    (hr : '\n' ∉ r) (hl : l = a ++ ' ' :: (type ++ (' ' :: (name ++ '(' :: r)))) (hc : class? l = none) :
    Shown (w.writeln l) n (ds ++ [(n * 4, ⟨a, .method, type, bare name⟩)]) := by
  subst hl
  refine h.decl ?_ (access_start ha) ((decl_access ha hc).trans (declared_method ht hn r))
  exact not_mem_append (access_nl ha) (not_mem_cons (by decide) (not_mem_append htn (not_mem_cons (by decide)
    (not_mem_append (name_nl hn) (not_mem_cons (by decide) hr)))))

theorem Shown.ctor (h : Shown w n ds) {a name r l : Text} (ha : Access a) (hn : IsName name)
    (hr : '\n' ∉ r) (hl : l = a ++ ' ' :: (name ++ '(' :: r)) (hc : class? l = none) :
    Shown (w.writeln l) n (ds ++ [(n * 4, ⟨a, .ctor, [], name⟩)]) := by
  subst hl
  refine h.decl ?_ (access_start ha) ((decl_access ha hc).trans (declared_ctor hn r))
  exact not_mem_append (access_nl ha) (not_mem_cons (by decide) (not_mem_append (name_nl hn) (not_mem_cons (by decide) hr)))

theorem Shown.property (h : Shown w n ds) {a type name r l : Text} (ha : Access a) (ht : Open type) (htn : '\n' ∉ type) (hn : IsName name)
    (hr : '\n' ∉ r) (hl : l = a ++ ' ' :: (type ++ (' ' :: (name ++ (' ' :: '{' :: r))))) (hc : class? l = none) :
    Shown (w.writeln l) n (ds ++ [(n * 4, ⟨a, .property, type, name⟩)]) := by
  subst hl
  refine h.decl ?_ (access_start ha) ((decl_access ha hc).trans (declared_property ht hn r))
  exact not_mem_append (access_nl ha) (not_mem_cons (by decide) (not_mem_append htn (not_mem_cons (by decide)
    (not_mem_append (name_nl hn) (not_mem_cons (by decide) (not_mem_cons (by decide) hr))))))

theorem Shown.field (h : Shown w n ds) {a type name l : Text} (ha : Access a) (ht : Open type) (htn : '\n' ∉ type)
    (he : before? (lit! " =") type = none) (hn : IsName name) (hl : l = a ++ ' ' :: (type ++ (' ' :: (name ++ [';'])))) (hc : class? l = none) :
    Shown (w.writeln l) n (ds ++ [(n * 4, ⟨a, .field, type, name⟩)]) := by
  subst hl
  refine h.decl ?_ (access_start ha) ((decl_access ha hc).trans (declared_field ht he hn))
  exact not_mem_append (access_nl ha) (not_mem_cons (by decide) (not_mem_append htn (not_mem_cons (by decide)
    (not_mem_append (name_nl hn) (by decide)))))

theorem Shown.const (h : Shown w n ds) {a type name value l : Text} (ha : Access a) (ht : Open type) (htn : '\n' ∉ type)
    (hn : IsName name) (hv : IsName value) (hl : l = a ++ ' ' :: (type ++ (' ' :: (name ++ (lit! " = " ++ (value ++ [';']))))))
    (hc : class? l = none) : Shown (w.writeln l) n (ds ++ [(n * 4, ⟨a, .field, type, name⟩)]) := by
  subst hl
  refine h.decl ?_ (access_start ha) ((decl_access ha hc).trans (declared_const ht hn hv))
  exact not_mem_append (access_nl ha) (not_mem_cons (by decide) (not_mem_append htn (not_mem_cons (by decide)
    (not_mem_append (name_nl hn) (not_mem_append (by decide) (not_mem_append (name_nl hv) (by decide)))))))

/-- The opening line of a class. -/
theorem Shown.cls (h : Shown w n ds) {name l : Text} (hn : '\n' ∉ name) (hl : l = lit! "public sealed partial class " ++ (name ++ lit! " : IState {") ∨
    l = lit! "public sealed partial class " ++ (name ++ lit! " : IEnumState {")) :
    Shown (w.writeln l) n (ds ++ [(n * 4, ⟨lit! "public", .cls, [], name⟩)]) := by
  rcases hl with rfl | rfl
  · refine h.decl (not_mem_append (by decide) (not_mem_append hn (by decide))) (fun c t e => by cases e; decide) ?_
    unfold decl?
    rw [class_append]
  · refine h.decl (not_mem_append (by decide) (not_mem_append hn (by decide))) (fun c t e => by cases e; decide) ?_
    unfold decl?
    rw [class_append_enum]

/-- A line that begins with a name, followed by something else than a space, declares nothing. -/
theorem decl_name {a b : Text} {x : Char} (ha : ' ' ∉ a) (hx : x = '.' ∨ x = '<') : decl? (unindented (a ++ x :: b)) = none := by
  have hx' : x ≠ ' ' := by rcases hx with rfl | rfl <;> decide
  have hu : unindented (a ++ x :: b) = a ++ x :: b := by
    cases a with
    | nil => unfold unindented; rw [List.nil_append, List.dropWhile_cons]; simp [hx']
    | cons c a =>
      have : c ≠ ' ' := fun e => ha (e ▸ List.mem_cons_self)
      unfold unindented
      rw [List.cons_append, List.dropWhile_cons]
      simp [this]
  rw [hu]
  have key : ∀ (p : Text), ' ' ∉ p → '.' ∉ p → '<' ∉ p → ∀ u, after? (p ++ [' ']) (a ++ x :: b) ≠ some u := by
    intro p hp hd hl u h
    have h1 := after_some h
    have h2 : (a ++ x :: b).takeWhile (fun c => c != ' ') = (p ++ [' '] ++ u).takeWhile fun c => c != ' ' := by rw [h1]
    have ne : ∀ t : Text, ' ' ∉ t → ∀ c ∈ t, (c != ' ') = true := fun t ht c hc => by
      have : c ≠ ' ' := fun e => ht (e ▸ hc)
      simpa using this
    rw [List.takeWhile_append_of_pos (ne a ha), List.append_assoc, List.takeWhile_append_of_pos (ne p hp)] at h2
    have h3 : x ∈ p := by
      have e : List.takeWhile (fun c => c != ' ') ([' '] ++ u) = [] := by simp
      rw [e, List.append_nil] at h2
      rw [← h2, List.takeWhile_cons]
      simp [hx']
    rcases hx with rfl | rfl
    · exact hd h3
    · exact hl h3
  have none_of : ∀ {o : Option Text}, (∀ u, o ≠ some u) → o = none := fun {o} h => by
    cases o with
    | none => rfl
    | some u => exact absurd rfl (h u)
  have k1 : after? (lit! "public ") (a ++ x :: b) = none := none_of (key (lit! "public") (by decide) (by decide) (by decide))
  have k2 : after? (lit! "private ") (a ++ x :: b) = none := none_of (key (lit! "private") (by decide) (by decide) (by decide))
  have k3 : after? (lit! "internal ") (a ++ x :: b) = none := none_of (key (lit! "internal") (by decide) (by decide) (by decide))
  have kc : class? (a ++ x :: b) = none := by
    have : after? (lit! "public sealed partial class ") (a ++ x :: b) = none := none_of fun u h => by
      have := after_some h
      exact key (lit! "public") (by decide) (by decide) (by decide) (lit! "sealed partial class " ++ u)
        (by rw [this]; exact after_append (lit! "public ") (lit! "sealed partial class " ++ u))
    unfold class? between?
    rw [this]; rfl
  unfold decl?
  rw [kc, k1, k2, k3]

end Steit.Gen
