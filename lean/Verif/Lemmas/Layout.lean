import Verif.Spec.Layout

/-!
# Writer calls that keep text well bracketed and indented
-/

namespace Steit.Gen

open Spec

/-! ## Lines -/

theorem close_append : ∀ (a b : Text) (st : List Br), close st (a ++ b) = (close st a).bind fun st => close st b
  | [], _, _ => rfl
  | c :: a, b, st => by
    simp only [List.cons_append, close]
    split
    · exact close_append a b _
    split
    · exact close_append a b _
    split
    · split
      · exact close_append a b _
      · rfl
    split
    · split
      · exact close_append a b _
      · rfl
    split
    · rfl
    · exact close_append a b _

/-- Text without brackets and line breaks. -/
def Unbr (t : Text) : Prop := ∀ c ∈ t, c ∉ ['{', '}', '(', ')', '\n']

theorem Unbr.append {a b : Text} (ha : Unbr a) (hb : Unbr b) : Unbr (a ++ b) := by
  intro c hc
  rcases List.mem_append.1 hc with h | h
  · exact ha c h
  · exact hb c h

theorem isName_unbr {t : Text} (h : IsName t) : Unbr t := by
  intro c hc hm
  refine h c hc ?_
  simp only [List.mem_cons, List.not_mem_nil, or_false] at hm ⊢
  rcases hm with h | h | h | h | h <;> simp [h]

theorem close_unbr {t : Text} (h : Unbr t) (st : List Br) : close st t = some st := by
  induction t with
  | nil => rfl
  | cons c t ih =>
    have hc := h c List.mem_cons_self
    simp only [List.mem_cons, List.not_mem_nil, or_false, not_or] at hc
    simp only [close, hc, if_false]
    exact ih fun x hx => h x (List.mem_cons_of_mem _ hx)

/-- Text that closes the brackets it opens. -/
def Bal (t : Text) : Prop := ∀ st, close st t = some st

theorem Unbr.bal {t : Text} (h : Unbr t) : Bal t := close_unbr h

theorem isName_bal {t : Text} (h : IsName t) : Bal t := (isName_unbr h).bal

/-- The effect of a line given in pieces, balanced arguments left out. -/
def closeF : List Br → List Frag → Option (List Br)
  | st, [] => some st
  | st, .lit t :: fs =>
    match close st t with
    | none => none
    | some st => closeF st fs
  | st, .arg _ :: fs => closeF st fs

/-- All arguments are balanced. -/
def ArgsOk : List Frag → Prop
  | [] => True
  | .lit _ :: fs => ArgsOk fs
  | .arg t :: fs => Bal t ∧ ArgsOk fs

theorem close_fmt : ∀ {fs : List Frag} (st : List Br), ArgsOk fs → close st (fmt fs) = closeF st fs
  | [], _, _ => rfl
  | .lit t :: fs, st, h => by
    simp only [fmt, Frag.text, closeF, close_append]
    cases close st t with
    | none => rfl
    | some st' => exact close_fmt st' h
  | .arg t :: fs, st, h => by
    simp only [fmt, Frag.text, closeF, close_append, h.1 st]
    exact close_fmt st h.2

theorem fmt_bal {fs : List Frag} (h : ArgsOk fs) (hc : ∀ st, closeF st fs = some st) : Bal (fmt fs) :=
  fun st => (close_fmt st h).trans (hc st)

/-- A first character that neither closes a bracket nor is a space. -/
def Starts (c : Char) : Prop := c ≠ ' ' ∧ c ≠ '}' ∧ c ≠ ')'

instance (c : Char) : Decidable (Starts c) := inferInstanceAs (Decidable (_ ∧ _ ∧ _))

/-- Empty, or beginning like a line. -/
def Begins : Text → Prop
  | [] => True
  | c :: _ => Starts c

theorem isName_begins {t : Text} (h : IsName t) : Begins t := by
  cases t with
  | nil => trivial
  | cons c cs =>
    have hc := h c List.mem_cons_self
    unfold Plain at hc
    simp only [List.mem_cons, List.not_mem_nil, or_false, not_or] at hc
    exact ⟨hc.2.2.2.2.2, hc.2.1, hc.2.2.2.1⟩

/-- Pieces that begin like a line. -/
def FragsBegin : List Frag → Prop
  | [] => False
  | .lit [] :: _ => False
  | .lit (c :: _) :: _ => Starts c
  | .arg t :: fs => Begins t ∧ (t = [] → FragsBegin fs)

theorem fmt_begins : ∀ {fs : List Frag}, FragsBegin fs → ∃ c cs, fmt fs = c :: cs ∧ Starts c
  | .lit (c :: cs) :: fs, h => ⟨c, cs ++ fmt fs, rfl, h⟩
  | .arg [] :: fs, h => fmt_begins (fs := fs) (h.2 rfl)
  | .arg (c :: cs) :: fs, h => ⟨c, cs ++ fmt fs, rfl, h.1⟩

theorem lead_starts {c : Char} {cs : Text} (h : Starts c) : lead (c :: cs) = 0 := by
  simp only [lead]
  rw [if_neg]
  rintro (h' | h')
  · exact h.2.1 h'
  · exact h.2.2 h'

/-! ## Texts -/

theorem Spec.Laid.append {size : Nat} {a b c : List Br} {t u : Text} (h : Laid size a t b) (h' : Laid size b u c) :
    Laid size a (t ++ u) c := by
  induction h with
  | nil => exact h'
  | blank _ ih => exact .blank (ih h')
  | line hc hl _ ih =>
    simp only [List.append_assoc, List.cons_append]
    have := Laid.line hc hl (ih h')
    simp only [List.append_assoc, List.cons_append] at this
    exact this

/-- A writer that has written lines only: brackets open, level. -/
structure Doc (size : Nat) (w : Writer) (st : List Br) (n : Nat) : Prop where
  indentSize : w.indentSize = size
  level : w.level = n
  laid : Laid size [] w.out st

variable {size : Nat} {w : Writer} {st st' : List Br} {n : Nat}

theorem Doc.indent (h : Doc size w st n) : Doc size w.indent st (n + 1) := ⟨h.indentSize, by simp [Writer.indent, h.level], h.laid⟩

theorem Doc.outdent (h : Doc size w st (n + 1)) : Doc size w.outdent st n := by
  have hl := h.level
  unfold Writer.outdent
  rw [if_pos (by omega)]
  exact ⟨h.indentSize, by simp [hl], h.laid⟩

theorem Doc.newline (h : Doc size w st n) : Doc size w.newline st n := ⟨h.indentSize, h.level, h.laid.append (.blank .nil)⟩

theorem writeln_out (w : Writer) (l : Text) :
    w.writeln l = { w with out := w.out ++ (List.replicate (w.level * w.indentSize) ' ' ++ l ++ ['\n']) } := by
  simp [Writer.writeln, Writer.writeIndentation, Writer.write, Writer.newline]

theorem Doc.writeln (h : Doc size w st n) {c : Char} {l : Text} (hc : c ≠ ' ') (hn : n = st.length - lead (c :: l))
    (hl : close st (c :: l) = some st') : Doc size (w.writeln (c :: l)) st' n := by
  rw [writeln_out]
  refine ⟨h.indentSize, h.level, h.laid.append ?_⟩
  have := Laid.line (size := size) hc hl .nil
  rw [← hn] at this
  rw [h.level, h.indentSize]
  exact this

/-- A line of literal text. -/
theorem Doc.lit (h : Doc size w st n) {c : Char} {l : Text} (hl : close st (c :: l) = some st')
    (hc : Starts c := by decide) (hn : n = st.length := by rfl) : Doc size (w.writeln (c :: l)) st' n :=
  h.writeln hc.1 (by rw [lead_starts hc, hn]; rfl) hl

/-- A line with arguments. -/
theorem Doc.fmt (h : Doc size w st n) {fs : List Frag} (hl : closeF st fs = some st') (ha : ArgsOk fs)
    (hb : FragsBegin fs := by show Starts _; decide) (hn : n = st.length := by rfl) : Doc size (w.writeln (fmt fs)) st' n := by
  obtain ⟨c, cs, he, hc⟩ := fmt_begins hb
  have := close_fmt st ha
  rw [he] at this
  rw [he]
  exact h.lit (this.trans hl) hc hn

/-- `outdent`, then a closing bracket. -/
theorem Doc.closing {b : Br} (h : Doc size w (b :: st) (n + 1)) {c : Char} {l : Text} (hc : c = '}' ∨ c = ')') (hl : lead l = 0)
    (hcl : close (b :: st) (c :: l) = some st') (hn : n = st.length := by rfl) : Doc size (w.outdentWriteln (c :: l)) st' n := by
  refine h.outdent.writeln ?_ ?_ hcl
  · rcases hc with rfl | rfl <;> decide
  · simp only [lead]
    rw [if_pos hc, hl, List.length_cons]
    omega

theorem Doc.brace (h : Doc size w (.brace :: st) (n + 1)) (hn : n = st.length := by rfl) :
    Doc size (w.outdentWriteln (lit! "}")) st n := h.closing (.inl rfl) rfl rfl hn

theorem Doc.each {α : Type} {f : Writer → α → Writer} {xs : List α} (h : Doc size w st n)
    (hf : ∀ x ∈ xs, ∀ w, Doc size w st n → Doc size (f w x) st n) : Doc size (each xs f w) st n := by
  unfold Gen.each
  induction xs generalizing w with
  | nil => exact h
  | cons x xs ih =>
    exact ih (hf x List.mem_cons_self w h) fun y hy => hf y (List.mem_cons_of_mem _ hy)

theorem Doc.newlineIf (h : Doc size w st n) (b : Bool) : Doc size (if b then w.newline else w) st n := by
  cases b with
  | true => exact h.newline
  | false => exact h

theorem Doc.writelnSome (h : Doc size w st n) {p s : List Frag} {t : Option Text}
    (ht : ∀ u, t = some u → ∀ w, Doc size w st n → Doc size (w.writeln (Gen.fmt (p ++ [.arg u] ++ s))) st n) :
    Doc size (writelnSome p t s w) st n := by
  cases t with
  | none => exact h
  | some u => exact ht u rfl w h

/-- A line written in several steps. -/
theorem writeln_split (w : Writer) (a : Text) : (w.writeIndentation.write a).newline = w.writeln a := rfl

theorem write_write (w : Writer) (a b : Text) : (w.write a).write b = w.write (a ++ b) := by
  simp [Writer.write]

end Steit.Gen
