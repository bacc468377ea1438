import Verif.Spec.Tables
import Verif.Lemmas.CSharpGen

/-!
# What the reader of generated classes sees

The generator writes line by line; `Out w σ` says that the reader, having read all the writer has written, is in state `σ`.
-/

namespace Steit.Gen

open Steit.Gen.Spec Steit.Spec

set_option maxRecDepth 8192

/-! ## Text -/

theorem after_append : ∀ (p t : Text), after? p (p ++ t) = some t
  | [], _ => rfl
  | c :: p, t => by simp only [List.cons_append, after?, if_true]; exact after_append p t

theorem after_some : ∀ {p t u : Text}, after? p t = some u → t = p ++ u
  | [], t, u, h => by cases h; rfl
  | c :: p, [], u, h => (nomatch h)
  | c :: p, d :: t, u, h => by
    unfold after? at h
    split at h
    · rename_i hc
      subst hc
      rw [after_some h]; rfl
    · cases h

theorem before_append (s t : Text) : before? s (t ++ s) = some t := by
  simp [before?, List.reverse_append, after_append]

theorem before_some {s t u : Text} (h : before? s t = some u) : t = u ++ s := by
  unfold before? at h
  obtain ⟨r, hr, rfl⟩ := Option.map_eq_some_iff.1 h
  have := congrArg List.reverse (after_some hr)
  simpa using this

theorem between_append (p m s : Text) : between? p s (p ++ (m ++ s)) = some m := by
  simp [between?, after_append, before_append]

theorem between_suffix {p s t u : Text} (h : between? p s t = some u) : s <:+ t := by
  unfold between? at h
  cases ha : after? p t with
  | none => rw [ha] at h; cases h
  | some v =>
    rw [ha] at h
    have h1 := after_some ha
    have h2 := before_some h
    exact ⟨p ++ u, by rw [h1, h2, List.append_assoc]⟩

theorem upTo_append {c : Char} {a b : Text} (h : c ∉ a) : upTo c (a ++ c :: b) = (a, c :: b) := by
  induction a with
  | nil => simp [upTo]
  | cons x a ih =>
    have hx : x ≠ c := fun e => h (e ▸ List.mem_cons_self)
    have := ih fun hm => h (List.mem_cons_of_mem _ hm)
    unfold upTo at this ⊢
    injection this with h1 h2
    have hb : (x != c) = true := by simpa using hx
    simp only [List.cons_append, List.takeWhile_cons, List.dropWhile_cons, hb, if_true, h1, h2]

theorem number_decimal (n : U32) : number? (decimal n) = some n.toNat := by
  unfold number?
  have h1 : decimal n ≠ [] := by
    intro h
    have := Nat.ofDigitChars_ten_toDigits (n := n.toNat)
    unfold decimal at h
    cases hn : Nat.toDigits 10 n.toNat with
    | nil =>
      have h2 : (Nat.toDigits 10 n.toNat).length > 0 := Nat.length_toDigits_pos
      rw [hn] at h2
      exact absurd h2 (Nat.lt_irrefl _)
    | cons a b => rw [hn] at h; cases h
  have h2 : (decimal n).all Char.isDigit = true :=
    List.all_eq_true.2 fun c hc => Nat.isDigit_of_mem_toDigits (by decide) (by decide) hc
  rw [if_pos ⟨h1, h2⟩]
  have := Nat.ofDigitChars_ten_toDigits (n := n.toNat)
  rw [Nat.ofDigitChars_eq_foldl] at this
  exact congrArg some this

theorem decimal_no (n : U32) {c : Char} (h : c.isDigit = false) : c ∉ decimal n := fun hm => by
  have := Nat.isDigit_of_mem_toDigits (by decide) (by decide) hm
  rw [h] at this
  cases this

theorem name_no_space {t : Text} (h : IsName t) : ' ' ∉ t := fun hm => h _ hm (by decide)
theorem name_nl {t : Text} (h : IsName t) : '\n' ∉ t := fun hm => h _ hm (by decide)
theorem unbr_nl {t : Text} (h : Unbr t) : '\n' ∉ t := fun hm => h _ hm (by decide)
theorem unbr_paren {t : Text} (h : Unbr t) : '(' ∉ t := fun hm => h _ hm (by decide)

theorem case_append (n : U32) (s : Text) : case? (lit! "case " ++ (decimal n ++ (lit! ": " ++ s))) = some (n.toNat, s) := by
  unfold case?
  have h : upTo ':' (decimal n ++ (lit! ": " ++ s)) = (decimal n, lit! ": " ++ s) := upTo_append (decimal_no n (by decide))
  rw [after_append, Option.bind_some, h]
  simp only [number_decimal, Option.bind_some]
  rw [after_append]; rfl

/-! ## Lines -/

/-- Read lines. -/
def scanLines (ls : List Text) (s : Scan) : Scan := ls.foldl (fun (s : Scan) l => s.line (unindented l)) s

/-- The reader is in state `σ` after what the writer has written. -/
def Out (w : Writer) (σ : Scan) : Prop :=
  ∃ ls : List Text, (∀ l ∈ ls, '\n' ∉ l) ∧ w.out = (ls.map (· ++ ['\n'])).flatten ∧ scanLines ls ⟨.elsewhere, []⟩ = σ

theorem linesOf_line {l : Text} (h : '\n' ∉ l) (t : Text) : linesOf (l ++ '\n' :: t) = l :: linesOf t := by
  induction l with
  | nil => simp [linesOf]
  | cons c l ih =>
    have hc : c ≠ '\n' := fun e => h (e ▸ List.mem_cons_self)
    simp only [List.cons_append, linesOf, if_neg hc, ih fun hm => h (List.mem_cons_of_mem _ hm)]

theorem linesOf_lines : ∀ {ls : List Text}, (∀ l ∈ ls, '\n' ∉ l) → linesOf (ls.map (· ++ ['\n'])).flatten = ls ++ [[]]
  | [], _ => rfl
  | l :: ls, h => by
    simp only [List.map_cons, List.flatten_cons, List.append_assoc, List.singleton_append]
    rw [linesOf_line (h l List.mem_cons_self), linesOf_lines fun x hx => h x (List.mem_cons_of_mem _ hx)]
    rfl

theorem Out.classes {w : Writer} {cs : List Class} (h : Out w ⟨.elsewhere, cs⟩) : classesOf w.finish = cs.reverse := by
  obtain ⟨ls, hn, ho, hs⟩ := h
  unfold classesOf Writer.finish
  rw [ho, linesOf_lines hn, List.foldl_append]
  unfold scanLines at hs
  rw [hs]
  rfl

theorem out_new (n : Nat) : Out (.new n) ⟨.elsewhere, []⟩ := ⟨[], fun l hl => (nomatch hl), rfl, rfl⟩

theorem unindented_replicate (n : Nat) (l : Text) : unindented (List.replicate n ' ' ++ l) = unindented l := by
  induction n with
  | zero => rfl
  | succ n ih => rw [List.replicate_succ, List.cons_append]; exact ih

variable {w : Writer} {σ σ' : Scan} {cs : List Class}

theorem Out.writeln (h : Out w σ) {l : Text} (hn : '\n' ∉ l) (he : σ.line (unindented l) = σ') : Out (w.writeln l) σ' := by
  obtain ⟨ls, h1, h2, h3⟩ := h
  refine ⟨ls ++ [List.replicate (w.level * w.indentSize) ' ' ++ l], ?_, ?_, ?_⟩
  · intro x hx
    rcases List.mem_append.1 hx with hx | hx
    · exact h1 x hx
    · rw [List.mem_singleton.1 hx, List.mem_append]
      rintro (hm | hm)
      · exact absurd (List.eq_of_mem_replicate hm) (by decide)
      · exact hn hm
  · rw [writeln_out]
    simp [h2]
  · rw [scanLines, List.foldl_append]
    unfold scanLines at h3
    rw [h3]
    simp only [List.foldl_cons, List.foldl_nil, unindented_replicate]
    exact he

theorem Out.indent (h : Out w σ) : Out w.indent σ := h

theorem Out.outdent (h : Out w σ) : Out w.outdent σ := by
  unfold Writer.outdent
  split
  · exact h
  · exact h

theorem Out.newline (h : Out w ⟨.elsewhere, cs⟩) : Out w.newline ⟨.elsewhere, cs⟩ := by
  obtain ⟨ls, h1, h2, h3⟩ := h
  refine ⟨ls ++ [[]], ?_, ?_, ?_⟩
  · intro x hx
    rcases List.mem_append.1 hx with hx | hx
    · exact h1 x hx
    · rw [List.mem_singleton.1 hx]; exact fun hm => (nomatch hm)
  · simp [Writer.newline, h2]
  · rw [scanLines, List.foldl_append]
    unfold scanLines at h3
    rw [h3]
    rfl

/-- A line of literal text. -/
theorem Out.lit (h : Out w σ) {l : Text} (he : σ.line (unindented l) = σ') (hn : (l.all (· != '\n')) = true := by rfl) :
    Out (w.writeln l) σ' :=
  h.writeln (fun hm => by have := List.all_eq_true.1 hn _ hm; revert this; decide) he

/-- Pieces without line breaks. -/
def NoBreaks : List Frag → Prop
  | [] => True
  | .lit t :: fs => (t.all (· != '\n')) = true ∧ NoBreaks fs
  | .arg t :: fs => '\n' ∉ t ∧ NoBreaks fs

theorem NoBreaks.fmt : ∀ {fs : List Frag}, NoBreaks fs → '\n' ∉ fmt fs
  | [], _, h => (nomatch h)
  | .lit t :: fs, ⟨h1, h2⟩, h => by
    rcases List.mem_append.1 h with h | h
    · have := List.all_eq_true.1 h1 _ h; revert this; decide
    · exact h2.fmt h
  | .arg t :: fs, ⟨h1, h2⟩, h => by
    rcases List.mem_append.1 h with h | h
    · exact h1 h
    · exact h2.fmt h

/-- The literal text a line ends with. -/
def lastLit : List Frag → Text
  | [] => []
  | [.lit t] => t
  | [.arg _] => []
  | _ :: f :: fs => lastLit (f :: fs)

theorem lastLit_suffix : ∀ fs : List Frag, lastLit fs <:+ fmt fs
  | [] => ⟨[], rfl⟩
  | [.lit t] => ⟨[], by simp [lastLit, fmt, Frag.text]⟩
  | [.arg t] => ⟨t, by simp [lastLit, fmt, Frag.text]⟩
  | f :: g :: fs => by
    have : lastLit (f :: g :: fs) = lastLit (g :: fs) := by cases f <;> rfl
    rw [this]
    exact (lastLit_suffix (g :: fs)).trans ⟨f.text, rfl⟩

/-- The ends of the lines that matter outside of switches. -/
def endings : List Text := [lit! "public WireType? GetWireType(UInt32 tag) {", lit! "public IState GetNested(UInt32 tag) {",
  lit! "public void ReplaceAt(UInt32 tag, WireType wireType, IReader reader, bool shouldNotify) {", lit! "switch (tag) {",
  lit! " : IState {", lit! " : IEnumState {", lit! " { get; private set; }", lit! ") { }", lit! "));"]

/-- No line that matters ends like this. -/
def Idle (s : Text) : Bool := endings.all fun q => !q.isSuffixOf s && !s.isSuffixOf q

theorem idle_line {s l : Text} (hi : Idle s = true) (hs : s <:+ l) : Scan.line ⟨.elsewhere, cs⟩ (unindented l) = ⟨.elsewhere, cs⟩ := by
  have key : ∀ q ∈ endings, ¬ q <:+ unindented l := by
    intro q hq hsuf
    have h1 : q <:+ l := hsuf.trans (List.dropWhile_suffix _)
    have h2 := List.all_eq_true.1 hi q hq
    simp only [Bool.and_eq_true, Bool.not_eq_true', ← Bool.not_eq_true, List.isSuffixOf_iff_suffix] at h2
    rcases List.suffix_or_suffix_of_suffix h1 hs with h | h
    · exact h2.1 h
    · exact h2.2 h
  have ne : ∀ q ∈ endings, unindented l ≠ q := fun q hq he => key q hq (he ▸ List.suffix_rfl)
  have bt : ∀ p, ∀ q ∈ endings, between? p q (unindented l) = none := fun p q hq => by
    cases h : between? p q (unindented l) with
    | none => rfl
    | some u => exact absurd (between_suffix h) (key q hq)
  have e1 : class? (unindented l) = none := by
    unfold class?
    rw [bt _ _ (by simp [endings]), bt _ _ (by simp [endings])]; rfl
  have e2 : prop? (unindented l) = none := by
    unfold prop?
    rw [bt _ _ (by simp [endings])]; rfl
  have e3 : made? (unindented l) = none := by
    unfold made?
    rw [bt _ _ (by simp [endings])]; rfl
  have e4 : start? (unindented l) = none := by
    unfold start?
    rw [bt _ _ (by simp [endings])]; rfl
  unfold Scan.line
  simp only [e1, e2, e3, e4]
  rw [if_neg (ne _ (by simp [endings])), if_neg (ne _ (by simp [endings])), if_neg (ne _ (by simp [endings])),
    if_neg (ne _ (by simp [endings]))]

/-- A line that does not matter, by its end. -/
theorem Out.idle (h : Out w ⟨.elsewhere, cs⟩) {fs : List Frag} (hn : NoBreaks fs) (hi : Idle (lastLit fs) = true := by rfl) :
    Out (w.writeln (fmt fs)) ⟨.elsewhere, cs⟩ :=
  h.writeln hn.fmt (idle_line hi (lastLit_suffix fs))

/-- A line with arguments. -/
theorem Out.fmt (h : Out w σ) {fs : List Frag} (hn : NoBreaks fs) (he : σ.line (unindented (fmt fs)) = σ') : Out (w.writeln (fmt fs)) σ' :=
  h.writeln hn.fmt he

theorem Out.newlineIf (h : Out w ⟨.elsewhere, cs⟩) (b : Bool) : Out (if b then w.newline else w) ⟨.elsewhere, cs⟩ := by
  cases b with
  | true => exact h.newline
  | false => exact h

/-- A loop, the reader's state depending on the items done. -/
theorem Out.each {α : Type} {f : Writer → α → Writer} {xs : List α} {S : List α → Scan} (h : Out w (S []))
    (hf : ∀ done x, x ∈ xs → ∀ w, Out w (S done) → Out (f w x) (S (done ++ [x]))) : Out (each xs f w) (S xs) := by
  suffices ∀ (rest done : List α) (w : Writer), (∀ x ∈ rest, x ∈ xs) → Out w (S done) → Out (Gen.each rest f w) (S (done ++ rest)) by
    exact this xs [] w (fun _ hx => hx) h
  intro rest
  induction rest with
  | nil => intro done w _ h; rw [List.append_nil]; exact h
  | cons x rest ih =>
    intro done w hm h
    have := ih (done ++ [x]) (f w x) (fun y hy => hm y (List.mem_cons_of_mem _ hy)) (hf done x (hm x List.mem_cons_self) w h)
    rw [List.append_assoc] at this
    exact this

/-- A loop of lines that do not matter. -/
theorem Out.eachIdle {α : Type} {f : Writer → α → Writer} {xs : List α} (h : Out w ⟨.elsewhere, cs⟩)
    (hf : ∀ x ∈ xs, ∀ w, Out w ⟨.elsewhere, cs⟩ → Out (f w x) ⟨.elsewhere, cs⟩) : Out (Gen.each xs f w) ⟨.elsewhere, cs⟩ :=
  Out.each (S := fun _ => ⟨.elsewhere, cs⟩) h fun _ x hx w h => hf x hx w h

/-- A loop of cases. -/
theorem Out.cases {α : Type} {g : Writer → α → Writer} {xs : List α} {which : Which} {c : Class} {e : α → Option (Nat × Text)}
    (h : Out w ⟨.inside which, c :: cs⟩)
    (hf : ∀ x ∈ xs, match e x with
      | none => ∀ w, g w x = w
      | some (n, s) => ∃ tag : U32, tag.toNat = n ∧ '\n' ∉ s ∧ ∀ w, g w x = w.writeln (lit! "case " ++ (decimal tag ++ (lit! ": " ++ s)))) :
    Out (Gen.each xs g w) ⟨.inside which, c.change which (fun s => ⟨s.cases ++ xs.filterMap e, s.dflt⟩) :: cs⟩ := by
  have h0 : c.change which (fun s => ⟨s.cases ++ ([] : List α).filterMap e, s.dflt⟩) = c := by
    cases which <;> simp [Class.change]
  refine Out.each (S := fun done => ⟨.inside which, c.change which (fun s => ⟨s.cases ++ done.filterMap e, s.dflt⟩) :: cs⟩)
    (by simp only [h0]; exact h) fun done x hx w h => ?_
  have := hf x hx
  cases he : e x with
  | none =>
    rw [he] at this
    rw [this w]
    simp only [List.filterMap_append, List.filterMap_cons, he, List.filterMap_nil, List.append_nil]
    exact h
  | some ns =>
    obtain ⟨n, s⟩ := ns
    rw [he] at this
    obtain ⟨tag, rfl, hnl, hw⟩ := this
    rw [hw w]
    refine h.writeln ?_ ?_
    · intro hm
      rcases List.mem_append.1 hm with hm | hm
      · revert hm; decide
      rcases List.mem_append.1 hm with hm | hm
      · exact decimal_no tag (by decide) hm
      rcases List.mem_append.1 hm with hm | hm
      · revert hm; decide
      · exact hnl hm
    · have hu : unindented (lit! "case " ++ (decimal tag ++ (lit! ": " ++ s))) = lit! "case " ++ (decimal tag ++ (lit! ": " ++ s)) := rfl
      rw [hu]
      unfold Scan.line
      simp only [case_append, Scan.change]
      cases which <;> simp [Class.change, Switch.case, List.filterMap_append, he, List.append_assoc]

end Steit.Gen
