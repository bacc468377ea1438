import Verif.Lemmas.MembersGen

/-!
# When generated classes obey the rules on names
-/

namespace Steit.Gen

open Steit.Gen.Spec Steit.Spec

set_option maxRecDepth 8192

/-! ## Type parameters -/

theorem commaParts_append {a : Text} (h : ',' ∉ a) (b : Text) : commaParts (a ++ ',' :: b) = a :: commaParts b := by
  induction a with
  | nil => simp [commaParts]
  | cons c a ih =>
    have hc : c ≠ ',' := fun e => h (e ▸ List.mem_cons_self)
    simp only [List.cons_append, commaParts, if_neg hc, ih fun hm => h (List.mem_cons_of_mem _ hm)]

theorem commaParts_self {a : Text} (h : ',' ∉ a) : commaParts a = [a] := by
  induction a with
  | nil => rfl
  | cons c a ih =>
    have hc : c ≠ ',' := fun e => h (e ▸ List.mem_cons_self)
    simp only [commaParts, if_neg hc, ih fun hm => h (List.mem_cons_of_mem _ hm)]

theorem unindented_name {t : Text} (h : ' ' ∉ t) : unindented t = t := by
  cases t with
  | nil => rfl
  | cons c t =>
    have hc : c ≠ ' ' := fun e => h (e ▸ List.mem_cons_self)
    unfold unindented
    rw [List.dropWhile_cons]
    simp [hc]

theorem commaParts_ne (b : Text) : commaParts b ≠ [] := by
  cases b with
  | nil => exact fun h => (nomatch h)
  | cons c b =>
    unfold commaParts
    split
    · exact fun h => (nomatch h)
    · split <;> exact fun h => (nomatch h)

theorem commaParts_space (b : Text) : (commaParts (' ' :: b)).map unindented = (commaParts b).map unindented := by
  simp only [commaParts]
  rw [if_neg (by decide)]
  cases h : commaParts b with
  | nil => exact absurd h (commaParts_ne b)
  | cons p ps => rfl

theorem commaParts_join : ∀ {ts : List Text}, ts ≠ [] → (∀ t ∈ ts, ',' ∉ t ∧ ' ' ∉ t) → (commaParts (joinComma ts)).map unindented = ts
  | [], h, _ => absurd rfl h
  | [t], _, h => by
    have := h t List.mem_cons_self
    simp only [joinComma, commaParts_self this.1, List.map_cons, List.map_nil, unindented_name this.2]
  | t :: u :: ts, _, h => by
    have ht := h t List.mem_cons_self
    have ih := commaParts_join (ts := u :: ts) (by simp) fun x hx => h x (List.mem_cons_of_mem _ hx)
    have e : joinComma (t :: u :: ts) = t ++ ',' :: (' ' :: joinComma (u :: ts)) := by simp [joinComma]
    rw [e, commaParts_append ht.1, List.map_cons, commaParts_space, ih, unindented_name ht.2]

theorem paramsOf_typeName {name : Text} {ps : List String} (hb : '<' ∉ name) (hp : ∀ p ∈ ps, IsIdent p.toList) :
    paramsOf (name ++ typeParams ps) = ps.map String.toList := by
  unfold typeParams
  cases ps with
  | nil =>
    have : (upTo '<' (name ++ [])).2 = [] := by
      rw [List.append_nil]
      exact dropWhile_all fun x hx => by
        have : x ≠ '<' := fun e => hb (e ▸ hx)
        simpa using this
    simp only [List.isEmpty_nil, if_true, paramsOf, this]
    rfl
  | cons p ps =>
    have e : (upTo '<' (name ++ fmt (fmt! "<{}>" joinComma ((p :: ps).map String.toList)))).2 =
        ['<'] ++ (joinComma ((p :: ps).map String.toList) ++ ['>']) := congrArg Prod.snd (upTo_append hb)
    simp only [List.isEmpty_cons, Bool.false_eq_true, if_false, paramsOf]
    rw [e, between_append]
    refine commaParts_join (by simp) fun t ht => ?_
    obtain ⟨q, hq, rfl⟩ := List.mem_map.1 ht
    exact ⟨(hp q hq).2.2.2, name_no_space (hp q hq).1⟩

/-! ## Members by indentation -/

/-- Every class among declarations obeys the rules on names. -/
def CleanOutline (ds : List (Nat × Decl)) : Prop :=
  ∀ pre n d post, ds = pre ++ (n, d) :: post → d.kind = .cls → Clean d.name (membersAfter n post)

theorem cleanOutline_nil : CleanOutline [] := by
  intro pre n d post h
  cases pre <;> cases h

theorem cleanOutline_cons {n : Nat} {d : Decl} {ds : List (Nat × Decl)} :
    CleanOutline ((n, d) :: ds) ↔ (d.kind = .cls → Clean d.name (membersAfter n ds)) ∧ CleanOutline ds := by
  constructor
  · intro h
    exact ⟨h [] n d ds rfl, fun pre m d' post e => h ((n, d) :: pre) m d' post (by rw [e]; rfl)⟩
  · rintro ⟨h1, h2⟩ pre m d' post e
    cases pre with
    | nil => cases e; exact h1
    | cons x pre => cases e; exact h2 pre m d' post rfl

theorem cleanOutline_members {n : Nat} {ds : List (Nat × Decl)} : ∀ {ms : List Decl}, (∀ d ∈ ms, d.kind ≠ .cls) →
    (CleanOutline (ms.map (fun d => (n, d)) ++ ds) ↔ CleanOutline ds)
  | [], _ => Iff.rfl
  | m :: ms, h => by
    rw [List.map_cons, List.cons_append, cleanOutline_cons, cleanOutline_members fun d hd => h d (List.mem_cons_of_mem _ hd)]
    exact ⟨fun h => h.2, fun h' => ⟨fun e => absurd e (h m List.mem_cons_self), h'⟩⟩

/-- The members of a class after which nothing follows at a deeper level. -/
theorem membersAfter_level {n : Nat} {ms : List Decl} {ds : List (Nat × Decl)} (h : ∀ d, ds.head? = some d → d.1 ≤ n) :
    membersAfter n (ms.map (fun d => (n + 4, d)) ++ ds) = ms := by
  unfold membersAfter
  rw [List.takeWhile_append_of_pos (by
    intro x hx
    obtain ⟨d, _, rfl⟩ := List.mem_map.1 hx
    simp)]
  have : ds.takeWhile (fun d => decide (n < d.1)) = [] := by
    cases ds with
    | nil => rfl
    | cons d ds =>
      have := h d rfl
      rw [List.takeWhile_cons]
      simp only [decide_eq_true_eq]
      rw [if_neg (by omega)]
  rw [this, List.append_nil, List.filter_eq_self.2 (by
    intro x hx
    obtain ⟨d, _, rfl⟩ := List.mem_map.1 hx
    simp), List.map_map]
  exact List.map_id' ms

theorem structMembers_kinds {access cls : Text} {props : List (Text × Text)} : ∀ d ∈ structMembers access cls props, d.kind ≠ .cls := by
  intro d hd
  simp only [structMembers, commonMethods, List.mem_append, List.mem_map, List.mem_cons, List.not_mem_nil, or_false] at hd
  rcases hd with ((((((rfl | ⟨x, _, rfl⟩) | rfl) | ⟨x, _, rfl⟩) | ⟨x, _, rfl⟩) | rfl) | hd) | rfl
  · decide
  · exact fun h => (nomatch h)
  · exact fun h => (nomatch h)
  · exact fun h => (nomatch h)
  · exact fun h => (nomatch h)
  · exact fun h => (nomatch h)
  · rcases hd with rfl | rfl | rfl | rfl | rfl | rfl | rfl <;> exact fun h => (nomatch h)
  · exact fun h => (nomatch h)

theorem enumMembers_kinds {cls : Text} {vs : List (Text × Text)} : ∀ d ∈ enumMembers cls vs, d.kind ≠ .cls := by
  intro d hd
  simp only [enumMembers, commonMethods, List.mem_append, List.mem_map, List.mem_cons, List.not_mem_nil, or_false] at hd
  rcases hd with ((((((⟨x, _, rfl⟩ | hd) | ⟨x, _, rfl⟩) | hd) | ⟨x, _, rfl⟩) | hd) | hd) | rfl
  · exact fun h => (nomatch h)
  · rcases hd with rfl | rfl | rfl <;> exact fun h => (nomatch h)
  · exact fun h => (nomatch h)
  · rcases hd with rfl | rfl <;> exact fun h => (nomatch h)
  · exact fun h => (nomatch h)
  · rcases hd with rfl | rfl <;> exact fun h => (nomatch h)
  · rcases hd with rfl | rfl | rfl | rfl | rfl | rfl | rfl <;> exact fun h => (nomatch h)
  · exact fun h => (nomatch h)

/-! ## Names of members -/

theorem memberNames_append (a b : List Decl) : memberNames (a ++ b) = memberNames a ++ memberNames b := by
  simp [memberNames]

theorem memberNames_map {α : Type} {f : α → Decl} {g : α → Text} {xs : List α} (h : ∀ x ∈ xs, (f x).kind ≠ .ctor ∧ bare (f x).name = g x) :
    memberNames (xs.map f) = xs.map g := by
  induction xs with
  | nil => rfl
  | cons x xs ih =>
    have hx := h x List.mem_cons_self
    have := ih fun y hy => h y (List.mem_cons_of_mem _ hy)
    unfold memberNames at this ⊢
    have hk : ((f x).kind != Kind.ctor) = true := by simpa using hx.1
    rw [List.map_cons, List.filter_cons, if_pos hk, List.map_cons, this, hx.2, List.map_cons]

theorem structMembers_names {access cls : Text} {props : List (Text × Text)} (h : ∀ x ∈ props.map Prod.snd, '<' ∉ x) :
    memberNames (structMembers access cls props) = [lit! "Path"] ++ (props.map Prod.snd ++ ((props.map Prod.snd).map eventName ++
      ((props.map Prod.snd).map clearName ++ (commonNames ++ [lit! "MaybeNotify"])))) := by
  have hx : ∀ x ∈ props, '<' ∉ x.2 := fun x hx => h x.2 (List.mem_map_of_mem hx)
  unfold structMembers
  simp only [memberNames_append, List.append_assoc]
  rw [memberNames_map (g := Prod.snd), memberNames_map (g := fun x => eventName x.2), memberNames_map (g := fun x => clearName x.2)]
  · simp only [List.map_map]
    rfl
  · exact fun x hm => ⟨fun h => (nomatch h), clear_bare (hx x hm)⟩
  · exact fun x hm => ⟨fun h => (nomatch h), bare_self (not_mem_append (by decide) (not_mem_append (hx x hm) (by decide)))⟩
  · exact fun x hm => ⟨fun h => (nomatch h), bare_self (hx x hm)⟩

theorem eventName_inj {x y : Text} (h : eventName x = eventName y) : x = y :=
  List.append_cancel_right (List.append_cancel_left h)

theorem clearName_inj {x y : Text} (h : clearName x = clearName y) : x = y :=
  List.append_cancel_right (List.append_cancel_left h)

theorem event_clear (x y : Text) : eventName x ≠ clearName y := fun h => (nomatch h)

theorem event_reserved (x : Text) : eventName x ∉ structReserved := by
  intro h
  simp only [structReserved, commonNames, List.mem_append, List.mem_cons, List.not_mem_nil, or_false] at h
  rcases h with (h | h) | h | h | h | h | h | h | h | h <;> exact (nomatch h)

theorem clear_reserved {x : Text} (h : clearName x ∈ structReserved) : x = [] := by
  simp only [structReserved, commonNames, List.mem_append, List.mem_cons, List.not_mem_nil, or_false] at h
  rcases h with (h | h) | h | h | h | h | h | h | h | h
  · exact (nomatch h)
  · exact (nomatch h)
  · have : x ++ lit! "UpdateHandlers" = [] ++ lit! "UpdateHandlers" := List.append_cancel_left (as := lit! "Clear") h
    exact List.append_cancel_right this
  all_goals exact (nomatch h)

theorem nodup_map {α β : Type} {f : α → β} (hf : ∀ x y, f x = f y → x = y) {xs : List α} : (xs.map f).Nodup ↔ xs.Nodup := by
  induction xs with
  | nil => simp
  | cons x xs ih =>
    rw [List.map_cons, List.nodup_cons, List.nodup_cons, ih, List.mem_map]
    refine and_congr_left fun _ => not_congr ⟨?_, fun h => ⟨x, h, rfl⟩⟩
    rintro ⟨y, hy, e⟩
    rwa [← hf _ _ e]

/-- The names of the members of a class of a struct. -/
def structNames (xs : List Text) : List Text :=
  [lit! "Path"] ++ (xs ++ (xs.map eventName ++ (xs.map clearName ++ (commonNames ++ [lit! "MaybeNotify"]))))

theorem mem_structNames {xs : List Text} {n : Text} :
    n ∈ structNames xs ↔ n ∈ structReserved ∨ ∃ x ∈ xs, n = x ∨ n = eventName x ∨ n = clearName x := by
  simp only [structNames, structReserved, List.mem_append, List.mem_map, List.mem_cons, List.not_mem_nil, or_false]
  constructor
  · rintro (h | h | ⟨x, h, rfl⟩ | ⟨x, h, rfl⟩ | h | h)
    · exact .inl (.inl (.inl h))
    · exact .inr ⟨n, h, .inl rfl⟩
    · exact .inr ⟨x, h, .inr (.inl rfl)⟩
    · exact .inr ⟨x, h, .inr (.inr rfl)⟩
    · exact .inl (.inr h)
    · exact .inl (.inl (.inr h))
  · rintro (((h | h) | h) | ⟨x, h, rfl | rfl | rfl⟩)
    · exact .inl h
    · exact .inr (.inr (.inr (.inr (.inr h))))
    · exact .inr (.inr (.inr (.inr (.inl h))))
    · exact .inr (.inl h)
    · exact .inr (.inr (.inl ⟨x, h, rfl⟩))
    · exact .inr (.inr (.inr (.inl ⟨x, h, rfl⟩)))

theorem structNames_nodup {xs : List Text} : (structNames xs).Nodup ↔
    xs.Nodup ∧ ∀ x ∈ xs, x ≠ [] ∧ x ∉ structReserved ∧ ∀ y ∈ xs, x ≠ eventName y ∧ x ≠ clearName y := by
  have hR : (commonNames ++ [lit! "MaybeNotify"]).Nodup := by decide
  have hR' : ∀ n ∈ commonNames ++ [lit! "MaybeNotify"], n ∈ structReserved := by decide
  have hP : (lit! "Path") ∈ structReserved := by decide
  have hPR : (lit! "Path") ∉ commonNames ++ [lit! "MaybeNotify"] := by decide
  have hres : ∀ n ∈ structReserved, n = lit! "Path" ∨ n ∈ commonNames ++ [lit! "MaybeNotify"] := by decide
  unfold structNames
  simp only [List.nodup_append, nodup_map @eventName_inj, nodup_map @clearName_inj]
  constructor
  · rintro ⟨_, ⟨hx, ⟨_, ⟨_, _, hc⟩, he⟩, hd⟩, hp⟩
    refine ⟨hx, fun x hm => ⟨?_, ?_, fun y hy => ⟨?_, ?_⟩⟩⟩
    · rintro rfl
      exact hc (clearName []) (List.mem_map_of_mem hm) (lit! "ClearUpdateHandlers") (by decide) rfl
    · intro h
      rcases hres x h with rfl | h
      · exact hp _ List.mem_cons_self _ (List.mem_append_left _ hm) rfl
      · exact hd x hm x (List.mem_append_right _ (List.mem_append_right _ h)) rfl
    · exact fun e => hd x hm _ (List.mem_append_left _ (List.mem_map_of_mem hy)) e
    · exact fun e => hd x hm _ (List.mem_append_right _ (List.mem_append_left _ (List.mem_map_of_mem hy))) e
  · rintro ⟨hx, h⟩
    have hC : ∀ a ∈ xs.map clearName, ∀ b ∈ commonNames ++ [lit! "MaybeNotify"], a ≠ b := by
      intro a ha b hb e
      obtain ⟨x, hm, rfl⟩ := List.mem_map.1 ha
      exact (h x hm).1 (clear_reserved (e ▸ hR' b hb))
    have hE : ∀ a ∈ xs.map eventName, ∀ b ∈ xs.map clearName ++ (commonNames ++ [lit! "MaybeNotify"]), a ≠ b := by
      intro a ha b hb e
      obtain ⟨x, hm, rfl⟩ := List.mem_map.1 ha
      rcases List.mem_append.1 hb with hb | hb
      · obtain ⟨y, hy, rfl⟩ := List.mem_map.1 hb
        exact event_clear x y e
      · exact event_reserved x (e ▸ hR' b hb)
    have hX : ∀ a ∈ xs, ∀ b ∈ xs.map eventName ++ (xs.map clearName ++ (commonNames ++ [lit! "MaybeNotify"])), a ≠ b := by
      intro a ha b hb e
      rcases List.mem_append.1 hb with hb | hb
      · obtain ⟨y, hy, rfl⟩ := List.mem_map.1 hb
        exact ((h a ha).2.2 y hy).1 e
      rcases List.mem_append.1 hb with hb | hb
      · obtain ⟨y, hy, rfl⟩ := List.mem_map.1 hb
        exact ((h a ha).2.2 y hy).2 e
      · exact (h a ha).2.1 (e ▸ hR' b hb)
    refine ⟨by decide, ⟨hx, ⟨hx, ⟨hx, List.nodup_append.1 hR, hC⟩, hE⟩, hX⟩, ?_⟩
    intro a ha b hb e
    rw [List.mem_singleton.1 ha] at e
    subst e
    rcases List.mem_append.1 hb with hb | hb
    · exact (h _ hb).2.1 hP
    rcases List.mem_append.1 hb with hb | hb
    · obtain ⟨y, hy, e⟩ := List.mem_map.1 hb
      exact event_reserved y (e ▸ hP)
    rcases List.mem_append.1 hb with hb | hb
    · obtain ⟨y, hy, e⟩ := List.mem_map.1 hb
      exact (h y hy).1 (clear_reserved (e ▸ hP))
    · exact hPR hb

/-- The class of a struct or variant obeys the rules exactly if its names fit. -/
theorem clean_struct {access cls name : Text} {params : List Text} {props : List (Text × Text)} (hb : bare cls = name)
    (hp : paramsOf cls = params) (hl : ∀ x ∈ props.map Prod.snd, '<' ∉ x) :
    Clean cls (structMembers access cls props) ↔ StructFits name params (props.map Prod.snd) := by
  have hn := structMembers_names (access := access) (cls := cls) hl
  change _ = structNames (props.map Prod.snd) at hn
  have outer : ∀ n, n ∉ structNames (props.map Prod.snd) ↔
      n ∉ structReserved ∧ ∀ x ∈ props.map Prod.snd, n ≠ x ∧ n ≠ eventName x ∧ n ≠ clearName x := by
    intro n
    rw [mem_structNames]
    constructor
    · intro h
      exact ⟨fun h' => h (.inl h'), fun x hx => ⟨fun e => h (.inr ⟨x, hx, .inl e⟩), fun e => h (.inr ⟨x, hx, .inr (.inl e)⟩),
        fun e => h (.inr ⟨x, hx, .inr (.inr e)⟩)⟩⟩
    · rintro ⟨h1, h2⟩ (h | ⟨x, hx, h | h | h⟩)
      · exact h1 h
      · exact (h2 x hx).1 h
      · exact (h2 x hx).2.1 h
      · exact (h2 x hx).2.2 h
  constructor
  · rintro ⟨h1, h2, h3, _⟩
    rw [hn] at h1 h2
    rw [hb] at h2
    rw [hp] at h3
    have h1 := structNames_nodup.1 h1
    refine ⟨h1.1, h1.2, fun n hm => (outer n).1 ?_⟩
    rcases List.mem_cons.1 hm with rfl | hm
    · exact h2
    · have := h3 n hm
      rwa [hn] at this
  · rintro ⟨h1, h2, h3⟩
    refine ⟨?_, ?_, ?_, ?_⟩
    · rw [hn]; exact structNames_nodup.2 ⟨h1, h2⟩
    · rw [hn, hb]; exact (outer _).2 (h3 _ List.mem_cons_self)
    · rw [hp, hn]; exact fun p hm => (outer _).2 (h3 p (List.mem_cons_of_mem _ hm))
    · intro d hd hk
      simp only [structMembers, commonMethods, List.mem_append, List.mem_map, List.mem_cons, List.not_mem_nil, or_false] at hd
      rcases hd with ((((((rfl | ⟨x, _, rfl⟩) | rfl) | ⟨x, _, rfl⟩) | ⟨x, _, rfl⟩) | rfl) | hd) | rfl
      · exact (nomatch hk)
      · exact (nomatch hk)
      · rfl
      · exact (nomatch hk)
      · exact (nomatch hk)
      · exact (nomatch hk)
      · rcases hd with rfl | rfl | rfl | rfl | rfl | rfl | rfl <;> exact (nomatch hk)
      · exact (nomatch hk)

/-! ## Enums -/

/-- The names of the members of a class of an enum, those always there first. -/
def enumNames (ps cs : List Text) : List Text :=
  enumReserved ++ (cs.map (· ++ lit! "Tag") ++ (ps.map (· ++ lit! "Variant") ++ (cs.map (lit! "New" ++ ·) ++ ps)))

theorem mem_enumNames {ps cs : List Text} {n : Text} : n ∈ enumNames ps cs ↔ n ∈ enumReserved ∨ (∃ c ∈ cs, n = c ++ lit! "Tag") ∨
    (∃ p ∈ ps, n = p ++ lit! "Variant") ∨ (∃ c ∈ cs, n = lit! "New" ++ c) ∨ n ∈ ps := by
  have comm : ∀ {xs : List Text} {f : Text → Text}, (∃ a, a ∈ xs ∧ f a = n) ↔ ∃ a ∈ xs, n = f a :=
    ⟨fun ⟨a, h, e⟩ => ⟨a, h, e.symm⟩, fun ⟨a, h, e⟩ => ⟨a, h, e.symm⟩⟩
  simp only [enumNames, List.mem_append, List.mem_map, comm]

theorem tag_reserved {c : Text} (h : c ++ lit! "Tag" ∈ enumReserved) : c = [] := by
  have : ∀ r ∈ enumReserved, (lit! "Tag") <:+ r → r = lit! "Tag" := by decide
  have := this _ h ⟨c, rfl⟩
  exact List.append_cancel_right (bs := lit! "Tag") (cs := []) this

theorem variant_reserved {c : Text} (h : c ++ lit! "Variant" ∈ enumReserved) : c = [] := by
  have : ∀ r ∈ enumReserved, (lit! "Variant") <:+ r → r = lit! "Variant" := by decide
  have := this _ h ⟨c, rfl⟩
  exact List.append_cancel_right (bs := lit! "Variant") (cs := []) this

theorem new_reserved (c : Text) : lit! "New" ++ c ∉ enumReserved := by
  have : ∀ r ∈ enumReserved, ¬ (lit! "New") <+: r := by decide
  exact fun h => this _ h ⟨c, rfl⟩

theorem tag_variant (c p : Text) : c ++ lit! "Tag" ≠ p ++ lit! "Variant" := by
  intro h
  have h1 : (lit! "Tag") <:+ p ++ lit! "Variant" := ⟨c, h⟩
  have h2 : (lit! "Variant") <:+ p ++ lit! "Variant" := ⟨p, rfl⟩
  rcases List.suffix_or_suffix_of_suffix h1 h2 with h | h <;> exact absurd h (by decide)

theorem enumNames_nodup {ps cs : List Text} : (enumNames ps cs).Nodup ↔ (ps.Nodup ∧ cs.Nodup) ∧
    ((∀ p ∈ ps, p ≠ [] ∧ p ∉ enumReserved) ∧ ∀ c ∈ cs, c ≠ []) ∧
    (∀ p ∈ ps, ∀ c ∈ cs, p ≠ c ++ lit! "Tag" ∧ p ≠ lit! "New" ++ c ∧ lit! "New" ++ c ≠ p ++ lit! "Variant") ∧
    (∀ p ∈ ps, ∀ q ∈ ps, p ≠ q ++ lit! "Variant") ∧ ∀ c ∈ cs, ∀ d ∈ cs, lit! "New" ++ c ≠ d ++ lit! "Tag" := by
  have hR : enumReserved.Nodup := by decide
  have hT : (lit! "Tag") ∈ enumReserved := by decide
  have hV : (lit! "Variant") ∈ enumReserved := by decide
  have i1 : ∀ x y : Text, x ++ lit! "Tag" = y ++ lit! "Tag" → x = y := fun x y h => List.append_cancel_right h
  have i2 : ∀ x y : Text, x ++ lit! "Variant" = y ++ lit! "Variant" → x = y := fun x y h => List.append_cancel_right h
  have i3 : ∀ x y : Text, lit! "New" ++ x = lit! "New" ++ y → x = y := fun x y h => List.append_cancel_left h
  unfold enumNames
  simp only [List.nodup_append, nodup_map i1, nodup_map i2, nodup_map i3, hR, true_and]
  constructor
  · rintro ⟨⟨hc, ⟨hp, ⟨_, _, hnp⟩, hv⟩, ht⟩, hr⟩
    refine ⟨⟨hp, hc⟩, ⟨fun p hm => ⟨?_, ?_⟩, fun c hm => ?_⟩, fun p hm c hm' => ⟨?_, ?_, ?_⟩, fun p hm q hm' => ?_, fun c hm d hm' => ?_⟩
    · rintro rfl
      exact hr _ hV _ (List.mem_append_right _ (List.mem_append_left _ (List.mem_map_of_mem hm))) rfl
    · exact fun h => hr p h p (List.mem_append_right _ (List.mem_append_right _ (List.mem_append_right _ hm))) rfl
    · rintro rfl
      exact hr _ hT _ (List.mem_append_left _ (List.mem_map_of_mem hm)) rfl
    · exact fun e => ht _ (List.mem_map_of_mem hm') p (List.mem_append_right _ (List.mem_append_right _ hm)) e.symm
    · exact fun e => hnp _ (List.mem_map_of_mem hm') p hm e.symm
    · exact fun e => hv _ (List.mem_map_of_mem hm) _ (List.mem_append_left _ (List.mem_map_of_mem hm')) e.symm
    · exact fun e => hv _ (List.mem_map_of_mem hm') p (List.mem_append_right _ hm) e.symm
    · exact fun e => ht _ (List.mem_map_of_mem hm') _ (List.mem_append_right _ (List.mem_append_left _ (List.mem_map_of_mem hm))) e.symm
  · rintro ⟨⟨hp, hc⟩, ⟨hf, hf'⟩, h1, h2, h3⟩
    refine ⟨⟨hc, ⟨hp, ⟨hc, hp, ?_⟩, ?_⟩, ?_⟩, ?_⟩
    · intro a ha b hb e
      obtain ⟨c, hm, rfl⟩ := List.mem_map.1 ha
      exact (h1 b hb c hm).2.1 e.symm
    · intro a ha b hb e
      obtain ⟨p, hm, rfl⟩ := List.mem_map.1 ha
      rcases List.mem_append.1 hb with hb | hb
      · obtain ⟨c, hm', rfl⟩ := List.mem_map.1 hb
        exact (h1 p hm c hm').2.2 e.symm
      · exact h2 b hb p hm e.symm
    · intro a ha b hb e
      obtain ⟨c, hm, rfl⟩ := List.mem_map.1 ha
      rcases List.mem_append.1 hb with hb | hb
      · obtain ⟨p, hm', rfl⟩ := List.mem_map.1 hb
        exact tag_variant c p e
      rcases List.mem_append.1 hb with hb | hb
      · obtain ⟨d, hm', rfl⟩ := List.mem_map.1 hb
        exact h3 d hm' c hm e.symm
      · exact (h1 b hb c hm).1 e.symm
    · intro a ha b hb e
      subst e
      rcases List.mem_append.1 hb with hb | hb
      · obtain ⟨c, hm, rfl⟩ := List.mem_map.1 hb
        exact hf' c hm (tag_reserved ha)
      rcases List.mem_append.1 hb with hb | hb
      · obtain ⟨p, hm, rfl⟩ := List.mem_map.1 hb
        exact (hf p hm).1 (variant_reserved ha)
      rcases List.mem_append.1 hb with hb | hb
      · obtain ⟨c, hm, rfl⟩ := List.mem_map.1 hb
        exact new_reserved c ha
      · exact (hf _ hb).2 ha

/-- Classes of variants, as members of the class of their enum. -/
def variantDecls (vs : List (Text × Text)) : List Decl := vs.map fun v => ⟨lit! "public", .cls, [], v.1⟩

theorem enumMembers_names {cls : Text} {vs : List (Text × Text)} (h : ∀ v ∈ vs, '<' ∉ v.1 ∧ '<' ∉ v.2) :
    memberNames (enumMembers cls vs ++ variantDecls vs) = vs.map (fun v => v.2 ++ lit! "Tag") ++ ([lit! "Path", lit! "Tag", lit! "Variant"] ++
      (vs.map (fun v => v.1 ++ lit! "Variant") ++ (vs.map (fun v => lit! "New" ++ v.2) ++ (([lit! "OnUpdate"] ++ commonNames ++
        [lit! "UpdateAndNotify"]) ++ vs.map Prod.fst)))) := by
  unfold enumMembers variantDecls
  simp only [memberNames_append, List.append_assoc]
  rw [memberNames_map (g := fun v : Text × Text => v.2 ++ lit! "Tag"), memberNames_map (g := fun v : Text × Text => v.1 ++ lit! "Variant"),
    memberNames_map (g := fun v : Text × Text => lit! "New" ++ v.2), memberNames_map (g := Prod.fst)]
  · rfl
  · exact fun v hm => ⟨fun h => (nomatch h), bare_self (h v hm).1⟩
  · exact fun v hm => ⟨fun h => (nomatch h), bare_self (not_mem_append (by decide) (h v hm).2)⟩
  · exact fun v hm => ⟨fun h => (nomatch h), bare_self (not_mem_append (h v hm).1 (by decide))⟩
  · exact fun v hm => ⟨fun h => (nomatch h), bare_self (not_mem_append (h v hm).2 (by decide))⟩

theorem enumMembers_perm {cls : Text} {vs : List (Text × Text)} (h : ∀ v ∈ vs, '<' ∉ v.1 ∧ '<' ∉ v.2) :
    (memberNames (enumMembers cls vs ++ variantDecls vs)).Perm (enumNames (vs.map Prod.fst) (vs.map Prod.snd)) := by
  rw [enumMembers_names h]
  unfold enumNames
  rw [List.map_map, List.map_map, List.map_map]
  refine List.perm_iff_count.2 fun a => ?_
  have e : List.count a enumReserved = List.count a [lit! "Path", lit! "Tag", lit! "Variant"] +
      List.count a ([lit! "OnUpdate"] ++ commonNames ++ [lit! "UpdateAndNotify"]) := by
    rw [← List.count_append]
    exact (List.perm_iff_count.1 (by decide) a)
  simp only [List.count_append] at e ⊢
  simp only [Function.comp_def]
  omega

/-- The class of an enum obeys the rules exactly if its names fit. -/
theorem clean_enum {cls name : Text} {params : List Text} {vs : List (Text × Text)} (hb : bare cls = name)
    (hp : paramsOf cls = params) (hl : ∀ v ∈ vs, '<' ∉ v.1 ∧ '<' ∉ v.2) :
    Clean cls (enumMembers cls vs ++ variantDecls vs) ↔ EnumFits name params (vs.map Prod.fst) (vs.map Prod.snd) := by
  have hperm := enumMembers_perm (cls := cls) hl
  have outer : ∀ n, n ∉ memberNames (enumMembers cls vs ++ variantDecls vs) ↔ n ∉ enumReserved ∧
      (∀ p ∈ vs.map Prod.fst, n ≠ p ∧ n ≠ p ++ lit! "Variant") ∧ ∀ c ∈ vs.map Prod.snd, n ≠ c ++ lit! "Tag" ∧ n ≠ lit! "New" ++ c := by
    intro n
    rw [hperm.mem_iff, mem_enumNames]
    constructor
    · intro h
      exact ⟨fun h' => h (.inl h'), fun p hm => ⟨fun e => h (.inr (.inr (.inr (.inr (e ▸ hm))))), fun e => h (.inr (.inr (.inl ⟨p, hm, e⟩)))⟩,
        fun c hm => ⟨fun e => h (.inr (.inl ⟨c, hm, e⟩)), fun e => h (.inr (.inr (.inr (.inl ⟨c, hm, e⟩))))⟩⟩
    · rintro ⟨h1, h2, h3⟩ (h | ⟨c, hm, h⟩ | ⟨p, hm, h⟩ | ⟨c, hm, h⟩ | h)
      · exact h1 h
      · exact (h3 c hm).1 h
      · exact (h2 p hm).2 h
      · exact (h3 c hm).2 h
      · exact (h2 n h).1 rfl
  constructor
  · rintro ⟨h1, h2, h3, _⟩
    rw [hb] at h2
    rw [hp] at h3
    have h1 := enumNames_nodup.1 (hperm.nodup_iff.1 h1)
    refine ⟨h1.1, h1.2.1, h1.2.2, fun n hm => (outer n).1 ?_⟩
    rcases List.mem_cons.1 hm with rfl | hm
    · exact h2
    · exact h3 n hm
  · rintro ⟨h1, h2, h3, h4⟩
    refine ⟨hperm.nodup_iff.2 (enumNames_nodup.2 ⟨h1, h2, h3⟩), ?_, ?_, ?_⟩
    · rw [hb]; exact (outer _).2 (h4 _ List.mem_cons_self)
    · rw [hp]; exact fun p hm => (outer _).2 (h4 p (List.mem_cons_of_mem _ hm))
    · intro d hd hk
      simp only [enumMembers, variantDecls, commonMethods, List.mem_append, List.mem_map, List.mem_cons, List.not_mem_nil, or_false] at hd
      rcases hd with (((((((⟨x, _, rfl⟩ | hd) | ⟨x, _, rfl⟩) | hd) | ⟨x, _, rfl⟩) | hd) | hd) | rfl) | ⟨x, _, rfl⟩
      · exact (nomatch hk)
      · rcases hd with rfl | rfl | rfl <;> exact (nomatch hk)
      · exact (nomatch hk)
      · rcases hd with rfl | rfl <;> rfl
      · exact (nomatch hk)
      · rcases hd with rfl | rfl <;> exact (nomatch hk)
      · rcases hd with rfl | rfl | rfl | rfl | rfl | rfl | rfl <;> exact (nomatch hk)
      · exact (nomatch hk)
      · exact (nomatch hk)

/-! ## Files of enums -/

theorem variants_head : ∀ {vs : List VariantMeta} {cs : List Class} {d : Nat × Decl},
    (List.zipWith variantOutline vs cs).flatten.head? = some d → d.1 ≤ 8
  | [], _, _, h => by simp at h
  | _ :: _, [], _, h => by simp at h
  | v :: vs, c :: cs, d, h => by
    simp only [List.zipWith_cons_cons, List.flatten_cons, variantOutline, List.cons_append, List.head?_cons, Option.some.injEq] at h
    subst h
    exact Nat.le_refl 8

/-- The classes of variants obey the rules exactly if each one's names fit. -/
theorem clean_variants : ∀ {vs : List VariantMeta} {cs : List Class}, vs.length = cs.length →
    (∀ v ∈ vs, '<' ∉ v.ty.name.csharpName.toList) → (∀ c ∈ cs, ∀ x ∈ c.props.map Prod.snd, '<' ∉ x) →
    (CleanOutline (List.zipWith variantOutline vs cs).flatten ↔
      ∀ vc ∈ vs.zip cs, StructFits vc.1.ty.name.csharpName.toList [] (vc.2.props.map Prod.snd))
  | [], [], _, _, _ => ⟨fun _ vc h => (nomatch h), fun _ => cleanOutline_nil⟩
  | v :: vs, c :: cs, hlen, hb, hl => by
    have ih := clean_variants (vs := vs) (cs := cs) (by simpa using hlen) (fun v hm => hb v (List.mem_cons_of_mem _ hm))
      fun c hm => hl c (List.mem_cons_of_mem _ hm)
    rw [List.zipWith_cons_cons, List.flatten_cons, variantOutline, List.cons_append, cleanOutline_cons,
      cleanOutline_members structMembers_kinds, ih, membersAfter_level fun d h => variants_head h]
    have hbv := hb v List.mem_cons_self
    have hpn : paramsOf v.ty.name.csharpName.toList = [] := by
      have := paramsOf_typeName (ps := []) hbv fun p hp => (nomatch hp)
      simpa [typeParams] using this
    have hc := clean_struct (access := lit! "internal") (bare_self hbv) hpn (hl c List.mem_cons_self)
    rw [hc]
    simp only [List.zip_cons_cons, List.mem_cons, forall_eq_or_imp, forall_const]
  | [], _ :: _, h, _, _ => (nomatch h)
  | _ :: _, [], h, _, _ => (nomatch h)

theorem variants_deep : ∀ {vs : List VariantMeta} {cs : List Class}, ∀ d ∈ (List.zipWith variantOutline vs cs).flatten, 4 < d.1
  | [], _, d, h => by simp at h
  | _ :: _, [], d, h => by simp at h
  | v :: vs, c :: cs, d, h => by
    rw [List.zipWith_cons_cons, List.flatten_cons] at h
    rcases List.mem_append.1 h with h | h
    · unfold variantOutline at h
      rcases List.mem_cons.1 h with rfl | h
      · exact (by decide : 4 < 8)
      · obtain ⟨x, _, rfl⟩ := List.mem_map.1 h
        exact (by decide : 4 < 12)
    · exact variants_deep d h

theorem variants_members : ∀ {vs : List VariantMeta} {cs : List Class}, vs.length = cs.length →
    ((List.zipWith variantOutline vs cs).flatten.filter fun d => d.1 == 8).map Prod.snd =
      vs.map fun v => ⟨lit! "public", .cls, [], v.ty.name.csharpName.toList⟩
  | [], [], _ => rfl
  | v :: vs, c :: cs, hlen => by
    have ih := variants_members (vs := vs) (cs := cs) (by simpa using hlen)
    rw [List.zipWith_cons_cons, List.flatten_cons, List.filter_append, List.map_append, ih]
    have e : (variantOutline v c).filter (fun d => d.1 == 8) = [(8, ⟨lit! "public", .cls, [], v.ty.name.csharpName.toList⟩)] := by
      unfold variantOutline
      refine (List.filter_cons_of_pos rfl).trans (congrArg _ (List.filter_eq_nil_iff.2 fun x hx => ?_))
      obtain ⟨y, _, rfl⟩ := List.mem_map.1 hx
      exact (by decide : ¬ ((12 : Nat) == 8) = true)
    rw [e]
    rfl
  | [], _ :: _, h => (nomatch h)
  | _ :: _, [], h => (nomatch h)

theorem enum_membersAfter {ms : List Decl} {vs : List VariantMeta} {cs : List Class} (h : vs.length = cs.length) :
    membersAfter 4 (ms.map (fun d => (8, d)) ++ (List.zipWith variantOutline vs cs).flatten) =
      ms ++ vs.map fun v => ⟨lit! "public", .cls, [], v.ty.name.csharpName.toList⟩ := by
  unfold membersAfter
  have e : (ms.map (fun d => ((8 : Nat), d)) ++ (List.zipWith variantOutline vs cs).flatten).takeWhile (fun d => decide (4 < d.1)) =
      ms.map (fun d => ((8 : Nat), d)) ++ (List.zipWith variantOutline vs cs).flatten := by
    have := List.takeWhile_append_of_pos (p := fun d : Nat × Decl => decide (4 < d.1)) (l₂ := [])
      (l₁ := ms.map (fun d => ((8 : Nat), d)) ++ (List.zipWith variantOutline vs cs).flatten) (by
        intro x hx
        rcases List.mem_append.1 hx with hx | hx
        · obtain ⟨d, _, rfl⟩ := List.mem_map.1 hx
          exact (by decide : decide ((4 : Nat) < 8) = true)
        · simpa using variants_deep x hx)
    simpa using this
  rw [e, List.filter_append, List.map_append, variants_members h, List.filter_eq_self.2 (by
    intro x hx
    obtain ⟨d, _, rfl⟩ := List.mem_map.1 hx
    rfl), List.map_map]
  congr 1
  exact List.map_id' ms

end Steit.Gen
