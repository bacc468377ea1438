import Verif.Model.DeriveCode

/-!
# What derived statements do to fields

Statements whose names have been looked up do the same as the generated code of `Verif/Model/Derive.lean`.
-/

namespace Steit.Derive

variable {it : Item}

/-- The fields from some position on. -/
abbrev restFs (l : List (Ident × PField)) : Fields := fieldsOf (l.map Prod.snd)

theorem fs_eq : it.fs = restFs it.fields := rfl

/-- Statements about every field of a list, in order. -/
def sizeActs (it : Item) (k : Nat) (l : List (Ident × PField)) : List SizeAct :=
  (it.dfieldsFrom k l).map fun d => .field d.m.index d.p.tag

theorem runSizes_from (ds : Bool) (m : Mode) (loc : Loc) (F : Fields) (V : F.El) : ∀ (l : List (Ident × PField)) (k : Nat) (v : (restFs l).El)
    (size : Nat), (∀ j, F.at V (k + j) = (restFs l).at v j) →
    runSizes m loc F V (sizeActs it k l) size = ((restFs l).dict ds).sizes m loc k size v
  | [], _, _, _, _ => rfl
  | (x, p) :: l, k, v, size, h => by
    have h0 : F.at V k = some ⟨p.ty, v.1⟩ := h 0
    have ht := fun size => runSizes_from ds m loc F V l (k + 1) v.2 size (fun j => by
      rw [show k + 1 + j = k + (j + 1) from by omega]; exact h (j + 1))
    show runSizes m loc F V (.field k p.tag :: sizeActs it (k + 1) l) size = _
    simp only [runSizes, h0, ht]
    rfl

theorem runSizes_fields (ds : Bool) (m : Mode) (loc : Loc) (v : it.fs.El) (size : Nat) :
    runSizes m loc it.fs v (sizeActs it 0 it.fields) size = (it.fs.dict ds).sizes m loc 0 size v :=
  runSizes_from ds m loc it.fs v it.fields 0 v size (fun j => by rw [Nat.zero_add]; rfl)

theorem runSer_from (ds : Bool) (m : Mode) (loc : Loc) (F : Fields) (V : F.El) : ∀ (l : List (Ident × PField)) (k : Nat) (v : (restFs l).El),
    (∀ j, F.at V (k + j) = (restFs l).at v j) → runSer m loc F V (sizeActs it k l) = ((restFs l).dict ds).serialize m loc k v
  | [], _, _, _ => rfl
  | (x, p) :: l, k, v, h => by
    have h0 : F.at V k = some ⟨p.ty, v.1⟩ := h 0
    have ht := runSer_from ds m loc F V l (k + 1) v.2 (fun j => by
      rw [show k + 1 + j = k + (j + 1) from by omega]; exact h (j + 1))
    show runSer m loc F V (.field k p.tag :: sizeActs it (k + 1) l) = _
    simp only [runSer, h0, ht]
    rfl

theorem runSer_fields (ds : Bool) (m : Mode) (loc : Loc) (v : it.fs.El) :
    runSer m loc it.fs v (sizeActs it 0 it.fields) = (it.fs.dict ds).serialize m loc 0 v :=
  runSer_from ds m loc it.fs v it.fields 0 v (fun j => by rw [Nat.zero_add]; rfl)

/-- Statements of `hash`. -/
def hashActs (it : Item) (k : Nat) (l : List (Ident × PField)) : List HashAct :=
  (it.dfieldsFrom k l).filterMap fun d => if !d.p.attrs.noHash && !d.p.attrs.noEqHash then some (.field d.m.index) else none

theorem runHash_from (F : Fields) (V : F.El) : ∀ (l : List (Ident × PField)) (k : Nat) (v : (restFs l).El),
    (∀ j, F.at V (k + j) = (restFs l).at v j) → runHash F V (hashActs it k l) = (restFs l).hash v
  | [], _, _, _ => rfl
  | (x, p) :: l, k, v, h => by
    have h0 : F.at V k = some ⟨p.ty, v.1⟩ := h 0
    have ht := runHash_from F V l (k + 1) v.2 (fun j => by
      rw [show k + 1 + j = k + (j + 1) from by omega]; exact h (j + 1))
    show runHash F V (List.filterMap _ (_ :: it.dfieldsFrom (k + 1) l)) = (if !p.attrs.noHash && !p.attrs.noEqHash then p.ty.hash v.1 else []) ++ (restFs l).hash v.2
    by_cases hb : (!p.attrs.noHash && !p.attrs.noEqHash) = true
    · rw [List.filterMap_cons_some (b := .field k) (by simp only [hb, if_true]; rfl), if_pos hb]
      simp only [runHash, h0]
      rw [← ht]; rfl
    · rw [List.filterMap_cons_none (by simp only [hb]; rfl), if_neg hb]
      exact ht

theorem runHash_fields (v : it.fs.El) : runHash it.fs v (hashActs it 0 it.fields) = it.fs.hash v :=
  runHash_from it.fs v it.fields 0 v (fun j => by rw [Nat.zero_add]; rfl)

theorem sameValue_same (t : Ty) (x y : t.El) : sameValue (some ⟨t, x⟩) (some ⟨t, y⟩) = t.eq x y := by
  simp [sameValue]

/-- Comparisons of a field with the same field of the other. -/
def eqActs (it : Item) (k : Nat) (l : List (Ident × PField)) : List (Side × Side) :=
  (it.dfieldsFrom k l).filterMap fun d => if !d.p.attrs.noEqHash then some ((false, d.m.index), (true, d.m.index)) else none

theorem runEq_from (F : Fields) (V W : F.El) : ∀ (l : List (Ident × PField)) (k : Nat) (v w : (restFs l).El),
    (∀ j, F.at V (k + j) = (restFs l).at v j) → (∀ j, F.at W (k + j) = (restFs l).at w j) →
    runEq F V W (eqActs it k l) = (restFs l).eq v w
  | [], _, _, _, _, _ => rfl
  | (x, p) :: l, k, v, w, h, h' => by
    have h0 : F.at V k = some ⟨p.ty, v.1⟩ := h 0
    have h0' : F.at W k = some ⟨p.ty, w.1⟩ := h' 0
    have ht := runEq_from F V W l (k + 1) v.2 w.2 (fun j => by
      rw [show k + 1 + j = k + (j + 1) from by omega]; exact h (j + 1)) (fun j => by
      rw [show k + 1 + j = k + (j + 1) from by omega]; exact h' (j + 1))
    show runEq F V W (List.filterMap _ (_ :: it.dfieldsFrom (k + 1) l)) = ((p.attrs.noEqHash || p.ty.eq v.1 w.1) && (restFs l).eq v.2 w.2)
    rw [← ht]
    cases hb : p.attrs.noEqHash
    · rw [List.filterMap_cons_some (b := ((false, k), (true, k))) (by simp only [hb]; rfl)]
      simp only [runEq, side, h0, h0', Bool.false_eq_true, if_false, if_true, sameValue_same, Bool.false_or]
      cases p.ty.eq v.1 w.1
      · rfl
      · rfl
    · rw [List.filterMap_cons_none (by simp only [hb]; rfl)]
      simp only [Bool.true_or, Bool.true_and]
      rfl

theorem runEq_fields (v w : it.fs.El) : runEq it.fs v w (eqActs it 0 it.fields) = it.fs.eq v w :=
  runEq_from it.fs v w it.fields 0 v w (fun j => by rw [Nat.zero_add]; rfl) (fun j => by rw [Nat.zero_add]; rfl)

/-! ## Merging -/

/-- The arms of the loop. -/
def mergeActs (it : Item) (k : Nat) (l : List (Ident × PField)) : List (U32 × Nat) :=
  (it.dfieldsFrom k l).map fun d => (d.p.tag, d.m.index)

theorem Res.map_map {α β γ : Type} (f : α → β) (g : β → γ) (r : Res α) : (r.map f).map g = r.map (fun x => g (f x)) := by
  cases r <;> rfl

theorem optMap_map {α β γ : Type} (a : α) (put : α × β → γ) (o : Option (Res β)) :
    o.map (Res.map fun w => put (a, w)) = (o.map fun r => r.map fun y => (a, y)).map (Res.map put) := by
  cases o with
  | none => rfl
  | some r => exact congrArg some (Res.map_map _ _ r).symm

section
variable {α β : Type} (ds : Bool) (tag : U32) (attrs : FieldAttrs) (d : Dict α) (fs : FieldsD β)

theorem mergeField_hit (m : Mode) (num : U32) (wire : WireType) (v : α × β) (bs : Bytes) (h : num = tag) :
    (fieldsCons ds tag attrs d fs).mergeField m num wire v bs = some ((d.mergeNested m v.1 wire bs).map (fun x => (x, v.2))) := if_pos h

theorem mergeField_miss (m : Mode) (num : U32) (wire : WireType) (v : α × β) (bs : Bytes) (h : ¬num = tag) :
    (fieldsCons ds tag attrs d fs).mergeField m num wire v bs =
      (fs.mergeField m num wire v.2 bs).map (fun r => r.map (fun y => (v.1, y))) := if_neg h

theorem handleField_hit (m : Mode) (num : U32) (v : α × β) (path : List U32) (kind : LogKind) (key : Option U32) (bs : Bytes) (h : num = tag) :
    (fieldsCons ds tag attrs d fs).handleField m num v path kind key bs =
      some (if ds && !attrs.noState then (d.handle m v.1 path kind key bs).map (fun x => (x, v.2)) else .ok v bs) := if_pos h

theorem handleField_miss (m : Mode) (num : U32) (v : α × β) (path : List U32) (kind : LogKind) (key : Option U32) (bs : Bytes) (h : ¬num = tag) :
    (fieldsCons ds tag attrs d fs).handleField m num v path kind key bs =
      (fs.handleField m num v.2 path kind key bs).map (fun r => r.map (fun y => (v.1, y))) := if_neg h

end

theorem runMerge_from (ds : Bool) (m : Mode) (num : U32) (wire : WireType) (bs : Bytes) (F : Fields) : ∀ (l : List (Ident × PField)) (k : Nat)
    (v : (restFs l).El) (put : (restFs l).El → F.El), (∀ j f w, F.modifyRes (k + j) f (put w) = ((restFs l).modifyRes j f w).map put) →
    ((mergeActs it k l).find? fun a => a.1 == num).map (fun a => F.modifyRes a.2 (fun t x => t.dict.mergeNested m x wire bs) (put v)) =
      (((restFs l).dict ds).mergeField m num wire v bs).map (Res.map put)
  | [], _, _, _, _ => rfl
  | (x, p) :: l, k, v, put, h => by
    have ht := runMerge_from ds m num wire bs F l (k + 1) v.2 (fun w => put (v.1, w)) (fun j f w => by
      rw [show k + 1 + j = k + (j + 1) from by omega, h (j + 1) f (v.1, w)]
      exact Res.map_map _ _ _)
    show (List.find? _ ((p.tag, k) :: mergeActs it (k + 1) l)).map _ = _
    by_cases hn : num = p.tag
    · rw [List.find?_cons_of_pos (by simp [hn])]
      exact (congrArg some (h 0 _ v)).trans (congrArg (Option.map (Res.map put)) (mergeField_hit ds p.tag p.attrs p.ty.dict _ m num wire v bs hn).symm)
    · rw [List.find?_cons_of_neg (by simpa using fun e => hn e.symm)]
      refine ht.trans (Eq.trans ?_ (congrArg (Option.map (Res.map put)) (mergeField_miss ds p.tag p.attrs p.ty.dict _ m num wire v bs hn).symm))
      exact optMap_map v.1 put _

theorem Res.map_id {α : Type} (r : Res α) : r.map id = r := by cases r <;> rfl

theorem runMergeStep_fields (ds : Bool) : runMergeStep it.fs (mergeActs it 0 it.fields) = (it.fs.dict ds).mergeStep := by
  funext m v bs
  rw [runMergeStep, FieldsD.mergeStep]
  cases readTag m bs with
  | error e => rfl
  | ok r =>
    obtain ⟨⟨num, wire⟩, rest⟩ := r
    have h := runMerge_from (it := it) ds m num wire rest it.fs it.fields 0 v id (fun j f w => by
      rw [Nat.zero_add]; exact (Res.map_id _).symm)
    have hid : ∀ o : Option (Res it.fs.El), o.map (Res.map id) = o := fun o => by cases o <;> simp [Res.map_id]
    have h' := h.trans (hid _)
    have h'' : (it.fs.dict ds).mergeField m num wire v rest = _ := h'.symm
    simp only [h'']
    cases (mergeActs it 0 it.fields).find? fun a => a.1 == num with
    | none => rfl
    | some a => rfl

theorem runMerge_fields (ds : Bool) : runMerge it.fs (mergeActs it 0 it.fields) = (it.fs.dict ds).merge := by
  funext m v bs
  rw [runMerge, runMergeStep_fields ds]; rfl

/-! ## Replaying -/

/-- The arms of `handle`. -/
def handleActs (ds : Bool) (it : Item) (k : Nat) (l : List (Ident × PField)) : List (U32 × Option Nat) :=
  (it.dfieldsFrom k l).map fun d => (d.p.tag, if d.isState ds then some d.m.index else none)

/-- What an arm does. -/
def armDoes (F : Fields) (m : Mode) (V : F.El) (path : List U32) (kind : LogKind) (key : Option U32) (bs : Bytes) (a : U32 × Option Nat) :
    Res F.El :=
  match a.2 with
  | some i => F.modifyRes i (fun t x => t.dict.handle m x path kind key bs) V
  | none => .ok V bs

theorem runHandle_from (ds : Bool) (m : Mode) (tag : U32) (path : List U32) (kind : LogKind) (key : Option U32) (bs : Bytes) (F : Fields) :
    ∀ (l : List (Ident × PField)) (k : Nat) (v : (restFs l).El) (put : (restFs l).El → F.El),
    (∀ j f w, F.modifyRes (k + j) f (put w) = ((restFs l).modifyRes j f w).map put) →
    ((handleActs ds it k l).find? fun a => a.1 == tag).map (armDoes F m (put v) path kind key bs) =
      (((restFs l).dict ds).handleField m tag v path kind key bs).map (Res.map put)
  | [], _, _, _, _ => rfl
  | (x, p) :: l, k, v, put, h => by
    have ht := runHandle_from ds m tag path kind key bs F l (k + 1) v.2 (fun w => put (v.1, w)) (fun j f w => by
      rw [show k + 1 + j = k + (j + 1) from by omega, h (j + 1) f (v.1, w)]
      exact Res.map_map _ _ _)
    show (List.find? _ ((p.tag, if (ds && !p.attrs.noState) then some k else none) :: handleActs ds it (k + 1) l)).map _ =
      _
    by_cases hn : tag = p.tag
    · rw [List.find?_cons_of_pos (by simp [hn])]
      refine Eq.trans ?_ (congrArg (Option.map (Res.map put)) (handleField_hit ds p.tag p.attrs p.ty.dict _ m tag v path kind key bs hn).symm)
      show some (armDoes F m (put v) path kind key bs (p.tag, if (ds && !p.attrs.noState) then some k else none)) = some (Res.map put _)
      congr 1
      cases ds && !p.attrs.noState
      · rfl
      · exact h 0 _ v
    · rw [List.find?_cons_of_neg (by simpa using fun e => hn e.symm)]
      refine ht.trans (Eq.trans ?_ (congrArg (Option.map (Res.map put)) (handleField_miss ds p.tag p.attrs p.ty.dict _ m tag v path kind key bs hn).symm))
      exact optMap_map v.1 put _

theorem runHandle_fields (ds : Bool) (m : Mode) (v : it.fs.El) (tag : U32) (path : List U32) (kind : LogKind) (key : Option U32) (bs : Bytes) :
    runHandle it.fs (handleActs ds it 0 it.fields) m v tag path kind key bs =
      match (it.fs.dict ds).handleField m tag v path kind key bs with
      | some r => r
      | none => .err v .invalidData := by
  have h := runHandle_from (it := it) ds m tag path kind key bs it.fs it.fields 0 v id (fun j f w => by
    rw [Nat.zero_add]; exact (Res.map_id _).symm)
  have hid : ∀ o : Option (Res it.fs.El), o.map (Res.map id) = o := fun o => by cases o <;> simp [Res.map_id]
  have h'' : (it.fs.dict ds).handleField m tag v path kind key bs = _ := (h.trans (hid _)).symm
  rw [h'', runHandle]
  cases (handleActs ds it 0 it.fields).find? fun a => a.1 == tag with
  | none => rfl
  | some a =>
    obtain ⟨t, i⟩ := a
    cases i <;> rfl

/-! ## Runtimes -/

/-- The statements of `set_runtime` about fields, when the parameter is nested so. -/
def rtActs (ds : Bool) (under : List U32) (it : Item) (k : Nat) (l : List (Ident × PField)) : List RtAct :=
  (it.dfieldsFrom k l).filterMap fun d => if d.isState ds then some (.field d.m.index (under ++ [d.p.tag])) else none

theorem nestedUnder_append (rt : Rt) (under : List U32) (t : U32) : nestedUnder rt (under ++ [t]) = (nestedUnder rt under).nested t := by
  simp [nestedUnder]

theorem runRt_from (ds : Bool) (under : List U32) (param : Rt) (F : Fields) (as : List RtAct) : ∀ (l : List (Ident × PField)) (k : Nat)
    (v : (restFs l).El) (rt : Rt) (put : (restFs l).El → F.El), (∀ j f w, F.modify (k + j) f (put w) = put ((restFs l).modify j f w)) →
    runRt F param (rtActs ds under it k l ++ as) ⟨rt, put v⟩ =
      runRt F param as ⟨rt, put (((restFs l).dict ds).setRuntime (nestedUnder param under) v)⟩
  | [], _, _, _, _, _ => rfl
  | (x, p) :: l, k, v, rt, put, h => by
    have ht := fun a => runRt_from ds under param F as l (k + 1) v.2 rt (fun w => put (a, w)) (fun j f w => by
      rw [show k + 1 + j = k + (j + 1) from by omega, h (j + 1) f (a, w)]; rfl)
    show runRt F param (List.filterMap _ (_ :: it.dfieldsFrom (k + 1) l) ++ as) _ =
      runRt F param as ⟨rt, put (if (ds && !p.attrs.noState) then p.ty.dict.setRuntime ((nestedUnder param under).nested p.tag) v.1 else v.1,
        ((restFs l).dict ds).setRuntime (nestedUnder param under) v.2)⟩
    by_cases hb : (ds && !p.attrs.noState) = true
    · rw [List.filterMap_cons_some (b := .field k (under ++ [p.tag])) (by simp only [DField.isState, hb, if_true]; rfl), if_pos hb]
      simp only [List.cons_append, runRt]
      have e := h 0 (fun t x => t.dict.setRuntime (nestedUnder param (under ++ [p.tag])) x) v
      rw [Nat.add_zero] at e
      rw [e, nestedUnder_append]
      exact ht _
    · rw [List.filterMap_cons_none (by simp only [DField.isState, hb]; rfl), if_neg hb]
      exact ht _

theorem runRt_fields (ds : Bool) (under : List U32) (param : Rt) (as : List RtAct) (v : StructV it.fs.El) :
    runRt it.fs param (rtActs ds under it 0 it.fields ++ as) v =
      runRt it.fs param as ⟨v.rt, (it.fs.dict ds).setRuntime (nestedUnder param under) v.fields⟩ :=
  runRt_from ds under param it.fs as it.fields 0 v.fields v.rt id (fun j f w => by rw [Nat.zero_add]; rfl)

/-! ## Constructors -/

/-- What a field is given. -/
def initAct (ds : Bool) (under : List U32) (p : PField) : InitAct :=
  if ds && !p.attrs.noState then .withRuntime (under ++ [p.tag]) else .default

theorem make_from (ds : Bool) (under : List U32) (param : Rt) (as : List (Slot × InitAct)) : ∀ (l : List (Ident × PField)) (k : Nat),
    (∀ j, as.lookup (.data (k + j)) = (l[j]?).map fun e => initAct ds under e.2) →
    (restFs l).make k (fun i t => InitAct.value param t (as.lookup (.data i))) =
      ((restFs l).dict ds).init (if ds then some (nestedUnder param under) else none)
  | [], _, _ => rfl
  | (x, p) :: l, k, h => by
    have ht := make_from ds under param as l (k + 1) (fun j => by
      rw [show k + 1 + j = k + (j + 1) from by omega]; exact h (j + 1))
    have h0 : as.lookup (.data k) = some (initAct ds under p) := h 0
    refine Prod.ext ?_ ht
    show InitAct.value param p.ty (as.lookup (.data k)) = (match (if ds then some (nestedUnder param under) else none : Option Rt), ds && !p.attrs.noState with
        | some rt, true => p.ty.dict.withRuntime (rt.nested p.tag)
        | _, _ => p.ty.dict.dflt)
    rw [h0, initAct]
    cases ds
    · rfl
    · cases p.attrs.noState
      · simp only [Bool.not_false, Bool.and_self, if_true, InitAct.value, nestedUnder_append]
      · rfl

theorem ctorFields_eq (ds : Bool) (under : List U32) (param : Rt) (as : List (Slot × InitAct))
    (h : ∀ j, as.lookup (.data j) = (it.fields[j]?).map fun e => initAct ds under e.2) :
    ctorFields it.fs as param = (it.fs.dict ds).init (if ds then some (nestedUnder param under) else none) :=
  make_from ds under param as it.fields 0 (fun j => by rw [Nat.zero_add]; exact h j)

end Steit.Derive
