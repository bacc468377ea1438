import Verif.Lemmas.SerImpls

/-! # Serialization laws of all types -/

namespace Steit
open Spec Prog

mutual
/-- The size caches in and below a value with their true contents. -/
def cellsOf : (t : Ty) → t.El → CellMap
  | .vec t, v => cellNode none (v.map (cellsOf t))
  | .array _ t, v => cellNode none (v.1.map (cellsOf t))
  | .tuple ts, v => cellNode none (cellsTuple ts v)
  | .option t, v => cellNode none (v.toList.map (cellsOf t))
  | .box t, v => cellsOf t v
  | .hashMap k w, v => cellNode none (entryCells (cellsOf k) (cellsOf w) v)
  | .list t, v => cellNode (some (encode (.list t) v).length) (v.items.map (cellsOf t))
  | .map kt t, v => cellNode (some (encode (.map kt t) v).length) (v.entries.map (fun e => cellsOf t e.2))
  | .struct ds cached fs, v =>
    cellNode (if cached then some (encode (.struct ds cached fs) v).length else none) (cellsFields fs v.fields)
  | .enum ds cached fs vs, v =>
    cellNode (if (match v.val with | .inl _ => cached | .inr x => cachedVariant vs x)
        then some (encode (.enum ds cached fs vs) v).length else none)
      (match v.val with
      | .inl x => cellsFields fs x
      | .inr x => cellsVariant vs x)
  | .uint _, _ => noCells
  | .sint _, _ => noCells
  | .bool, _ => noCells
  | .string, _ => noCells
  | .bytes, _ => noCells

/-- Cells of the components. -/
def cellsTuple : (ts : Tys) → ts.El → List CellMap
  | .nil, _ => []
  | .cons t ts, v => cellsOf t v.1 :: cellsTuple ts v.2

/-- Cells of the fields. -/
def cellsFields : (fs : Fields) → fs.El → List CellMap
  | .nil, _ => []
  | .cons _ _ t fs, v => cellsOf t v.1 :: cellsFields fs v.2

/-- Cells of the current variant's fields. -/
def cellsVariant : (vs : Variants) → vs.El → List CellMap
  | .nil, _ => []
  | .cons _ _ fs vs, v =>
    match v with
    | .inl x => cellsFields fs x
    | .inr x => cellsVariant vs x

/-- Does the current variant have a size cache? -/
def cachedVariant : (vs : Variants) → vs.El → Bool
  | .nil, _ => false
  | .cons _ cached _ vs, v =>
    match v with
    | .inl _ => cached
    | .inr x => cachedVariant vs x
end

theorem tag_lt {tag : U32} (h : tag ≤ 0x1fffffff#32) : tag.toNat < 2 ^ 29 := by
  rw [BitVec.le_def] at h
  have : (0x1fffffff#32 : BitVec 32).toNat = 2 ^ 29 - 1 := by decide
  omega

theorem SerLaw.congr {α : Type} {d : Dict α} {wire wire' : Nat} {enc enc' : α → Bytes} {lo lo' : α → Bool}
    {wr wr' : α → Prop} {cells cells' : α → CellMap} (h : SerLaw d wire enc lo wr cells)
    (h1 : wire = wire') (h2 : enc = enc') (h3 : lo = lo') (h4 : wr = wr') (h5 : cells = cells') :
    SerLaw d wire' enc' lo' wr' cells' := by
  subst h1 h2 h3 h4 h5; exact h

theorem hasCache_variant : (vs : Variants) → (ds : Bool) → (v : vs.El) → (vs.dict ds).hasCache v = cachedVariant vs v
  | .nil, _, v => nomatch v
  | .cons _ _ _ _, _, .inl _ => rfl
  | .cons _ _ _ vs, ds, .inr x => hasCache_variant vs ds x

mutual
theorem serLaw : (t : Ty) → t.WF →
    SerLaw t.dict (wireOf t) (encode t) (fun v => leftOut t v (encode t v)) (Writable t) (cellsOf t)
  | .uint w, _ => (serLaw_uint w).congr rfl rfl (by funext v; simp [leftOut]; rfl) rfl rfl
  | .sint w, _ => (serLaw_sint w).congr rfl rfl (by funext v; simp [leftOut]; rfl) rfl rfl
  | .bool, _ => serLaw_bool.congr rfl rfl (by funext v; cases v <;> rfl) rfl rfl
  | .string, _ => serLaw_string
  | .bytes, _ => serLaw_bytes
  | .vec t, h => serLaw_vec (serLaw t h)
  | .array n t, h => serLaw_array n (serLaw t h.2.2)
  | .tuple ts, h => serLaw_tuple (tupleLaw ts h.2.2)
  | .option t, h => serLaw_option (serLaw t h)
  | .box t, h => serLaw_box (serLaw t h)
  | .hashMap k v, h => serLaw_hashMap k.eq (serLaw k h.1) (serLaw v h.2)
  | .list t, h => serLaw_list (serLaw t h.2)
  | .map k t, h => serLaw_map k (serLaw t h.2)
  | .struct ds cached fs, h => serLaw_struct ds cached (fieldsLaw fs ds h.2)
  | .enum ds cached fs vs, h => by
    have h0 := serLaw_enum ds (fun rt => Sum.inl ((fs.dict ds).init rt))
      (variantsLaw_cons 0#32 cached (fieldsLaw fs ds h.2.1) (variantsLaw vs ds h.2.2.2.2))
    refine SerLaw.congr (wire' := 2) (enc' := encode (.enum ds cached fs vs))
      (lo' := fun v => (encode (.enum ds cached fs vs) v).isEmpty) (wr' := Writable (.enum ds cached fs vs))
      (cells' := cellsOf (.enum ds cached fs vs)) h0 rfl ?_ ?_ ?_ ?_
    · funext v; rcases v with ⟨rt, x | x⟩ <;> rfl
    · funext v; rcases v with ⟨rt, x | x⟩ <;> rfl
    · funext v; rcases v with ⟨rt, x | x⟩ <;> rfl
    · funext v; rcases v with ⟨rt, x | x⟩
      · rfl
      · show cellNode (if (vs.dict ds).hasCache x then _ else _) _ = _
        rw [hasCache_variant]; rfl

theorem tupleLaw : (ts : Tys) → ts.WF → TupleLaw ts.dict (encodeTuple ts) (WritableTuple ts) (cellsTuple ts)
  | .nil, _ => tupleLaw_nil
  | .cons t ts, h => tupleLaw_cons (serLaw t h.1) (tupleLaw ts h.2)

theorem fieldsLaw : (fs : Fields) → (ds : Bool) → fs.WF ds →
    FieldsLaw (fs.dict ds) (encodeFields fs) (WritableFields fs) (cellsFields fs)
  | .nil, _, _ => fieldsLaw_nil
  | .cons tag attrs t fs, ds, h => fieldsLaw_cons ds tag attrs (tag_lt h.1) (serLaw t h.2.2.1) (fieldsLaw fs ds h.2.2.2)

theorem variantsLaw : (vs : Variants) → (ds : Bool) → vs.WF ds →
    VariantsLaw (vs.dict ds) (encodeVariant vs) (WritableVariant vs) (cellsVariant vs)
  | .nil, _, _ => ⟨fun _ _ v => (nomatch v), fun _ _ v => (nomatch v)⟩
  | .cons tag cached fs vs, ds, h => by
    have := variantsLaw_cons tag cached (fieldsLaw fs ds h.2.2.1) (variantsLaw vs ds h.2.2.2)
    have e1 : encodeVariant (.cons tag cached fs vs) =
        Sum.elim (fun x => leb tag.toNat ++ encodeFields fs x) (encodeVariant vs) := by
      funext v; cases v <;> rfl
    have e2 : WritableVariant (.cons tag cached fs vs) = Sum.elim (WritableFields fs) (WritableVariant vs) := by
      funext v; cases v <;> rfl
    have e3 : cellsVariant (.cons tag cached fs vs) = Sum.elim (cellsFields fs) (cellsVariant vs) := by
      funext v; cases v <;> rfl
    rw [e1, e2, e3]
    exact this
end

/-- `cellsOf` places a cache exactly where the code has one. -/
theorem cellsOf_own (t : Ty) (h : t.WF) (v : t.El) :
    cellsOf t v [] = if t.dict.hasCache v then some (encode t v).length else none :=
  (serLaw t h).own v

end Steit
