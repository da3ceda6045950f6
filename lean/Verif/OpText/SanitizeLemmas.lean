import Verif.OpText.Sanitize
import Verif.OpText.SanitizeSpec
/-!
# Lemmas about the sanitiser
-/
namespace Verif.OpText

/-! ## The loops with counters are joins -/

mutual

theorem sanValue_eq : ∀ v : Value, sanValue v = Text.value v
  | .var n => rfl
  | .int _ => rfl
  | .float _ => rfl
  | .str _ => rfl
  | .bool true => rfl
  | .bool false => rfl
  | .null => rfl
  | .enum n => rfl
  | .list _ => rfl
  | .obj fs => by
    unfold sanValue Text.value
    rw [sanFields_eq fs.length 0 fs (by simp)]
    rfl

theorem sanFields_eq (count : Nat) : ∀ (i : Nat) (fs : List (Str × Value)), i + fs.length = count →
    sanFields count i fs = Text.join [',', ' '] (Text.named fs)
  | _, [], _ => rfl
  | i, [(n, v)], h => by
    have h' : i = count - 1 := by simp at h; omega
    rw [sanFields, sanFields, if_neg (by omega), sanValue_eq v]
    simp [Text.named, Text.join]
  | i, (n, v) :: y :: rest, h => by
    have h' : i ≠ count - 1 := by simp at h; omega
    rw [sanFields, if_pos h', sanValue_eq v, sanFields_eq count (i + 1) (y :: rest) (by simp at h ⊢; omega)]
    simp [Text.named, Text.join]

end

theorem sanArgs_tail (sep : Str) (count : Nat) : ∀ (i : Nat) (fs : List (Str × Value)), 0 < i → i + fs.length = count →
    fs ≠ [] → sanArgs sep count i fs = Text.join sep (Text.named fs) ++ [')']
  | _, [], _, _, h => absurd rfl h
  | i, [(n, v)], h0, h, _ => by
    have h' : i = count - 1 := by simp at h; omega
    rw [sanArgs, sanArgs, if_neg (by omega), if_pos h', sanValue_eq v]
    simp [Text.named, Text.join]
  | i, (n, v) :: y :: rest, h0, h, _ => by
    have h' : i ≠ count - 1 := by simp at h; omega
    rw [sanArgs, if_neg (by omega), if_neg h', sanValue_eq v,
      sanArgs_tail sep count (i + 1) (y :: rest) (by omega) (by simp at h ⊢; omega) (by simp)]
    simp [Text.named, Text.join]

theorem sanArgs_eq (sep : Str) (fs : List (Str × Value)) :
    sanArgs sep fs.length 0 fs = Text.parens sep (Text.named fs) := by
  match fs with
  | [] => rfl
  | [(n, v)] =>
    rw [sanArgs, sanArgs, sanValue_eq v]
    simp [Text.named, Text.join, Text.parens]
  | (n, v) :: y :: rest =>
    rw [sanArgs, if_pos rfl, if_neg (by simp), sanValue_eq v,
      sanArgs_tail sep _ 1 (y :: rest) (by omega) (by simp; omega) (by simp)]
    simp [Text.named, Text.join, Text.parens]

theorem sanDirs_eq : ∀ ds : List Directive, sanDirs ds = Text.dirs ds
  | [] => rfl
  | d :: ds => by
    rw [sanDirs, sanDirs_eq ds, sanArgs_eq]
    simp [Text.dirs]

mutual

theorem sanSel_eq : ∀ s : Sel, sanSel s = Text.sel s
  | .field (some a) n args ds ss => by
    rw [sanSel, sanArgs_eq, sanDirs_eq, sanSels_eq ss]
    simp [Text.sel]
  | .field none n args ds ss => by
    rw [sanSel, sanArgs_eq, sanDirs_eq, sanSels_eq ss]
    simp [Text.sel]
  | .inline (some t) ds ss => by
    rw [sanSel, sanDirs_eq, sanSels_eq ss]
    simp [Text.sel]
  | .inline none ds ss => by
    rw [sanSel, sanDirs_eq, sanSels_eq ss]
    simp [Text.sel]
  | .spread n ds => by
    rw [sanSel]
    simp [Text.sel]

theorem sanSels_eq : ∀ ss : List Sel, sanSels ss.length 0 ss = Text.braces (Text.sels ss)
  | [] => rfl
  | s :: rest => by
    rw [sanSels, if_pos rfl, sanSel_eq s]
    match rest with
    | [] => simp [sanSels, Text.sels, Text.braces]
    | y :: rest =>
      rw [if_neg (by simp), sanSels_tail _ 1 (y :: rest) (by omega) (by simp; omega) (by simp)]
      simp [Text.sels, Text.braces]

theorem sanSels_tail (count : Nat) : ∀ (i : Nat) (ss : List Sel), 0 < i → i + ss.length = count → ss ≠ [] →
    sanSels count i ss = (Text.sels ss).flatten ++ [' ', '}']
  | _, [], _, _, h => absurd rfl h
  | i, [s], h0, h, _ => by
    have h' : i = count - 1 := by simp at h; omega
    rw [sanSels, sanSels, if_neg (by omega), if_pos h', sanSel_eq s]
    simp [Text.sels]
  | i, s :: y :: rest, h0, h, _ => by
    have h' : i ≠ count - 1 := by simp at h; omega
    rw [sanSels, if_neg (by omega), if_neg h', sanSel_eq s,
      sanSels_tail count (i + 1) (y :: rest) (by omega) (by simp at h ⊢; omega) (by simp)]
    simp [Text.sels]

end

theorem showTy_eq : ∀ t : Ty, showTy t = Text.ty t
  | .named n => rfl
  | .list t => by simp [showTy, Text.ty, showTy_eq t]
  | .nonNull t => by simp [showTy, Text.ty, showTy_eq t]

theorem sanVars_tail (count : Nat) : ∀ (i : Nat) (vs : List VarDef), 0 < i → i + vs.length = count → vs ≠ [] →
    sanVars count i vs = Text.join [',', ' '] (vs.map fun v => '$' :: v.name ++ [':', ' '] ++ Text.ty v.ty) ++ [')']
  | _, [], _, _, h => absurd rfl h
  | i, [v], h0, h, _ => by
    have h' : i = count - 1 := by simp at h; omega
    rw [sanVars, sanVars, if_neg (by omega), if_pos h', showTy_eq]
    simp [Text.join]
  | i, v :: y :: rest, h0, h, _ => by
    have h' : i ≠ count - 1 := by simp at h; omega
    rw [sanVars, if_neg (by omega), if_neg h', showTy_eq,
      sanVars_tail count (i + 1) (y :: rest) (by omega) (by simp at h ⊢; omega) (by simp)]
    simp [Text.join]

theorem sanVars_eq (vs : List VarDef) : sanVars vs.length 0 vs = Text.vars vs := by
  match vs with
  | [] => rfl
  | [v] =>
    rw [sanVars, sanVars, showTy_eq]
    simp [Text.vars, Text.join, Text.parens]
  | v :: y :: rest =>
    rw [sanVars, if_pos rfl, if_neg (by simp), showTy_eq,
      sanVars_tail _ 1 (y :: rest) (by omega) (by simp; omega) (by simp)]
    simp [Text.vars, Text.join, Text.parens]

theorem keyword_eq (k : OpKind) : keyword k = Text.opType k := by cases k <;> rfl

theorem sanDef_eq (d : Def) : sanDef d = Text.definition d := by
  match d with
  | .op ⟨k, some n, vs, ds, ss⟩ =>
    show keyword k ++ ' ' :: n ++ sanVars vs.length 0 vs ++ sanSels ss.length 0 ss = _
    rw [sanVars_eq, sanSels_eq, keyword_eq]
    simp [Text.definition]
  | .op ⟨k, none, vs, ds, ss⟩ =>
    show keyword k ++ [] ++ sanVars vs.length 0 vs ++ sanSels ss.length 0 ss = _
    rw [sanVars_eq, sanSels_eq, keyword_eq]
    simp [Text.definition]
  | .frag f =>
    rw [sanDef, sanDirs_eq, sanSels_eq]
    simp [Text.definition]

theorem sanDefs_eq (count : Nat) : ∀ (i : Nat) (ds : List Def), i + ds.length = count →
    sanDefs count i ds = Text.join [' '] (ds.map Text.definition)
  | _, [], _ => rfl
  | i, [d], h => by
    have h' : i = count - 1 := by simp at h; omega
    rw [sanDefs, sanDefs, if_neg (by omega), sanDef_eq]
    simp [Text.join]
  | i, d :: y :: rest, h => by
    have h' : i ≠ count - 1 := by simp at h; omega
    rw [sanDefs, if_pos h', sanDef_eq, sanDefs_eq count (i + 1) (y :: rest) (by simp at h ⊢; omega)]
    simp [Text.join]

/-! ## Literals do not matter -/

theorem SameFields.named {as bs : List (Str × Value)} (h : SameFields as bs) : Text.named as = Text.named bs := by
  induction h with
  | nil => rfl
  | obj k _ _ iha ih => simp only [Text.named, Text.value, iha, ih]
  | same k v _ ih => simp only [Text.named, ih]
  | _ => simp only [Text.named, Text.value, *]

theorem SameDirs.text {ds es : List Directive} (h : SameDirs ds es) : Text.dirs ds = Text.dirs es := by
  induction h with
  | nil => rfl
  | cons n ha _ ih =>
    unfold Text.dirs at ih ⊢
    simp only [List.map_cons, List.flatten_cons, ih, ha.named]

theorem SameSels.text {ss ts : List Sel} (h : SameSels ss ts) : Text.sels ss = Text.sels ts := by
  induction h with
  | nil => rfl
  | field al n ha hd hs h ihs ih => cases al <;> simp only [Text.sels, Text.sel, ha.named, hd.text, ihs, ih]
  | spread n hd h ih => simp only [Text.sels, Text.sel, ih]
  | inline c hd hs h ihs ih => cases c <;> simp only [Text.sels, Text.sel, hd.text, ihs, ih]

theorem SameVars.text {vs ws : List VarDef} (h : SameVars vs ws) : Text.vars vs = Text.vars ws := by
  have : (vs.map fun v => '$' :: v.name ++ [':', ' '] ++ Text.ty v.ty) =
      ws.map fun v => '$' :: v.name ++ [':', ' '] ++ Text.ty v.ty := by
    induction h with
    | nil => rfl
    | cons n t d e _ ih => simp only [List.map_cons, ih]
  unfold Text.vars
  rw [this]

theorem SameDoc.text {ds es : List Def} (h : SameDoc ds es) : ds.map Text.definition = es.map Text.definition := by
  induction h with
  | nil => rfl
  | op k n hv _ hs _ ih => cases n <;> simp only [List.map_cons, Text.definition, hv.text, hs.text, ih]
  | frag n c hd hs _ ih => simp only [List.map_cons, Text.definition, hd.text, hs.text, ih]

end Verif.OpText
