import Verif.ConfigLoad.Spec
/-! # Lemmas -/
namespace Verif.ConfigLoad

open Spec

theorem expanded_nil (env : Str → Option Str) : Expanded env [] [] := rfl

theorem expanded_append {env : Str → Option Str} {a b a' b' : List (List Seg × Str)} (h : Expanded env a b)
    (h' : Expanded env a' b') : Expanded env (a ++ a') (b ++ b') := by
  unfold Expanded at *
  rw [List.map_append, List.map_append, h, h']

theorem expanded_under {env : Str → Option Str} {a b : List (List Seg × Str)} (s : Seg) (h : Expanded env a b) :
    Expanded env (a.map (fun x => (s :: x.1, x.2))) (b.map (fun x => (s :: x.1, x.2))) := by
  unfold Expanded at *
  have := congrArg (List.map (fun y : List Seg × Except EnvString.Err Str => (s :: y.1, y.2))) h
  simpa [List.map_map, Function.comp_def] using this

mutual
theorem expand_ok {env : Str → Option Str} : ∀ (v : Toml) {path : List Seg} {r : Toml}, expand env path v = .ok r →
    shape r = shape v ∧ Expanded env (strings v) (strings r)
  | .str s => by
    intro h
    simp only [expand] at h
    split at h
    · rename_i out ho
      cases h
      refine ⟨rfl, ?_⟩
      simp [Expanded, strings, ho]
    · cases h
  | .other t => by
    intro h
    simp only [expand, Except.ok.injEq] at h
    subst h
    exact ⟨rfl, rfl⟩
  | .arr vs => by
    intro h
    simp only [expand] at h
    split at h
    · rename_i out ho
      cases h
      obtain ⟨h1, h2⟩ := expandAll_ok vs ho
      exact ⟨by simp only [shape, h1], by simpa only [strings] using h2⟩
    · cases h
  | .table es => by
    intro h
    simp only [expand] at h
    split at h
    · rename_i out ho
      cases h
      obtain ⟨h1, h2⟩ := expandEntries_ok es ho
      exact ⟨by simp only [shape, h1], by simpa only [strings] using h2⟩
    · cases h
theorem expandAll_ok {env : Str → Option Str} : ∀ (vs : Toms) {path : List Seg} {i : Nat} {r : Toms},
    expandAll env path i vs = .ok r → shapeAll r = shapeAll vs ∧ Expanded env (stringsAll i vs) (stringsAll i r)
  | .nil => by
    intro h
    simp only [expandAll, Except.ok.injEq] at h
    subst h
    exact ⟨rfl, rfl⟩
  | .cons v rest => by
    intro h
    simp only [expandAll] at h
    split at h
    · cases h
    · rename_i v' hv
      split at h
      · cases h
      · rename_i rest' hr
        cases h
        obtain ⟨h1, h2⟩ := expand_ok v hv
        obtain ⟨h3, h4⟩ := expandAll_ok rest hr
        refine ⟨by simp only [shapeAll, h1, h3], ?_⟩
        simp only [stringsAll]
        exact expanded_append (expanded_under _ h2) h4
theorem expandEntries_ok {env : Str → Option Str} : ∀ (es : Entries) {path : List Seg} {r : Entries},
    expandEntries env path es = .ok r → shapeEntries r = shapeEntries es ∧ Expanded env (stringsEntries es) (stringsEntries r)
  | .nil => by
    intro h
    simp only [expandEntries, Except.ok.injEq] at h
    subst h
    exact ⟨rfl, rfl⟩
  | .cons k v rest => by
    intro h
    simp only [expandEntries] at h
    split at h
    · cases h
    · rename_i v' hv
      split at h
      · cases h
      · rename_i rest' hr
        cases h
        obtain ⟨h1, h2⟩ := expand_ok v hv
        obtain ⟨h3, h4⟩ := expandEntries_ok rest hr
        refine ⟨by simp only [shapeEntries, h1, h3], ?_⟩
        simp only [stringsEntries]
        exact expanded_append (expanded_under _ h2) h4
end

theorem all_ok {env : Str → Option Str} {a b : List (List Seg × Str)} (h : Expanded env a b) {x : List Seg × Str}
    (hx : x ∈ a) : ∃ o, EnvString.expand env x.2 = .ok o := by
  unfold Expanded at h
  have : (x.1, EnvString.expand env x.2) ∈ a.map (fun x => (x.1, EnvString.expand env x.2)) := List.mem_map.mpr ⟨x, hx, rfl⟩
  rw [h, List.mem_map] at this
  obtain ⟨y, -, hy⟩ := this
  simp only [Prod.mk.injEq] at hy
  exact ⟨y.2, hy.2.symm⟩

theorem first_under {env : Str → Option Str} {a b : List (List Seg × Str)} {p : List Seg} {e : EnvString.Err} (s : Seg)
    (h : First env a p e) : First env (a.map (fun x => (s :: x.1, x.2)) ++ b) (s :: p) e := by
  obtain ⟨pre, t, post, rfl, h2, h3⟩ := h
  refine ⟨pre.map (fun x => (s :: x.1, x.2)), t, post.map (fun x => (s :: x.1, x.2)) ++ b, by simp, ?_, h3⟩
  intro x hx
  obtain ⟨y, hy, rfl⟩ := List.mem_map.mp hx
  exact h2 y hy

theorem first_after {env : Str → Option Str} {a a' b : List (List Seg × Str)} {p : List Seg} {e : EnvString.Err} (s : Seg)
    (ha : Expanded env a a') (h : First env b p e) : First env (a.map (fun x => (s :: x.1, x.2)) ++ b) p e := by
  obtain ⟨pre, t, post, rfl, h2, h3⟩ := h
  refine ⟨a.map (fun x => (s :: x.1, x.2)) ++ pre, t, post, by simp, ?_, h3⟩
  intro x hx
  rcases List.mem_append.mp hx with hx | hx
  · obtain ⟨y, hy, rfl⟩ := List.mem_map.mp hx
    exact all_ok ha (x := y) hy
  · exact h2 x hx

mutual
theorem expand_err {env : Str → Option Str} : ∀ (v : Toml) {path : List Seg} {t : Str} {e : EnvString.Err},
    expand env path v = .error (t, e) → ∃ p, First env (strings v) p e ∧ t = pathText (path ++ p)
  | .str s => by
    intro h
    simp only [expand] at h
    split at h
    · cases h
    · rename_i e' he
      cases h
      exact ⟨[], ⟨[], s, [], rfl, by simp, he⟩, by simp⟩
  | .other t => by
    intro h
    simp [expand] at h
  | .arr vs => by
    intro h
    simp only [expand] at h
    split at h
    · cases h
    · rename_i ho
      cases h
      simpa only [strings] using expandAll_err vs ho
  | .table es => by
    intro h
    simp only [expand] at h
    split at h
    · cases h
    · rename_i ho
      cases h
      simpa only [strings] using expandEntries_err es ho
theorem expandAll_err {env : Str → Option Str} : ∀ (vs : Toms) {path : List Seg} {i : Nat} {t : Str} {e : EnvString.Err},
    expandAll env path i vs = .error (t, e) → ∃ p, First env (stringsAll i vs) p e ∧ t = pathText (path ++ p)
  | .nil => by
    intro h
    simp [expandAll] at h
  | .cons v rest => by
    intro h
    simp only [expandAll] at h
    split at h
    · rename_i hv
      cases h
      obtain ⟨p, h1, h2⟩ := expand_err v hv
      exact ⟨_ :: p, first_under _ h1, by simpa using h2⟩
    · rename_i v' hv
      split at h
      · rename_i hr
        cases h
        obtain ⟨p, h1, h2⟩ := expandAll_err rest hr
        exact ⟨p, first_after _ (expand_ok v hv).2 h1, h2⟩
      · cases h
theorem expandEntries_err {env : Str → Option Str} : ∀ (es : Entries) {path : List Seg} {t : Str} {e : EnvString.Err},
    expandEntries env path es = .error (t, e) → ∃ p, First env (stringsEntries es) p e ∧ t = pathText (path ++ p)
  | .nil => by
    intro h
    simp [expandEntries] at h
  | .cons k v rest => by
    intro h
    simp only [expandEntries] at h
    split at h
    · rename_i hv
      cases h
      obtain ⟨p, h1, h2⟩ := expand_err v hv
      exact ⟨.key k :: p, first_under _ h1, by simpa using h2⟩
    · rename_i v' hv
      split at h
      · rename_i hr
        cases h
        obtain ⟨p, h1, h2⟩ := expandEntries_err rest hr
        exact ⟨p, first_after _ (expand_ok v hv).2 h1, h2⟩
      · cases h
end

theorem under_inj {s : Seg} {a b : List (List Seg × Str)}
    (h : a.map (fun x => (s :: x.1, x.2)) = b.map (fun x => (s :: x.1, x.2))) : a = b := by
  have := congrArg (List.map (fun y : List Seg × Str => (y.1.tail, y.2))) h
  simpa [List.map_map, Function.comp_def] using this

mutual
theorem lengths_shape : ∀ (v : Toml), (strings (shape v)).length = (strings v).length
  | .str _ => rfl
  | .other _ => rfl
  | .arr vs => by simpa only [shape, strings] using lengths_shapeAll 0 vs
  | .table es => by simpa only [shape, strings] using lengths_shapeEntries es
theorem lengths_shapeAll : ∀ (i : Nat) (v : Toms), (stringsAll i (shapeAll v)).length = (stringsAll i v).length
  | _, .nil => rfl
  | i, .cons v rest => by simp [shapeAll, stringsAll, lengths_shape v, lengths_shapeAll (i + 1) rest]
theorem lengths_shapeEntries : ∀ (v : Entries), (stringsEntries (shapeEntries v)).length = (stringsEntries v).length
  | .nil => rfl
  | .cons k v rest => by simp [shapeEntries, stringsEntries, lengths_shape v, lengths_shapeEntries rest]
end

theorem lengths (v w : Toml) (h : shape v = shape w) : (strings v).length = (strings w).length := by
  rw [← lengths_shape v, h, lengths_shape]

mutual
theorem determined : ∀ (v w : Toml), shape v = shape w → strings v = strings w → v = w
  | .str s, w => by
    intro h1 h2
    cases w with
    | str t => simp only [strings, List.cons.injEq, Prod.mk.injEq, and_true, true_and] at h2; rw [h2]
    | other t => simp [shape] at h1
    | arr t => simp [shape] at h1
    | table t => simp [shape] at h1
  | .other s, w => by
    intro h1 h2
    cases w with
    | str t => simp [shape] at h1
    | other t => simpa [shape] using h1
    | arr t => simp [shape] at h1
    | table t => simp [shape] at h1
  | .arr vs, w => by
    intro h1 h2
    cases w with
    | str t => simp [shape] at h1
    | other t => simp [shape] at h1
    | arr t =>
      simp only [shape, Toml.arr.injEq] at h1
      simp only [strings] at h2
      rw [determinedAll 0 vs t h1 h2]
    | table t => simp [shape] at h1
  | .table es, w => by
    intro h1 h2
    cases w with
    | str t => simp [shape] at h1
    | other t => simp [shape] at h1
    | arr t => simp [shape] at h1
    | table t =>
      simp only [shape, Toml.table.injEq] at h1
      simp only [strings] at h2
      rw [determinedEntries es t h1 h2]
theorem determinedAll : ∀ (i : Nat) (v w : Toms), shapeAll v = shapeAll w → stringsAll i v = stringsAll i w → v = w
  | i, .nil, w => by
    intro h1 h2
    cases w with
    | nil => rfl
    | cons _ _ => simp [shapeAll] at h1
  | i, .cons v rest, w => by
    intro h1 h2
    cases w with
    | nil => simp [shapeAll] at h1
    | cons v' rest' =>
      simp only [shapeAll, Toms.cons.injEq] at h1
      simp only [stringsAll] at h2
      have hl := lengths v v' h1.1
      obtain ⟨h3, h4⟩ := List.append_inj h2 (by simpa using hl)
      rw [determined v v' h1.1 (under_inj h3), determinedAll (i + 1) rest rest' h1.2 h4]
theorem determinedEntries : ∀ (v w : Entries), shapeEntries v = shapeEntries w → stringsEntries v = stringsEntries w → v = w
  | .nil, w => by
    intro h1 h2
    cases w with
    | nil => rfl
    | cons _ _ _ => simp [shapeEntries] at h1
  | .cons k v rest, w => by
    intro h1 h2
    cases w with
    | nil => simp [shapeEntries] at h1
    | cons k' v' rest' =>
      simp only [shapeEntries, Entries.cons.injEq] at h1
      obtain ⟨rfl, h1, h1'⟩ := h1
      simp only [stringsEntries] at h2
      have hl := lengths v v' h1
      obtain ⟨h3, h4⟩ := List.append_inj h2 (by simpa using hl)
      rw [determined v v' h1 (under_inj h3), determinedEntries rest rest' h1' h4]
end

/-! ## Places -/

theorem popDot_append (a b : Str) (h : b ≠ []) : popDot (a ++ b) = a ++ popDot b := by
  unfold popDot
  have hl : (a ++ b).getLast? = b.getLast? := by
    rw [List.getLast?_append]
    cases hb : b.getLast? with
    | none => exact absurd (List.getLast?_eq_none_iff.mp hb) h
    | some x => rfl
  rw [hl]
  split
  · rw [List.dropLast_append_of_ne_nil h]
  · rfl

theorem text_ne (s : Seg) : s.text ≠ [] := by cases s <;> simp [Seg.text]

theorem place_eq (p : List Seg) : pathText p = place p := by
  induction p with
  | nil => rfl
  | cons s rest ih =>
    cases rest with
    | nil =>
      cases s with
      | key k => simp [pathText, place, popDot, Seg.text]
      | index i =>
        simp only [pathText, place, popDot, Seg.text, List.flatMap_cons, List.flatMap_nil, List.append_nil]
        rw [if_neg]
        · simp
        · rw [List.getLast?_append]
          simp
    | cons t rest =>
      have hne : (t :: rest).flatMap Seg.text ≠ [] := by
        rw [List.flatMap_cons]
        intro h
        exact text_ne t (List.append_eq_nil_iff.mp h).1
      unfold pathText at ih ⊢
      rw [List.flatMap_cons, popDot_append _ _ hne, ih]
      cases s with
      | key k => simp [place, Seg.text]
      | index i => simp [place, Seg.text]

/-! ## Paths -/

variable {ρ : Type}

theorem parent_join {a b : Path} {d : Path} (h : (a.join b).parent = some d) (hd : d.absolute = true) :
    (a.join b).absolute = true := by
  unfold Path.parent at h
  split at h
  · cases h
  · cases h; exact hd

theorem fix_resolved {d : Path} (hd : d.absolute = true) (o : Option Path) :
    fix d o = o.map (resolved d.parts) := by
  cases o with
  | none => rfl
  | some p =>
    by_cases hp : p.absolute
    · simp [fix, resolved, hp]
    · simp [fix, resolved, hp, Path.join, hd]

/-- What making paths absolute gives. -/
theorem absolute_some {c c' : Config ρ} (h : c.withAbsolutePaths = some c') :
    ∃ q, c.path = some q ∧ q.absolute = true ∧ q.parts ≠ [] ∧
      c' = { c with
        subgraphs := c.subgraphs.map fun s => (s.1, s.2.map (resolved q.parts.dropLast))
        extensions := c.extensions.map fun e => (e.1, match e.2 with
          | .version => .version
          | .structured p => .structured (p.map (resolved q.parts.dropLast)))
        wasm := c.wasm.map (fun o => o.map (resolved q.parts.dropLast)) } := by
  unfold Config.withAbsolutePaths Config.parentDir at h
  cases hp : c.path with
  | none => simp [hp] at h
  | some q =>
    cases hq : q.parent with
    | none => simp [hp, hq] at h
    | some d =>
      have hd' := hq
      unfold Path.parent at hd'
      split at hd'
      · cases hd'
      · rename_i hne
        simp only [Option.some.injEq] at hd'
        by_cases hd : d.absolute = true
        · simp only [hp, hq, hd, if_true, Option.some.injEq] at h
          have h1 : q.absolute = true := by rw [← hd'] at hd; exact hd
          have h2 : d.parts = q.parts.dropLast := by rw [← hd']
          refine ⟨q, rfl, h1, hne, ?_⟩
          rw [← h, ← h2]
          have e1 : (fun s : Str × Option Path => (s.1, fix d s.2)) = fun s => (s.1, s.2.map (resolved d.parts)) := by
            funext s; rw [fix_resolved hd]
          have e2 : (fun e : Str × Ext => (e.1, fixExt d e.2)) = fun e => (e.1, match e.2 with
              | .version => .version
              | .structured p => .structured (p.map (resolved d.parts))) := by
            funext e
            obtain ⟨n, x⟩ := e
            cases x with
            | version => rfl
            | structured p => simp only [fixExt, fix_resolved hd]
          rw [e1, e2]
          cases hw : c.wasm with
          | none => rfl
          | some o => simp [fix_resolved hd]
        · simp [hp, hq, hd] at h

theorem absolute_none {c : Config ρ} {q : Path} (hp : c.path = some q) :
    c.withAbsolutePaths = none ↔ q.absolute = false ∨ q.parts = [] := by
  unfold Config.withAbsolutePaths Config.parentDir Path.parent
  by_cases hq : q.parts = []
  · simp [hp, hq]
  · cases ha : q.absolute <;> simp [hp, hq, ha]

theorem paths_resolved (c : Config ρ) (f : Path → Path) :
    paths { c with
      subgraphs := c.subgraphs.map fun s => (s.1, s.2.map f)
      extensions := c.extensions.map fun e => (e.1, match e.2 with
        | .version => .version
        | .structured p => .structured (p.map f))
      wasm := c.wasm.map (fun o => o.map f) } = (paths c).map f := by
  unfold paths
  simp only [List.map_append]
  congr 1
  · congr 1
    · induction c.subgraphs with
      | nil => rfl
      | cons s rest ih =>
        obtain ⟨n, o⟩ := s
        cases o <;> simpa using ih
    · induction c.extensions with
      | nil => rfl
      | cons e rest ih =>
        obtain ⟨n, x⟩ := e
        cases x with
        | version => simpa using ih
        | structured o => cases o <;> simpa using ih
  · cases hw : c.wasm with
    | none => rfl
    | some o => cases o <;> rfl

end Verif.ConfigLoad
