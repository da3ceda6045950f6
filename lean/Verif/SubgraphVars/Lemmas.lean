import Verif.SubgraphVars.Spec
import Verif.SchemaPath.Lemmas
import Mathlib.Data.List.Perm.Subperm
/-! Soundness of the comparison of values. -/
namespace Verif.SubgraphVars
open Verif.Coercion (Json Str Ty)
open Verif.Literals (Q Names Env serQ serItems serFields serMap isUndefined jsonInt)

theorem bind_true {a : Option Bool} {f : Bool → Option Bool} (h : a.bind f = some true) : ∃ b, a = some b ∧ f b = some true := by
  cases a with
  | none => cases h
  | some b => exact ⟨b, rfl, h⟩

theorem and_true {a : Option Bool} {c : Option Bool} (h : (a.bind fun b => if b then c else some false) = some true) :
    a = some true ∧ c = some true := by
  obtain ⟨b, h1, h2⟩ := bind_true h
  cases b with
  | true => exact ⟨h1, h2⟩
  | false => cases h2

theorem dec_true {p : Prop} [Decidable p] (h : some (decide p) = some true) : p := of_decide_eq_true (Option.some.inj h)

mutual
theorem eqS_eq : ∀ (l r : S), eqS l r = some true → l = r
  | .null, r, h => by cases r <;> first | rfl | (simp [eqS] at h)
  | .str _, r, h => by cases r <;> (simp [eqS] at h; try rw [h])
  | .enumValue _, r, h => by cases r <;> (simp [eqS] at h; try rw [h])
  | .int _, r, h => by cases r <;> (simp [eqS] at h; try rw [h])
  | .i64 _, r, h => by cases r <;> (simp [eqS] at h; try rw [h])
  | .u64 _, r, h => by cases r <;> (simp [eqS] at h; try rw [h])
  | .float _, r, h => by cases r <;> (simp [eqS] at h; try rw [h])
  | .bool _, r, h => by cases r <;> (simp [eqS] at h; try rw [h])
  | .unboundEnum _, r, h => by cases r <;> simp [eqS] at h
  | .object l, r, h => by
    cases r with
    | object r =>
      rw [eqS] at h
      split at h
      · cases h
      · rename_i hl
        rw [eqSFields_eq l r (by omega) h]
    | _ => simp [eqS] at h
  | .list l, r, h => by
    cases r with
    | list r => rw [eqS] at h; rw [eqSItems_eq l r h]
    | _ => simp [eqS] at h
  | .map l, r, h => by
    cases r with
    | map r => rw [eqS] at h; rw [eqSMap_eq l r h]
    | _ => simp [eqS] at h
theorem eqSFields_eq : ∀ (l r : List (Nat × S)), l.length = r.length → eqSFields l r = some true → l = r
  | [], [], _, _ => rfl
  | [], _ :: _, h, _ => by cases h
  | _ :: _, [], h, _ => by cases h
  | (i, x) :: xs, (j, y) :: ys, hl, h => by
    rw [eqSFields] at h
    split at h
    · cases h
    · rename_i e
      obtain ⟨h1, h2⟩ := and_true h
      rw [eqS_eq x y h1, eqSFields_eq xs ys (by simpa using hl) h2, Classical.not_not.1 e]
theorem eqSItems_eq : ∀ (l r : List S), eqSItems l r = some true → l = r
  | [], [], _ => rfl
  | [], _ :: _, h => by simp [eqSItems, eqSMap] at h
  | _ :: _, [], h => by simp [eqSItems, eqSMap] at h
  | x :: xs, y :: ys, h => by
    rw [eqSItems] at h
    obtain ⟨h1, h2⟩ := and_true h
    rw [eqS_eq x y h1, eqSItems_eq xs ys h2]
theorem eqSMap_eq : ∀ (l r : List (Str × S)), eqSMap l r = some true → l = r
  | [], [], _ => rfl
  | [], _ :: _, h => by simp [eqSItems, eqSMap] at h
  | _ :: _, [], h => by simp [eqSItems, eqSMap] at h
  | (i, x) :: xs, (j, y) :: ys, h => by
    rw [eqSMap] at h
    split at h
    · cases h
    · rename_i e
      obtain ⟨h1, h2⟩ := and_true h
      rw [eqS_eq x y h1, eqSMap_eq xs ys h2, Classical.not_not.1 e]
end

/-! ## Objects with unordered keys -/

theorem mem_serMap {nm : Names} {env : Env} {k : Str} {v : Json} : ∀ {xs : List (Str × Q)},
    (k, v) ∈ serMap nm env xs ↔ ∃ x, (k, x) ∈ xs ∧ v = serQ nm env x
  | [] => by simp [serMap]
  | (l, y) :: ys => by
    rw [serMap, List.mem_cons, mem_serMap (xs := ys)]
    constructor
    · rintro (h | ⟨x, h1, h2⟩)
      · cases h; exact ⟨y, List.mem_cons_self, rfl⟩
      · exact ⟨x, List.mem_cons_of_mem _ h1, h2⟩
    · rintro ⟨x, h1, h2⟩
      rcases List.mem_cons.1 h1 with h | h
      · cases h; exact Or.inl (by rw [h2])
      · exact Or.inr ⟨x, h, h2⟩

theorem keys_serMap {nm : Names} {env : Env} : ∀ (xs : List (Str × Q)), keys (serMap nm env xs) = keys xs
  | [] => rfl
  | (l, y) :: ys => by
    rw [serMap]
    unfold keys
    rw [List.map_cons, List.map_cons]
    congr 1
    exact keys_serMap ys

theorem mem_serSMap {nm : Names} {k : Str} {v : Json} : ∀ {xs : List (Str × S)},
    (k, v) ∈ serSMap nm xs ↔ ∃ x, (k, x) ∈ xs ∧ v = serS nm x
  | [] => by simp [serSMap]
  | (l, y) :: ys => by
    rw [serSMap, List.mem_cons, mem_serSMap (xs := ys)]
    constructor
    · rintro (h | ⟨x, h1, h2⟩)
      · cases h; exact ⟨y, List.mem_cons_self, rfl⟩
      · exact ⟨x, List.mem_cons_of_mem _ h1, h2⟩
    · rintro ⟨x, h1, h2⟩
      rcases List.mem_cons.1 h1 with h | h
      · cases h; exact Or.inl (by rw [h2])
      · exact Or.inr ⟨x, h, h2⟩

theorem keys_serSMap {nm : Names} : ∀ (xs : List (Str × S)), keys (serSMap nm xs) = keys xs
  | [] => rfl
  | (l, y) :: ys => by
    rw [serSMap]
    unfold keys
    rw [List.map_cons, List.map_cons]
    congr 1
    exact keys_serSMap ys

theorem mem_keys {α : Type} {k : Str} {fs : List (Str × α)} : k ∈ keys fs ↔ ∃ x, (k, x) ∈ fs := by
  unfold keys
  rw [List.mem_map]
  constructor
  · rintro ⟨⟨a, b⟩, h, rfl⟩; exact ⟨b, h⟩
  · rintro ⟨x, h⟩; exact ⟨_, h, rfl⟩

theorem keyed_unique {α : Type} {k : Str} {x y : α} : ∀ {fs : List (Str × α)}, (keys fs).Nodup → (k, x) ∈ fs → (k, y) ∈ fs → x = y
  | [], _, h, _ => by cases h
  | (l, z) :: rest, hn, h1, h2 => by
    have hn' : l ∉ keys rest ∧ (keys rest).Nodup := List.nodup_cons.1 hn
    rcases List.mem_cons.1 h1 with e1 | m1 <;> rcases List.mem_cons.1 h2 with e2 | m2
    · cases e1; cases e2; rfl
    · cases e1; exact absurd (mem_keys.2 ⟨y, m2⟩) hn'.1
    · cases e2; exact absurd (mem_keys.2 ⟨x, m1⟩) hn'.1
    · exact keyed_unique hn'.2 m1 m2

theorem same_keys {α β : Type} {fs : List (Str × α)} {gs : List (Str × β)} (hl : fs.length = gs.length) (hn : (keys fs).Nodup)
    (h : ∀ k ∈ keys fs, k ∈ keys gs) (k : Str) : k ∈ keys fs ↔ k ∈ keys gs := by
  have hsub := List.subperm_of_subset hn h
  have hperm := hsub.perm_of_length_le (by simp [keys, hl])
  exact hperm.mem_iff

theorem find_some {α : Type} {k : Str} {fs : List (Str × α)} {p : Str × α} (h : fs.find? (fun p => decide (p.1 = k)) = some p) :
    (k, p.2) ∈ fs := by
  have h1 := List.mem_of_find?_eq_some h
  have h2 := List.find?_some h
  have h2 : p.1 = k := of_decide_eq_true h2
  obtain ⟨a, b⟩ := p
  cases h2
  exact h1

theorem skeyedMap_mem {k : Str} {x : S} : ∀ {xs : List (Str × S)}, skeyedMap xs → (k, x) ∈ xs → S.Keyed x
  | [], _, h => by cases h
  | (l, y) :: ys, hk, h => by
    rw [skeyedMap] at hk
    rcases List.mem_cons.1 h with e | h
    · cases e; exact hk.1
    · exact skeyedMap_mem hk.2 h

theorem keyedMap_mem {k : Str} {x : Q} : ∀ {xs : List (Str × Q)}, keyedMap xs → (k, x) ∈ xs → Q.Keyed x
  | [], _, h => by cases h
  | (l, y) :: ys, hk, h => by
    rw [keyedMap] at hk
    rcases List.mem_cons.1 h with e | h
    · cases e; exact hk.1
    · exact keyedMap_mem hk.2 h

/-! ## Values of an operation and of the schema -/

section
variable {values : Nat → S} {nm : Names} {env : Env}

theorem not_undefined_of_eqQS {q : Q} {s : S} (h : eqQS values q s = some true) : isUndefined env q = false := by
  cases q with
  | «variable» i => cases s <;> simp [eqQS] at h
  | _ => rfl

mutual
theorem eqQS_sound (hnm : ∀ id, nm.default id = serS nm (values id)) : ∀ (q : Q) (s : S), eqQS values q s = some true → Q.Keyed q →
    S.Keyed s → JEq (serQ nm env q) (serS nm s)
  | .null, s, h, _, _ => by cases s <;> first | exact .refl _ | (simp [eqQS] at h)
  | .str _, s, h, _, _ => by cases s <;> (simp [eqQS] at h; try (rw [h]; exact .refl _))
  | .enumValue _, s, h, _, _ => by cases s <;> (simp [eqQS] at h; try (rw [h]; exact .refl _))
  | .int _, s, h, _, _ => by cases s <;> (simp [eqQS] at h; try (rw [h]; exact .refl _))
  | .i64 _, s, h, _, _ => by cases s <;> (simp [eqQS] at h; try (rw [h]; exact .refl _))
  | .float _, s, h, _, _ => by cases s <;> (simp [eqQS] at h; try (rw [h]; exact .refl _))
  | .bool _, s, h, _, _ => by cases s <;> (simp [eqQS] at h; try (rw [h]; exact .refl _))
  | .default id, s, h, _, _ => by
    rw [eqQS] at h
    rw [serQ, hnm, eqS_eq _ _ h]
    exact .refl _
  | .variable _, s, h, _, _ => by cases s <;> simp [eqQS] at h
  | .object _ l, s, h, hq, hs => by
    cases s with
    | object r =>
      rw [eqQS] at h
      split at h
      · cases h
      · rename_i hl
        rw [serQ, serS]
        rw [Q.Keyed] at hq
        rw [S.Keyed] at hs
        exact .fields (eqQSFields_sound hnm l r (by omega) h hq hs)
    | _ => simp [eqQS] at h
  | .list l, s, h, hq, hs => by
    cases s with
    | list r =>
      rw [eqQS] at h
      split at h
      · cases h
      · rename_i hl
        rw [serQ, serS]
        rw [Q.Keyed] at hq
        rw [S.Keyed] at hs
        exact .arr (eqQSItems_sound hnm l r (by omega) h hq hs)
    | _ => simp [eqQS] at h
  | .map l, s, h, hq, hs => by
    cases s with
    | map r =>
      rw [eqQS] at h
      split at h
      · cases h
      · rename_i hl
        rw [serQ, serS]
        rw [Q.Keyed] at hq
        rw [S.Keyed] at hs
        have hm := eqQSMap_sound hnm l r h hq.2 hs.2
        refine .keyed (by rw [keys_serMap]; exact hq.1) (by rw [keys_serSMap]; exact hs.1) (fun k => ?_) fun k v w hv hw => ?_
        · rw [keys_serMap, keys_serSMap]
          refine same_keys (by omega) hq.1 (fun k hk => ?_) k
          obtain ⟨x, hx⟩ := mem_keys.1 hk
          obtain ⟨y, hy, _⟩ := hm k x hx
          exact mem_keys.2 ⟨y, hy⟩
        · obtain ⟨x, hx, rfl⟩ := mem_serMap.1 hv
          obtain ⟨y, hy, rfl⟩ := mem_serSMap.1 hw
          obtain ⟨y', hy', h'⟩ := hm k x hx
          rw [keyed_unique hs.1 hy hy']
          exact h'
    | _ => simp [eqQS] at h
theorem eqQSFields_sound (hnm : ∀ id, nm.default id = serS nm (values id)) : ∀ (l : List (Nat × Q)) (r : List (Nat × S)),
    l.length = r.length → eqQSFields values l r = some true → keyedFields l → skeyedFields r →
    FieldsEq (serFields nm env l) (serSFields nm r)
  | [], [], _, _, _, _ => .nil
  | [], _ :: _, h, _, _, _ => by cases h
  | _ :: _, [], h, _, _, _ => by cases h
  | (i, x) :: xs, (j, y) :: ys, hl, h, hq, hs => by
    rw [eqQSFields] at h
    split at h
    · cases h
    · rename_i e
      obtain ⟨h1, h2⟩ := and_true h
      rw [keyedFields] at hq
      rw [skeyedFields] at hs
      have e' : i = j := Classical.not_not.1 e
      subst e'
      rw [serFields, if_neg (by rw [not_undefined_of_eqQS h1]; simp), serSFields]
      exact .cons (eqQS_sound hnm x y h1 hq.1 hs.1) (eqQSFields_sound hnm xs ys (by simpa using hl) h2 hq.2 hs.2)
theorem eqQSItems_sound (hnm : ∀ id, nm.default id = serS nm (values id)) : ∀ (l : List Q) (r : List S),
    l.length = r.length → eqQSItems values l r = some true → keyedItems l → skeyedItems r → ItemsEq (serItems nm env l) (serSItems nm r)
  | [], [], _, _, _, _ => .nil
  | [], _ :: _, h, _, _, _ => by cases h
  | _ :: _, [], h, _, _, _ => by cases h
  | x :: xs, y :: ys, hl, h, hq, hs => by
    rw [eqQSItems] at h
    obtain ⟨h1, h2⟩ := and_true h
    rw [keyedItems] at hq
    rw [skeyedItems] at hs
    rw [serItems, serSItems]
    exact .cons (eqQS_sound hnm x y h1 hq.1 hs.1) (eqQSItems_sound hnm xs ys (by simpa using hl) h2 hq.2 hs.2)
theorem eqQSMap_sound (hnm : ∀ id, nm.default id = serS nm (values id)) : ∀ (l : List (Str × Q)) (r : List (Str × S)),
    eqQSMap values l r = some true → keyedMap l → skeyedMap r → ∀ k x, (k, x) ∈ l → ∃ y, (k, y) ∈ r ∧ JEq (serQ nm env x) (serS nm y)
  | [], _, _, _, _, _, _, hx => by cases hx
  | (i, x) :: xs, r, h, hq, hs, k, z, hz => by
    rw [eqQSMap] at h
    cases hf : r.find? (fun p => decide (p.1 = i)) with
    | none => rw [hf] at h; cases h
    | some p =>
      rw [hf] at h
      obtain ⟨h1, h2⟩ := and_true h
      rw [keyedMap] at hq
      rcases List.mem_cons.1 hz with e | hz
      · cases e
        exact ⟨p.2, find_some hf, eqQS_sound hnm _ p.2 h1 hq.1 (skeyedMap_mem hs (find_some hf))⟩
      · exact eqQSMap_sound hnm xs r h2 hq.2 hs k z hz
end

/-! ## Values of an operation -/

theorem undefined_of_eqQ {l r : Q} (h : eqQ values l r = some true) : isUndefined env l = isUndefined env r := by
  cases l with
  | «variable» i =>
    cases r with
    | «variable» j => simp [eqQ] at h; rw [h]
    | _ => simp [eqQ] at h
  | _ =>
    cases r with
    | «variable» j => simp [eqQ] at h
    | _ => rfl

mutual
theorem eqQ_sound (hnm : ∀ id, nm.default id = serS nm (values id)) : ∀ (q s : Q), eqQ values q s = some true → Q.Keyed q →
    Q.Keyed s → JEq (serQ nm env q) (serQ nm env s)
  | .null, s, h, _, _ => by cases s <;> first | exact .refl _ | (simp [eqQ] at h)
  | .str _, s, h, _, _ => by cases s <;> (simp [eqQ] at h; try (rw [h]; exact .refl _))
  | .enumValue _, s, h, _, _ => by cases s <;> (simp [eqQ] at h; try (rw [h]; exact .refl _))
  | .int _, s, h, _, _ => by cases s <;> (simp [eqQ] at h; try (rw [h]; exact .refl _))
  | .i64 _, s, h, _, _ => by cases s <;> (simp [eqQ] at h; try (rw [h]; exact .refl _))
  | .float _, s, h, _, _ => by cases s <;> (simp [eqQ] at h; try (rw [h]; exact .refl _))
  | .bool _, s, h, _, _ => by cases s <;> (simp [eqQ] at h; try (rw [h]; exact .refl _))
  | .default id, s, h, _, _ => by
    cases s with
    | default id' =>
      rw [eqQ] at h
      rw [serQ, serQ, hnm, hnm, eqS_eq _ _ h]
      exact .refl _
    | _ => simp [eqQ] at h
  | .variable _, s, h, _, _ => by cases s <;> (simp [eqQ] at h; try (rw [h]; exact .refl _))
  | .object _ l, s, h, hq, hs => by
    cases s with
    | object _ r =>
      rw [eqQ] at h
      split at h
      · cases h
      · rename_i hl
        rw [serQ, serQ]
        rw [Q.Keyed] at hq hs
        exact .fields (eqQFields_sound hnm l r (by omega) h hq hs)
    | _ => simp [eqQ] at h
  | .list l, s, h, hq, hs => by
    cases s with
    | list r =>
      rw [eqQ] at h
      split at h
      · cases h
      · rename_i hl
        rw [serQ, serQ]
        rw [Q.Keyed] at hq hs
        exact .arr (eqQItems_sound hnm l r (by omega) h hq hs)
    | _ => simp [eqQ] at h
  | .map l, s, h, hq, hs => by
    cases s with
    | map r =>
      rw [eqQ] at h
      split at h
      · cases h
      · rename_i hl
        rw [serQ, serQ]
        rw [Q.Keyed] at hq hs
        have hm := eqQMap_sound hnm l r h hq.2 hs.2
        refine .keyed (by rw [keys_serMap]; exact hq.1) (by rw [keys_serMap]; exact hs.1) (fun k => ?_) fun k v w hv hw => ?_
        · rw [keys_serMap, keys_serMap]
          refine same_keys (by omega) hq.1 (fun k hk => ?_) k
          obtain ⟨x, hx⟩ := mem_keys.1 hk
          obtain ⟨y, hy, _⟩ := hm k x hx
          exact mem_keys.2 ⟨y, hy⟩
        · obtain ⟨x, hx, rfl⟩ := mem_serMap.1 hv
          obtain ⟨y, hy, rfl⟩ := mem_serMap.1 hw
          obtain ⟨y', hy', h'⟩ := hm k x hx
          rw [keyed_unique hs.1 hy hy']
          exact h'
    | _ => simp [eqQ] at h
theorem eqQFields_sound (hnm : ∀ id, nm.default id = serS nm (values id)) : ∀ (l r : List (Nat × Q)),
    l.length = r.length → eqQFields values l r = some true → keyedFields l → keyedFields r →
    FieldsEq (serFields nm env l) (serFields nm env r)
  | [], [], _, _, _, _ => .nil
  | [], _ :: _, h, _, _, _ => by cases h
  | _ :: _, [], h, _, _, _ => by cases h
  | (i, x) :: xs, (j, y) :: ys, hl, h, hq, hs => by
    rw [eqQFields] at h
    split at h
    · cases h
    · rename_i e
      obtain ⟨h1, h2⟩ := and_true h
      rw [keyedFields] at hq hs
      have e' : i = j := Classical.not_not.1 e
      subst e'
      have ih := eqQFields_sound hnm xs ys (by simpa using hl) h2 hq.2 hs.2
      rw [serFields, serFields, ← undefined_of_eqQ h1]
      split
      · cases nm.fieldDefault i with
        | none => exact ih
        | some d => exact .cons (.refl _) ih
      · exact .cons (eqQ_sound hnm x y h1 hq.1 hs.1) ih
theorem eqQItems_sound (hnm : ∀ id, nm.default id = serS nm (values id)) : ∀ (l r : List Q),
    l.length = r.length → eqQItems values l r = some true → keyedItems l → keyedItems r → ItemsEq (serItems nm env l) (serItems nm env r)
  | [], [], _, _, _, _ => .nil
  | [], _ :: _, h, _, _, _ => by cases h
  | _ :: _, [], h, _, _, _ => by cases h
  | x :: xs, y :: ys, hl, h, hq, hs => by
    rw [eqQItems] at h
    obtain ⟨h1, h2⟩ := and_true h
    rw [keyedItems] at hq hs
    rw [serItems, serItems]
    exact .cons (eqQ_sound hnm x y h1 hq.1 hs.1) (eqQItems_sound hnm xs ys (by simpa using hl) h2 hq.2 hs.2)
theorem eqQMap_sound (hnm : ∀ id, nm.default id = serS nm (values id)) : ∀ (l r : List (Str × Q)),
    eqQMap values l r = some true → keyedMap l → keyedMap r → ∀ k x, (k, x) ∈ l → ∃ y, (k, y) ∈ r ∧ JEq (serQ nm env x) (serQ nm env y)
  | [], _, _, _, _, _, _, hx => by cases hx
  | (i, x) :: xs, r, h, hq, hs, k, z, hz => by
    rw [eqQMap] at h
    cases hf : r.find? (fun p => decide (p.1 = i)) with
    | none => rw [hf] at h; cases h
    | some p =>
      rw [hf] at h
      obtain ⟨h1, h2⟩ := and_true h
      rw [keyedMap] at hq
      rcases List.mem_cons.1 hz with e | hz
      · cases e
        exact ⟨p.2, find_some hf, eqQ_sound hnm _ p.2 h1 hq.1 (keyedMap_mem hs (find_some hf))⟩
      · exact eqQMap_sound hnm xs r h2 hq.2 hs k z hz
end
end

end Verif.SubgraphVars
