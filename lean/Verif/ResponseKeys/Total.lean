import Verif.ResponseKeys.Lemmas
/-!
# Response keys of subgraph queries: when the search for a fresh key cannot fail
-/
namespace Verif.ResponseKeys

theorem length_le_of_nodup_subset {α : Type} [DecidableEq α] : ∀ {l m : List α}, l.Nodup → (∀ x ∈ l, x ∈ m) → l.length ≤ m.length
  | [], _, _, _ => Nat.zero_le _
  | x :: xs, m, hn, hs => by
    obtain ⟨h1, h2⟩ := List.nodup_cons.1 hn
    have hx := hs x List.mem_cons_self
    have := length_le_of_nodup_subset (m := m.erase x) h2 (by
      intro y hy
      rw [List.mem_erase_of_ne]
      · exact hs y (List.mem_cons_of_mem _ hy)
      · rintro rfl; exact h1 hy)
    rw [List.length_erase_of_mem hx] at this
    have hpos : 0 < m.length := List.length_pos_of_mem hx
    simp only [List.length_cons]
    omega

theorem hex8_inj : ∀ i < 256, ∀ j < 256, hex8 i = hex8 j → i = j := by decide +kernel

theorem freshLoop_total {names : List (List Char)} {d : Definition} (h : names.length < 256) :
    freshLoop names d 256 0 ≠ none := by
  intro hn
  have hall := freshLoop_none hn
  have := length_le_of_nodup_subset (l := (List.range 256).map (candidate d)) (m := names) (by
    unfold List.Nodup
    rw [List.pairwise_map]
    refine List.Pairwise.imp_of_mem ?_ (List.nodup_range)
    intro a b ha hb hab he
    rw [List.mem_range] at ha hb
    unfold candidate at he
    exact hab (hex8_inj a ha b hb (List.append_cancel_left he))) (by
    intro x hx
    obtain ⟨i, hi, rfl⟩ := List.mem_map.1 hx
    rw [List.mem_range] at hi
    exact hall i (Nat.zero_le _) (by omega))
  rw [List.length_map, List.length_range] at this
  omega

theorem intern_length (st : St) (rename : Option RenameKey) (s : List Char) :
    (intern st rename s).1.names.length ≤ st.names.length + 1 := by
  unfold intern getOrIntern
  simp only
  split
  · simp
  · simp

theorem generateNewKey_total {st : St} {setKeys : List Nat} {rename : Option RenameKey} {d : Definition}
    (h : st.names.length < 256) :
    ∃ st' k, generateNewKey st setKeys rename d = some (st', k) ∧ st'.names.length ≤ st.names.length + 1 := by
  unfold generateNewKey
  split
  · exact ⟨_, _, rfl, by omega⟩
  · split
    · exact ⟨_, _, rfl, intern_length _ _ _⟩
    · split
      · exact ⟨_, _, rfl, by omega⟩
      · cases hf : freshLoop st.names d 256 0 with
        | none => exact absurd hf (freshLoop_total h)
        | some s => exact ⟨_, _, rfl, intern_length _ _ _⟩

theorem renameStep_total {defs : Nat → Option Definition} {parent : Parent} {acc : St × List Nat} {f : SetField}
    (h : acc.1.names.length < 256) :
    ∃ acc', renameStep defs parent acc f = some acc' ∧ acc'.1.names.length ≤ acc.1.names.length + 1 := by
  unfold renameStep
  simp only
  split
  · split
    · exact ⟨acc, rfl, by omega⟩
    · rename_i d _ _ _ rk _
      obtain ⟨st', k, h1, h2⟩ := generateNewKey_total (setKeys := acc.2) (rename := some rk) (d := d) h
      rw [h1]
      exact ⟨_, rfl, h2⟩
  · exact ⟨acc, rfl, by omega⟩

theorem extraStep_total {defs : Nat → Option Definition} {parent : Parent} {set : List SetField} {acc : St × List Nat}
    {f : SetField} (h : acc.1.names.length < 256) :
    ∃ acc', extraStep defs parent set acc f = some acc' ∧ acc'.1.names.length ≤ acc.1.names.length + 1 := by
  unfold extraStep
  simp only
  split
  · split
    · exact ⟨_, rfl, Nat.le_succ _⟩
    · rename_i d _ _ _ _
      obtain ⟨st', k, h1, h2⟩ := generateNewKey_total (setKeys := acc.2) (rename := none) (d := d) h
      rw [h1]
      exact ⟨_, rfl, h2⟩
  · exact ⟨acc, rfl, by omega⟩

theorem foldlM_total {step : St × List Nat → SetField → Option (St × List Nat)}
    (hs : ∀ acc f, acc.1.names.length < 256 → ∃ acc', step acc f = some acc' ∧ acc'.1.names.length ≤ acc.1.names.length + 1)
    (l : List SetField) : ∀ acc : St × List Nat, acc.1.names.length + l.length ≤ 256 →
    ∃ acc', l.foldlM step acc = some acc' ∧ acc'.1.names.length ≤ acc.1.names.length + l.length := by
  induction l with
  | nil => intro acc _; exact ⟨acc, rfl, by simp⟩
  | cons f fs ih =>
    intro acc h
    simp only [List.length_cons] at h
    obtain ⟨mid, h1, h2⟩ := hs acc f (by omega)
    obtain ⟨acc', h3, h4⟩ := ih mid (by omega)
    refine ⟨acc', ?_, by simp only [List.length_cons]; omega⟩
    rw [List.foldlM_cons, h1]
    exact h3

theorem adjustSet_total {defs : Nat → Option Definition} {st : St} {parent : Parent} {set : List SetField}
    (h : st.names.length + 2 * set.length ≤ 256) :
    ∃ st', adjustSet defs st parent set = some st' ∧ st'.names.length ≤ st.names.length + 2 * set.length := by
  unfold adjustSet
  obtain ⟨a, h1, h2⟩ := foldlM_total (step := renameStep defs parent) (fun _ _ hl => renameStep_total hl) set
    (st, set.filterMap fun f => (st.keys[f.2]?).join) (by simp only; omega)
  obtain ⟨b, h3, h4⟩ := foldlM_total (step := extraStep defs parent set) (fun _ _ hl => extraStep_total hl) set
    a (by simp only at h2; omega)
  refine ⟨b.1, ?_, by simp only at h2; omega⟩
  simp only [h1, Option.bind_eq_bind, Option.bind_some, h3]
  rfl

theorem adjustAll_total {defs : Nat → Option Definition} (sets : List (Parent × List SetField)) :
    ∀ {st : St}, st.names.length + 2 * (sets.map (·.2.length)).sum ≤ 256 → ∃ st', adjustAll defs st sets = some st' := by
  induction sets with
  | nil => intro st _; exact ⟨st, rfl⟩
  | cons p ps ih =>
    intro st h
    simp only [List.map_cons, List.sum_cons] at h
    obtain ⟨mid, h1, h2⟩ := adjustSet_total (defs := defs) (st := st) (parent := p.1) (set := p.2) (by omega)
    obtain ⟨st', h3⟩ := ih (st := mid) (by omega)
    refine ⟨st', ?_⟩
    unfold adjustAll at h3 ⊢
    rw [List.foldlM_cons, h1]
    exact h3

end Verif.ResponseKeys
