import Verif.HeaderRules.Model

namespace Verif.HeaderRules

/-! ## Specification -/

/-- Headers that belong to the connection between client and gateway. -/
def Forbidden (n : Name) : Prop :=
  n ∈ ["accept", "accept-charset", "accept-encoding", "accept-ranges", "content-length", "content-type",
    "connection", "keep-alive", "proxy-authenticate", "proxy-authorization", "te", "trailer",
    "transfer-encoding", "upgrade", "origin", "host", "sec-websocket-version", "sec-websocket-key",
    "sec-websocket-accept", "sec-websocket-protocol", "sec-websocket-extensions"]

def Clean (h : HeaderMap) : Prop := ∀ p ∈ h, ¬ Forbidden p.1

/-- The rule does not use a forbidden name where the code forgets to check: as the new name of a pattern, or as
the original name of a duplicated header. -/
def Rule.Tame : Rule → Prop
  | .forward (.pattern _) _ (some (some r)) => ¬ Forbidden r
  | .renameDuplicate (some n) _ _ => ¬ Forbidden n
  | _ => True

/-! ## Lemmas -/

theorem denied_iff (n : Name) : isHeaderDenied n = true ↔ Forbidden n := by
  unfold isHeaderDenied denyList Forbidden
  simp only [List.any_eq_true, beq_iff_eq, exists_eq_right]

theorem clean_append {h : HeaderMap} {n v} (hc : Clean h) (hn : ¬ Forbidden n) : Clean (h.append n v) := by
  intro p hp
  simp only [HeaderMap.append, List.mem_append, List.mem_singleton] at hp
  rcases hp with hp | rfl
  · exact hc p hp
  · exact hn

theorem clean_remove {h : HeaderMap} {n} (hc : Clean h) : Clean (h.remove n) :=
  fun p hp => hc p (List.mem_filter.1 hp).1

theorem clean_foldl {α} (f : HeaderMap → α → HeaderMap) (l : List α)
    (hf : ∀ a ∈ l, ∀ h, Clean h → Clean (f h a)) (h : HeaderMap) (hc : Clean h) : Clean (l.foldl f h) := by
  induction l generalizing h with
  | nil => exact hc
  | cons a l ih =>
    exact ih (fun b hb => hf b (List.mem_cons_of_mem _ hb)) _ (hf a (List.mem_cons_self ..) h hc)

theorem not_denied {n : Name} (h : ¬ isHeaderDenied n = true) : ¬ Forbidden n := fun hf => h ((denied_iff n).2 hf)

theorem clean_rule (gateway : HeaderMap) (r : Rule) (ht : r.Tame) (h : HeaderMap) (hc : Clean h) :
    Clean (applyHeaderRules gateway [r] h) := by
  simp only [applyHeaderRules, List.foldl_cons, List.foldl_nil]
  cases r with
  | insert n v =>
    simp only [handleInsert]
    split
    · split
      · exact hc
      · rename_i hd; exact clean_append hc (not_denied hd)
    · exact hc
  | remove n =>
    simp only [handleRemove]
    split
    · exact clean_foldl _ _ (fun _ _ _ h => clean_remove h) _ hc
    · exact clean_remove hc
    · exact hc
  | renameDuplicate n d r =>
    simp only [handleRenameDuplicate]
    split
    · exact hc
    · split
      · exact hc
      · split
        · exact hc
        · rename_i hd
          split
          · exact clean_append (clean_append hc ht) (not_denied hd)
          · exact hc
  | forward n d r =>
    simp only [handleForward]
    split
    · refine clean_foldl _ _ ?_ _ hc
      intro q hq h hc
      split
      · rename_i rn hr
        refine clean_append hc ?_
        cases r with
        | none => simp at hr
        | some r =>
          simp at hr
          subst hr
          exact ht
      · refine clean_append hc ?_
        have := (List.mem_filter.1 (List.mem_filter.1 hq).1).2
        exact not_denied (by simpa using this)
    · exact hc
    · split
      · exact clean_remove hc
      · split
        · exact clean_remove hc
        · rename_i hd
          have hf := not_denied hd
          have h1 : ∀ (vs : List Value) (h : HeaderMap), Clean h → Clean (vs.foldl (fun h v => h.append _ v) h) :=
            fun vs h hc => clean_foldl _ vs (fun v _ h hc => clean_append hc hf) h hc
          split
          · split
            · exact clean_append (clean_remove (h1 _ _ (clean_remove hc))) hf
            · exact h1 _ _ (clean_remove hc)
          · exact h1 _ _ (clean_remove hc)

theorem apply_cons (gateway : HeaderMap) (r : Rule) (rs : List Rule) (h : HeaderMap) :
    applyHeaderRules gateway (r :: rs) h = applyHeaderRules gateway rs (applyHeaderRules gateway [r] h) := rfl

theorem clean_rules (gateway : HeaderMap) (rules : List Rule) (ht : ∀ r ∈ rules, r.Tame) (h : HeaderMap)
    (hc : Clean h) : Clean (applyHeaderRules gateway rules h) := by
  induction rules generalizing h with
  | nil => exact hc
  | cons r rs ih =>
    rw [apply_cons]
    exact ih (fun x hx => ht x (List.mem_cons_of_mem _ hx)) _ (clean_rule gateway r (ht r (List.mem_cons_self ..)) h hc)

theorem foldl_remove_mem (ns : List Name) (h : HeaderMap) (p : Name × Value) :
    p ∈ ns.foldl HeaderMap.remove h ↔ p ∈ h ∧ p.1 ∉ ns := by
  induction ns generalizing h with
  | nil => simp
  | cons n ns ih =>
    simp only [List.foldl_cons, ih, HeaderMap.remove, List.mem_filter, List.mem_cons, not_or, bne_iff_ne, ne_eq]
    constructor
    · rintro ⟨⟨a, b⟩, c⟩; exact ⟨a, b, c⟩
    · rintro ⟨a, b, c⟩; exact ⟨⟨a, b⟩, c⟩

theorem clean_strip (h : HeaderMap) : Clean (stripDenied h) := by
  intro p hp hf
  rw [stripDenied, foldl_remove_mem] at hp
  exact hp.2 (List.mem_filter.2 ⟨List.mem_map_of_mem hp.1, (denied_iff _).2 hf⟩)

/-! ## C15 -/

/-- Whatever the client sends and an authorization extension does, rules that are tame (see `Rule.Tame`) send no
forbidden header. Missing: rules with a forbidden name in one of the two unchecked places
(`C15_pattern_counterexample`, `C15_duplicate_counterexample`). -/
theorem C15_clean_partial (gateway : HeaderMap) (defaultRules : List Rule) (extension : Option HeaderMap)
    (subgraphRules : List Rule) (h1 : ∀ r ∈ defaultRules, r.Tame) (h2 : ∀ r ∈ subgraphRules, r.Tame) :
    Clean (subgraphHeaders gateway defaultRules extension subgraphRules) := by
  unfold subgraphHeaders
  refine clean_rules gateway _ h2 _ ?_
  cases extension with
  | none => exact clean_rules gateway _ h1 _ (fun p hp => by simp at hp)
  | some h => exact clean_strip h

/-- A pattern rule that renames to a forbidden header sends it. -/
theorem C15_pattern_counterexample :
    ∃ gateway rules, ¬ Clean (subgraphHeaders gateway [] none rules) := by
  refine ⟨[("x-h", "evil")], [.forward (.pattern fun n => n == "x-h") none (some (some "host"))], ?_⟩
  intro h
  have := h ("host", "evil") (by simp [subgraphHeaders, applyHeaderRules, handleForward, HeaderMap.append,
    isHeaderDenied, denyList])
  exact this (by simp [Forbidden])

/-- A rename-duplicate rule on a forbidden header sends the original. -/
theorem C15_duplicate_counterexample :
    ∃ gateway rules, ¬ Clean (subgraphHeaders gateway [] none rules) := by
  refine ⟨[("host", "evil")], [.renameDuplicate (some "host") none (some "x-host")], ?_⟩
  intro h
  have := h ("host", "evil") (by simp [subgraphHeaders, applyHeaderRules, handleRenameDuplicate, HeaderMap.append,
    HeaderMap.getAll, isHeaderDenied, denyList])
  exact this (by simp [Forbidden])

/-- Removal works: after a rule removing what matches a pattern, nothing matching is left. -/
theorem C15_remove_effective (gateway : HeaderMap) (p : Name → Bool) (h : HeaderMap) :
    applyHeaderRules gateway [.remove (.pattern p)] h = h.filter (fun q => !p q.1) := by
  simp only [applyHeaderRules, List.foldl_cons, List.foldl_nil, handleRemove]
  have key : ∀ (ns : List Name) (h : HeaderMap), ns.foldl HeaderMap.remove h = h.filter (fun q => !ns.contains q.1) := by
    intro ns
    induction ns with
    | nil => intro h; exact (List.filter_eq_self.2 (by simp)).symm
    | cons n ns ih =>
      intro h
      rw [List.foldl_cons, ih, HeaderMap.remove, List.filter_filter]
      apply List.filter_congr
      intro q _
      cases hq : (q.1 == n) <;> simp_all [bne]
  rw [key]
  apply List.filter_congr
  intro q hq
  cases hp : p q.1 with
  | false => simp [hp]
  | true => simp only [Bool.not_true, Bool.not_eq_false', List.contains_iff_mem]
            exact List.mem_filter.2 ⟨List.mem_map_of_mem hq, hp⟩

/-! ## Non-vacuity -/

example : ∀ r ∈ [Rule.forward (.pattern fun _ => true) none none, .insert (some "x-a") (some "1"),
    .renameDuplicate (some "x-b") (some "d") (some "x-c"), .forward (.name (some "te")) none (some (some "x-te"))],
    r.Tame := by
  intro r hr
  simp at hr
  rcases hr with rfl | rfl | rfl | rfl <;> simp [Rule.Tame, Forbidden]

example : subgraphHeaders [("host", "h"), ("x-a", "1")] [.forward (.pattern fun _ => true) none none] none
    [.insert (some "x-a") (some "2"), .renameDuplicate (some "x-b") (some "d") (some "x-c")] =
    [("x-a", "1"), ("x-a", "2"), ("x-b", "d"), ("x-c", "d")] := by decide

end Verif.HeaderRules
