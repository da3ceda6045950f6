import Verif.SchemaDiff.Spec
namespace Verif.SchemaDiff

section
variable {K V : Type} [DecidableEq K]

/-- The value given last for a key. -/
def last : List (K × V) → K → Option V
  | [], _ => none
  | (k', v) :: t, k => match last t k with
    | some w => some w
    | none => if k' = k then some v else none

theorem last_mem {l : List (K × V)} {k : K} {v : V} (h : last l k = some v) : (k, v) ∈ l := by
  induction l with
  | nil => cases h
  | cons x t ih =>
    obtain ⟨k', w⟩ := x
    unfold last at h
    split at h
    · rename_i u hu
      cases h
      exact List.mem_cons_of_mem _ (ih hu)
    · split at h
      · rename_i hk
        cases h; subst hk; simp
      · cases h

theorem last_none {l : List (K × V)} {k : K} : last l k = none ↔ ∀ v, (k, v) ∉ l := by
  induction l with
  | nil => simp [last]
  | cons x t ih =>
    obtain ⟨k', w⟩ := x
    unfold last
    cases h : last t k with
    | some u =>
      simp only [reduceCtorEq, false_iff, Classical.not_forall, Classical.not_not]
      exact ⟨u, List.mem_cons_of_mem _ (last_mem h)⟩
    | none =>
      have h' := ih.1 h
      by_cases hk : k' = k
      · simp only [hk, if_true, reduceCtorEq, false_iff, Classical.not_forall, Classical.not_not]
        exact ⟨w, by simp⟩
      · simp only [hk, if_false, true_iff]
        intro v hv
        rcases List.mem_cons.1 hv with e | hv
        · cases e; exact hk rfl
        · exact h' v hv

theorem last_iff {l : List (K × V)} (hl : ∀ k v w, (k, v) ∈ l → (k, w) ∈ l → v = w) {k : K} {v : V} :
    last l k = some v ↔ (k, v) ∈ l := by
  refine ⟨last_mem, fun h => ?_⟩
  cases hx : last l k with
  | none => exact absurd h (last_none.1 hx v)
  | some w => rw [hl k w v (last_mem hx) h]

def Keys (m : DiffMap K V) : Prop := (m.map (·.1)).Nodup

theorem lookup_set (m : DiffMap K V) (k : K) (e : Option V × Option V) (k' : K) :
    lookup (set m k e) k' = if k = k' then some e else lookup m k' := by
  unfold lookup set
  rw [List.find?_append]
  by_cases h : k = k'
  · subst h
    have : (m.filter fun x => ¬ x.1 = k).find? (fun e => e.1 = k) = none := by
      rw [List.find?_eq_none]
      intro x hx
      simpa using (List.mem_filter.1 hx).2
    rw [this]
    simp
  · rw [if_neg h]
    have h1 : [(k, e)].find? (fun e => e.1 = k') = none := by simp [h]
    rw [h1, Option.or_none]
    congr 1
    induction m with
    | nil => rfl
    | cons x t ih =>
      by_cases hx : x.1 = k
      · have hx' : x.1 ≠ k' := by rw [hx]; exact h
        rw [List.filter_cons_of_neg (by simp [hx]), ih, List.find?_cons_of_neg (by simpa using hx')]
      · rw [List.filter_cons_of_pos (by simp [hx])]
        by_cases hx' : x.1 = k'
        · rw [List.find?_cons_of_pos (by simpa using hx'), List.find?_cons_of_pos (by simpa using hx')]
        · rw [List.find?_cons_of_neg (by simpa using hx'), List.find?_cons_of_neg (by simpa using hx'), ih]

theorem set_keys {m : DiffMap K V} (h : Keys m) (k : K) (e : Option V × Option V) : Keys (set m k e) := by
  unfold Keys set
  rw [List.map_append, List.nodup_append]
  refine ⟨h.sublist (List.filter_sublist.map _), by simp, ?_⟩
  intro a ha b hb
  obtain ⟨x, hx, rfl⟩ := List.mem_map.1 ha
  simp only [List.map_cons, List.map_nil, List.mem_singleton] at hb
  subst hb
  simpa using (List.mem_filter.1 hx).2

theorem mem_lookup {m : DiffMap K V} (h : Keys m) {k : K} {e : Option V × Option V} :
    (k, e) ∈ m ↔ lookup m k = some e := by
  unfold lookup
  constructor
  · intro hm
    induction m with
    | nil => cases hm
    | cons x t ih =>
      unfold Keys at h
      simp only [List.map_cons, List.nodup_cons] at h
      rcases List.mem_cons.1 hm with rfl | hm
      · simp
      · have hne : x.1 ≠ k := fun hx => h.1 (List.mem_map.2 ⟨(k, e), hm, hx.symm⟩)
        rw [List.find?_cons_of_neg (by simpa using hne)]
        exact ih h.2 hm
  · intro hl
    obtain ⟨x, hx, rfl⟩ := Option.map_eq_some_iff.1 hl
    have h1 := List.mem_of_find?_eq_some hx
    have h2 := List.find?_some hx
    simp only [decide_eq_true_eq] at h2
    subst h2
    exact h1

/-- The map built from the pairs of the source and those of the target. -/
def build (s t : List (K × V)) : DiffMap K V :=
  t.foldl (fun m x => mergeTarget m x.1 x.2) (s.foldl (fun m x => insertSource m x.1 x.2) [])

theorem src_lookup (s : List (K × V)) (m : DiffMap K V) (k : K) :
    lookup (s.foldl (fun m x => insertSource m x.1 x.2) m) k =
      match last s k with
      | some v => some (some v, none)
      | none => lookup m k := by
  induction s generalizing m with
  | nil => rfl
  | cons x t ih =>
    obtain ⟨k', v⟩ := x
    rw [List.foldl_cons, ih]
    simp only [last, insertSource, lookup_set]
    cases last t k with
    | some w => rfl
    | none => by_cases h : k' = k <;> simp [h]

theorem tgt_lookup (s : List (K × V)) (m : DiffMap K V) (k : K) :
    lookup (s.foldl (fun m x => mergeTarget m x.1 x.2) m) k =
      match last s k with
      | some v => some (((lookup m k).getD (none, none)).1, some v)
      | none => lookup m k := by
  induction s generalizing m with
  | nil => rfl
  | cons x t ih =>
    obtain ⟨k', v⟩ := x
    rw [List.foldl_cons, ih]
    simp only [last, mergeTarget, lookup_set]
    cases last t k with
    | some w => by_cases h : k' = k <;> simp [h]
    | none => by_cases h : k' = k <;> simp [h]

theorem build_lookup (s t : List (K × V)) (k : K) (a b : Option V) :
    lookup (build s t) k = some (a, b) ↔ ¬ (a = none ∧ b = none) ∧ last s k = a ∧ last t k = b := by
  unfold build
  rw [tgt_lookup, src_lookup]
  have h0 : lookup ([] : DiffMap K V) k = none := rfl
  rw [h0]
  cases last s k <;> cases last t k <;> simp <;> grind

theorem build_keys (s t : List (K × V)) : Keys (build s t) := by
  have hs : ∀ (s : List (K × V)) (m : DiffMap K V), Keys m → Keys (s.foldl (fun m x => insertSource m x.1 x.2) m) := by
    intro s
    induction s with
    | nil => exact fun m h => h
    | cons x t ih => exact fun m h => ih _ (set_keys h _ _)
  have ht : ∀ (s : List (K × V)) (m : DiffMap K V), Keys m → Keys (s.foldl (fun m x => mergeTarget m x.1 x.2) m) := by
    intro s
    induction s with
    | nil => exact fun m h => h
    | cons x t ih => exact fun m h => ih _ (set_keys h _ _)
  exact ht t _ (hs s [] List.nodup_nil)

end

/-! ## The traversal builds the maps -/

def Doc.schemas (d : Doc) : List (Option Nat × Option Nat × Option Nat) :=
  d.filterMap fun
    | .schema q m u => some (q, m, u)
    | _ => none

theorem foldl_map' {α β γ : Type} (g : β → α) (f : γ → α → γ) (l : List β) (s : γ) :
    (l.map g).foldl f s = l.foldl (fun s x => f s (g x)) s := by
  rw [List.foldl_map]

theorem fillArgsSrc_eq (m : DiffMap (Nat × Nat × Nat) Arg) (n f : Nat) (args : List Arg) :
    fillArgsSrc m n f args = (args.map fun a => ((n, f, a.name), a)).foldl (fun m x => insertSource m x.1 x.2) m := by
  rw [List.foldl_map]; rfl

theorem argsTarget_eq (m : DiffMap (Nat × Nat × Nat) Arg) (n f : Nat) (args : List Arg) :
    argsTarget m n f args = (args.map fun a => ((n, f, a.name), a)).foldl (fun m x => mergeTarget m x.1 x.2) m := by
  rw [List.foldl_map]; rfl

theorem srcFields_eq (s : State) (n : Nat) (fs : List Field) :
    srcFields s n fs = { s with
      fields := (fs.map fun f => ((n, f.name), some f.ty)).foldl (fun m x => insertSource m x.1 x.2) s.fields
      args := (fs.flatMap fun f => f.args.map fun a => ((n, f.name, a.name), a)).foldl
        (fun m x => insertSource m x.1 x.2) s.args } := by
  unfold srcFields
  induction fs generalizing s with
  | nil => rfl
  | cons f t ih =>
    rw [List.foldl_cons, ih]
    simp only [List.map_cons, List.foldl_cons, List.flatMap_cons, List.foldl_append, fillArgsSrc_eq]

theorem tgtFields_eq (s : State) (n : Nat) (fs : List Field) :
    tgtFields s n fs = { s with
      fields := (fs.map fun f => ((n, f.name), some f.ty)).foldl (fun m x => mergeTarget m x.1 x.2) s.fields
      args := (fs.flatMap fun f => f.args.map fun a => ((n, f.name, a.name), a)).foldl
        (fun m x => mergeTarget m x.1 x.2) s.args } := by
  unfold tgtFields
  induction fs generalizing s with
  | nil => rfl
  | cons f t ih =>
    rw [List.foldl_cons, ih]
    simp only [List.map_cons, List.foldl_cons, List.flatMap_cons, List.foldl_append, argsTarget_eq]

theorem srcStep (s : State) (x : Def) :
    (traverseSource s x).types = x.types.foldl (fun m x => insertSource m x.1 x.2) s.types ∧
    (traverseSource s x).fields = x.members.foldl (fun m x => insertSource m x.1 x.2) s.fields ∧
    (traverseSource s x).impls = x.impls.foldl (fun m x => insertSource m x.1 x.2) s.impls ∧
    (traverseSource s x).args = x.args.foldl (fun m x => insertSource m x.1 x.2) s.args := by
  cases x <;>
    simp [traverseSource, Def.types, Def.members, Def.impls, Def.args, srcFields_eq, List.foldl_map]

theorem tgtStep (s : State × Nat) (x : Def) :
    (traverseTarget s x).1.types = x.types.foldl (fun m x => mergeTarget m x.1 x.2) s.1.types ∧
    (traverseTarget s x).1.fields = x.members.foldl (fun m x => mergeTarget m x.1 x.2) s.1.fields ∧
    (traverseTarget s x).1.impls = x.impls.foldl (fun m x => mergeTarget m x.1 x.2) s.1.impls ∧
    (traverseTarget s x).1.args = x.args.foldl (fun m x => mergeTarget m x.1 x.2) s.1.args := by
  cases x with
  | schemaExt => simp only [traverseTarget]; split <;> simp [Def.types, Def.members, Def.impls, Def.args]
  | _ => simp [traverseTarget, Def.types, Def.members, Def.impls, Def.args, tgtFields_eq, List.foldl_map]

theorem src_maps (d : Doc) (s : State) :
    (d.foldl traverseSource s).types = (d.flatMap Def.types).foldl (fun m x => insertSource m x.1 x.2) s.types ∧
    (d.foldl traverseSource s).fields = (d.flatMap Def.members).foldl (fun m x => insertSource m x.1 x.2) s.fields ∧
    (d.foldl traverseSource s).impls = (d.flatMap Def.impls).foldl (fun m x => insertSource m x.1 x.2) s.impls ∧
    (d.foldl traverseSource s).args = (d.flatMap Def.args).foldl (fun m x => insertSource m x.1 x.2) s.args := by
  induction d generalizing s with
  | nil => exact ⟨rfl, rfl, rfl, rfl⟩
  | cons x t ih =>
    obtain ⟨h1, h2, h3, h4⟩ := ih (traverseSource s x)
    obtain ⟨g1, g2, g3, g4⟩ := srcStep s x
    simp only [List.foldl_cons, List.flatMap_cons, List.foldl_append]
    rw [h1, h2, h3, h4, g1, g2, g3, g4]
    exact ⟨rfl, rfl, rfl, rfl⟩

theorem tgt_maps (d : Doc) (s : State × Nat) :
    (d.foldl traverseTarget s).1.types = (d.flatMap Def.types).foldl (fun m x => mergeTarget m x.1 x.2) s.1.types ∧
    (d.foldl traverseTarget s).1.fields = (d.flatMap Def.members).foldl (fun m x => mergeTarget m x.1 x.2) s.1.fields ∧
    (d.foldl traverseTarget s).1.impls = (d.flatMap Def.impls).foldl (fun m x => mergeTarget m x.1 x.2) s.1.impls ∧
    (d.foldl traverseTarget s).1.args = (d.flatMap Def.args).foldl (fun m x => mergeTarget m x.1 x.2) s.1.args := by
  induction d generalizing s with
  | nil => exact ⟨rfl, rfl, rfl, rfl⟩
  | cons x t ih =>
    obtain ⟨h1, h2, h3, h4⟩ := ih (traverseTarget s x)
    obtain ⟨g1, g2, g3, g4⟩ := tgtStep s x
    simp only [List.foldl_cons, List.flatMap_cons, List.foldl_append]
    rw [h1, h2, h3, h4, g1, g2, g3, g4]
    exact ⟨rfl, rfl, rfl, rfl⟩

theorem traverse_maps (s t : Doc) :
    (traverse s t).types = build (s.flatMap Def.types) (t.flatMap Def.types) ∧
    (traverse s t).fields = build (s.flatMap Def.members) (t.flatMap Def.members) ∧
    (traverse s t).impls = build (s.flatMap Def.impls) (t.flatMap Def.impls) ∧
    (traverse s t).args = build (s.flatMap Def.args) (t.flatMap Def.args) := by
  obtain ⟨h1, h2, h3, h4⟩ := tgt_maps t (s.foldl traverseSource {}, 0)
  obtain ⟨g1, g2, g3, g4⟩ := src_maps s {}
  unfold traverse
  rw [h1, h2, h3, h4]
  simp only [g1, g2, g3, g4]
  exact ⟨rfl, rfl, rfl, rfl⟩

/-! ## The other parts -/

theorem schemaDef_src (d : Doc) (s : State) :
    (d.foldl traverseSource s).schemaDef = ((d.schemas.getLast?).or s.schemaDef.1, s.schemaDef.2) ∧
    (d.foldl traverseSource s).schemaExts = s.schemaExts ++ List.replicate (d.count .schemaExt) (true, false) := by
  induction d generalizing s with
  | nil => simp [Doc.schemas]
  | cons x t ih =>
    obtain ⟨h1, h2⟩ := ih (traverseSource s x)
    rw [List.foldl_cons, h1, h2]
    cases x with
    | schema q m u =>
      simp only [traverseSource, Doc.schemas, List.filterMap_cons, List.getLast?_cons]
      constructor
      · cases (List.filterMap _ t).getLast? <;> simp
      · simp
    | schemaExt =>
      simp only [traverseSource, Doc.schemas, List.filterMap_cons, List.count_cons_self]
      refine ⟨by trivial, ?_⟩
      rw [List.append_assoc, List.replicate_succ]
      rfl
    | _ => simp [traverseSource, srcFields_eq, Doc.schemas]

/-- The schema extensions of source and target, side by side. -/
def extPairs (a b : Nat) : List (Bool × Bool) :=
  (List.range (max a b)).map fun i => (decide (i < a), decide (i < b))

theorem schemaDef_tgt (d : Doc) (s : State) (a c : Nat) (hs : s.schemaExts = extPairs a c) :
    (d.foldl traverseTarget (s, c)).1.schemaDef = (s.schemaDef.1, (d.schemas.getLast?).or s.schemaDef.2) ∧
    (d.foldl traverseTarget (s, c)).1.schemaExts = extPairs a (c + d.count .schemaExt) := by
  induction d generalizing s c with
  | nil => simp [Doc.schemas, hs]
  | cons x t ih =>
    cases x with
    | schema q m u =>
      obtain ⟨h1, h2⟩ := ih (traverseTarget (s, c) (.schema q m u)).1 c (by simpa [traverseTarget] using hs)
      simp only [List.foldl_cons]
      have he : traverseTarget (s, c) (.schema q m u) = ((traverseTarget (s, c) (.schema q m u)).1, c) := rfl
      rw [he, h1, h2]
      constructor
      · simp only [traverseTarget, Doc.schemas, List.filterMap_cons, List.getLast?_cons]
        cases (List.filterMap _ t).getLast? <;> simp
      · rw [List.count_cons_of_ne (by simp)]
    | schemaExt =>
      have hstep : ∃ s', traverseTarget (s, c) .schemaExt = (s', c + 1) ∧ s'.schemaDef = s.schemaDef ∧
          s'.schemaExts = extPairs a (c + 1) := by
        unfold traverseTarget
        simp only
        have hlen : s.schemaExts.length = max a c := by rw [hs]; simp [extPairs]
        split
        · rename_i hl
          refine ⟨_, rfl, rfl, ?_⟩
          simp only [hs, extPairs]
          have hca : a ≤ c := by omega
          rw [Nat.max_eq_right hca, Nat.max_eq_right (by omega), List.range_succ, List.map_append]
          congr 1
          · apply List.map_congr_left
            intro i hi
            rw [List.mem_range] at hi
            have : i < c + 1 := by omega
            simp [hi, this]
          · simp; omega
        · rename_i hl
          refine ⟨_, rfl, rfl, ?_⟩
          have hca : c < a := by omega
          simp only [hs, extPairs]
          rw [Nat.max_eq_left (by omega), Nat.max_eq_left (by omega)]
          apply List.ext_getElem?
          intro i
          rw [List.getElem?_set]
          by_cases hci : c = i
          · subst hci
            simp [hca]
          · rw [if_neg hci]
            by_cases hia : i < a
            · simp only [List.getElem?_map, List.getElem?_range hia, Option.map_some, Option.some.injEq, Prod.mk.injEq,
                true_and, decide_eq_decide]
              omega
            · simp [hia]
      obtain ⟨s', he, h3, h4⟩ := hstep
      obtain ⟨h1, h2⟩ := ih s' (c + 1) h4
      rw [List.foldl_cons, he, h1, h2, h3, List.count_cons_self]
      refine ⟨rfl, ?_⟩
      congr 1
      omega
    | directive n => exact ih _ c (by simpa [traverseTarget] using hs)
    | scalar n => exact ih _ c (by simpa [traverseTarget] using hs)
    | object n i f =>
      have := ih (traverseTarget (s, c) (.object n i f)).1 c (by simpa [traverseTarget, tgtFields_eq] using hs)
      rw [List.foldl_cons]
      rw [show traverseTarget (s, c) (.object n i f) = ((traverseTarget (s, c) (.object n i f)).1, c) from rfl, this.1, this.2]
      simp [traverseTarget, tgtFields_eq, Doc.schemas]
    | interface n i f =>
      have := ih (traverseTarget (s, c) (.interface n i f)).1 c (by simpa [traverseTarget, tgtFields_eq] using hs)
      rw [List.foldl_cons]
      rw [show traverseTarget (s, c) (.interface n i f) = ((traverseTarget (s, c) (.interface n i f)).1, c) from rfl, this.1, this.2]
      simp [traverseTarget, tgtFields_eq, Doc.schemas]
    | union n xs => exact ih _ c (by simpa [traverseTarget] using hs)
    | enum n xs => exact ih _ c (by simpa [traverseTarget] using hs)
    | inputObject n f => exact ih _ c (by simpa [traverseTarget] using hs)

theorem traverse_schema (s t : Doc) :
    (traverse s t).schemaDef = (s.schemas.getLast?, t.schemas.getLast?) ∧
    (traverse s t).schemaExts = extPairs (s.count .schemaExt) (t.count .schemaExt) := by
  obtain ⟨g1, g2⟩ := schemaDef_src s {}
  obtain ⟨h1, h2⟩ := schemaDef_tgt t (s.foldl traverseSource {}) (s.count .schemaExt) 0 (by
    rw [g2]
    simp only [extPairs, List.nil_append, Nat.max_zero]
    apply List.ext_getElem?
    intro i
    by_cases hi : i < s.count .schemaExt
    · simp [hi]
    · simp [hi])
  unfold traverse
  rw [h1, h2, g1]
  simp

theorem collect_some {α : Type} {f : α → Option (List Change)} {l : List α} (h : ∀ x ∈ l, f x ≠ none) :
    ∃ r, collect f l = some r ∧ ∀ c, c ∈ r ↔ ∃ x ∈ l, ∃ a, f x = some a ∧ c ∈ a := by
  induction l with
  | nil => exact ⟨[], rfl, by simp⟩
  | cons x t ih =>
    obtain ⟨r, hr, hm⟩ := ih fun y hy => h y (by simp [hy])
    cases hx : f x with
    | none => exact absurd hx (h x (by simp))
    | some a =>
      refine ⟨a ++ r, by simp [collect, hx, hr], ?_⟩
      intro c
      rw [List.mem_append, hm]
      constructor
      · rintro (hc | ⟨y, hy, b, hb, hc⟩)
        · exact ⟨x, by simp, a, hx, hc⟩
        · exact ⟨y, by simp [hy], b, hb, hc⟩
      · rintro ⟨y, hy, b, hb, hc⟩
        rcases List.mem_cons.1 hy with rfl | hy
        · rw [hx] at hb; cases hb; exact Or.inl hc
        · exact Or.inr ⟨y, hy, b, hb, hc⟩

/-- The entry of a map for a key says what the two documents hold. -/
theorem hasType_mem {d : Doc} {n : Nat} {k : Kind} : HasType d n k ↔ (n, k) ∈ d.flatMap Def.types := by
  simp [HasType]
theorem hasMember_mem {d : Doc} {n f : Nat} {t : Option Nat} : HasMember d n f t ↔ ((n, f), t) ∈ d.flatMap Def.members := by
  simp [HasMember]
theorem hasImpls_mem {d : Doc} {n : Nat} {is : List Nat} : HasImpls d n is ↔ (n, is) ∈ d.flatMap Def.impls := by
  simp [HasImpls]

theorem type_iff {d : Doc} (h : Coherent d) {n : Nat} {k : Kind} :
    last (d.flatMap Def.types) n = some k ↔ HasType d n k := by
  rw [hasType_mem]
  exact last_iff fun n j k hj hk => h.types n j k (hasType_mem.2 hj) (hasType_mem.2 hk)

theorem member_iff {d : Doc} (h : Coherent d) {n f : Nat} {t : Option Nat} :
    last (d.flatMap Def.members) (n, f) = some t ↔ HasMember d n f t := by
  rw [hasMember_mem]
  exact last_iff fun k v w hv hw => h.members k.1 k.2 v w (hasMember_mem.2 hv) (hasMember_mem.2 hw)

theorem args_name {x : Def} {n f a : Nat} {v : Arg} (h : ((n, f, a), v) ∈ x.args) : v.name = a := by
  cases x <;> simp [Def.args] at h
  all_goals
    obtain ⟨f, hf, b, hb, ⟨rfl, rfl, rfl⟩, rfl⟩ := h
    rfl

theorem arg_iff {d : Doc} (h : Coherent d) {n f : Nat} {a : Nat} {v : Arg} :
    last (d.flatMap Def.args) (n, f, a) = some v ↔ HasArg d n f v ∧ v.name = a := by
  have hmem : ∀ a v, ((n, f, a), v) ∈ d.flatMap Def.args ↔ HasArg d n f v ∧ v.name = a := by
    intro a v
    simp only [List.mem_flatMap, HasArg]
    constructor
    · rintro ⟨x, hx, hm⟩
      have := args_name hm
      subst this
      exact ⟨⟨x, hx, hm⟩, rfl⟩
    · rintro ⟨⟨x, hx, hm⟩, rfl⟩
      exact ⟨x, hx, hm⟩
  constructor
  · intro hl; exact (hmem a v).1 (last_mem hl)
  · intro hv
    cases hx : last (d.flatMap Def.args) (n, f, a) with
    | none => exact absurd ((hmem a v).2 hv) (last_none.1 hx v)
    | some w =>
      obtain ⟨hw1, hw2⟩ := (hmem a w).1 (last_mem hx)
      rw [h.args n f w v hw1 hv.1 (hw2.trans hv.2.symm)]

theorem impl_iff {d : Doc} (h : OneImplClause d) {n : Nat} {is : List Nat} :
    last (d.flatMap Def.impls) n = some is ↔ HasImpls d n is := by
  rw [hasImpls_mem]
  exact last_iff fun n j k hj hk => h n j k (hasImpls_mem.2 hj) (hasImpls_mem.2 hk)

theorem none_iff {α : Type} {o : Option α} {P : α → Prop} (h : ∀ v, o = some v ↔ P v) : o = none ↔ ∀ v, ¬ P v := by
  cases o with
  | none => simp only [true_iff]; intro v hv; cases (h v).2 hv
  | some x => simp only [reduceCtorEq, false_iff, Classical.not_forall, Classical.not_not]; exact ⟨x, (h x).1 rfl⟩

/-- A member belongs to a type that can have members. -/
theorem member_type {d : Doc} {n f : Nat} {t : Option Nat} (h : HasMember d n f t) :
    ∃ k, HasType d n k ∧ k ≠ .scalar ∧ k ≠ .directive ∧
      (k = .object ∨ k = .interface ∨ k = .inputObject ↔ t ≠ none) := by
  obtain ⟨x, hx, hm⟩ := h
  cases x <;> simp [Def.members] at hm
  all_goals
    first
    | (obtain ⟨g, hg, ⟨rfl, rfl⟩, rfl⟩ := hm
       exact ⟨_, ⟨_, hx, by simp [Def.types]; rfl⟩, by simp, by simp, by simp⟩)
    | (obtain ⟨hg, rfl, rfl⟩ := hm
       exact ⟨_, ⟨_, hx, by simp [Def.types]; rfl⟩, by simp, by simp, by simp⟩)

/-- An argument belongs to a field. -/
theorem arg_member {d : Doc} {n f : Nat} {a : Arg} (h : HasArg d n f a) : ∃ t, HasMember d n f t := by
  obtain ⟨x, hx, hm⟩ := h
  cases x <;> simp [Def.args] at hm
  all_goals
    obtain ⟨g, hg, -, h1, h2⟩ := hm
    exact ⟨some g.ty, _, hx, List.mem_map.2 ⟨g, hg, by rw [h1, h2]⟩⟩

/-! ## The shape of the parts -/

theorem schema_shape {e} {c : Change} (h : c ∈ schemaChanges e) : ∃ k, c = (.schema, k) := by
  obtain ⟨a, b⟩ := e
  cases a <;> cases b <;> simp [schemaChanges] at h
  · exact ⟨_, h⟩
  · exact ⟨_, h⟩
  · rcases h with h | h | h
    · exact ⟨_, h.2⟩
    · exact ⟨_, h.2⟩
    · exact ⟨_, h.2⟩

theorem ext_shape {e} {c : Change} (h : c ∈ schemaExtChanges e) : ∃ k, c = (.schemaExt 0, k) := by
  obtain ⟨⟨a, b⟩, -, h⟩ := List.mem_flatMap.1 h
  cases a <;> cases b <;> simp at h
  · exact ⟨_, h⟩
  · exact ⟨_, h⟩

theorem impl_shape {e} {c : Change} (h : c ∈ implChanges e) : ∃ n i k, c = (.impl n i, k) := by
  obtain ⟨⟨n, a, b⟩, -, h⟩ := List.mem_flatMap.1 h
  cases a <;> cases b <;> simp at h
  rcases h with ⟨i, -, rfl⟩ | ⟨i, -, rfl⟩ <;> exact ⟨_, _, _, rfl⟩

theorem def_shape {e l} {c : Change} (h : defChanges e = some l) (hc : c ∈ l) : ∃ k, c = (.type e.1, k) := by
  obtain ⟨n, a, b⟩ := e
  cases a <;> cases b <;> simp [defChanges] at h
  · subst h; simp at hc; exact ⟨_, hc⟩
  · subst h; simp at hc; exact ⟨_, hc⟩
  · split at h
    · cases h; cases hc
    · cases h
      simp at hc
      rcases hc with rfl | rfl <;> exact ⟨_, rfl⟩

theorem field_shape {m e l} {c : Change} (h : fieldChanges m e = some l) (hc : c ∈ l) :
    ∃ k, c = (.field e.1.1 e.1.2, k) := by
  obtain ⟨⟨n, f⟩, a, b⟩ := e
  unfold fieldChanges at h
  simp only at h
  split at h
  · cases h
  · cases h
  · cases h; cases hc
  · cases h; cases hc
  · split at h
    · cases h; cases hc
    · split at h
      · cases h
      · split at h
        · cases h
        · split at h
          · cases h; simp at hc; exact ⟨_, hc⟩
          · split at h <;> (cases h; simp at hc; exact ⟨_, hc⟩)
        · split at h
          · cases h; simp at hc; exact ⟨_, hc⟩
          · split at h <;> (cases h; simp at hc; exact ⟨_, hc⟩)
        · split at h
          · split at h
            · cases h
            · cases h; simp at hc; exact ⟨_, hc⟩
          · cases h; cases hc

theorem argDiff_shape {p x y} {c : Change} (hc : c ∈ argDiff p x y) : ∃ k, c = (p, k) := by
  unfold argDiff at hc
  rcases List.mem_append.1 hc with hc | hc
  · split at hc
    · simp at hc; exact ⟨_, hc⟩
    · cases hc
  · split at hc
    · simp at hc; exact ⟨_, hc⟩
    · simp at hc; exact ⟨_, hc⟩
    · split at hc
      · simp at hc; exact ⟨_, hc⟩
      · cases hc
    · cases hc

theorem arg_shape {m e l} {c : Change} (h : argChanges m e = some l) (hc : c ∈ l) :
    ∃ k, c = (.arg e.1.1 e.1.2.1 e.1.2.2, k) := by
  obtain ⟨⟨n, f, x⟩, a, b⟩ := e
  unfold argChanges at h
  simp only at h
  split at h
  · cases h
  · cases h; cases hc
  · split at h
    · cases h
    · cases h; simp at hc; exact ⟨_, hc⟩
    · split at h
      · cases h; simp at hc; exact ⟨_, hc⟩
      · cases h; cases hc
    · cases h; exact argDiff_shape hc

/-! ## No part panics on coherent documents -/

theorem types_entry {s t : Doc} {n : Nat} {a b : Option Kind} :
    lookup (traverse s t).types n = some (a, b) ↔
      ¬ (a = none ∧ b = none) ∧ last (s.flatMap Def.types) n = a ∧ last (t.flatMap Def.types) n = b := by
  rw [(traverse_maps s t).1, build_lookup]

theorem fields_entry {s t : Doc} {k : Nat × Nat} {a b : Option (Option Nat)} :
    lookup (traverse s t).fields k = some (a, b) ↔
      ¬ (a = none ∧ b = none) ∧ last (s.flatMap Def.members) k = a ∧ last (t.flatMap Def.members) k = b := by
  rw [(traverse_maps s t).2.1, build_lookup]

theorem types_mem {s t : Doc} {n : Nat} {e : Option Kind × Option Kind} :
    (n, e) ∈ (traverse s t).types ↔ lookup (traverse s t).types n = some e := by
  rw [(traverse_maps s t).1]
  exact mem_lookup (build_keys _ _)

theorem fields_mem {s t : Doc} {k : Nat × Nat} {e} :
    (k, e) ∈ (traverse s t).fields ↔ lookup (traverse s t).fields k = some e := by
  rw [(traverse_maps s t).2.1]
  exact mem_lookup (build_keys _ _)

theorem impls_mem {s t : Doc} {n : Nat} {a b : Option (List Nat)} :
    (n, (a, b)) ∈ (traverse s t).impls ↔
      ¬ (a = none ∧ b = none) ∧ last (s.flatMap Def.impls) n = a ∧ last (t.flatMap Def.impls) n = b := by
  rw [(traverse_maps s t).2.2.1, mem_lookup (build_keys _ _), build_lookup]

theorem args_mem {s t : Doc} {k : Nat × Nat × Nat} {a b : Option Arg} :
    (k, (a, b)) ∈ (traverse s t).args ↔
      ¬ (a = none ∧ b = none) ∧ last (s.flatMap Def.args) k = a ∧ last (t.flatMap Def.args) k = b := by
  rw [(traverse_maps s t).2.2.2, mem_lookup (build_keys _ _), build_lookup]

theorem def_ok {s t : Doc} (e) (he : e ∈ (traverse s t).types) : defChanges e ≠ none := by
  obtain ⟨n, a, b⟩ := e
  have h := (types_entry.1 (types_mem.1 he)).1
  cases a <;> cases b <;> simp [defChanges] at h ⊢
  split <;> simp

theorem lookup_ne_none {s t : Doc} {n : Nat} {k : Kind} (h : HasType s n k ∨ HasType t n k) :
    lookup (traverse s t).types n ≠ none := by
  intro hn
  have : ∃ a b, lookup (traverse s t).types n = some (a, b) := by
    refine ⟨_, _, types_entry.2 ⟨?_, rfl, rfl⟩⟩
    rintro ⟨h1, h2⟩
    rcases h with h | h
    · exact last_none.1 h1 k (hasType_mem.1 h)
    · exact last_none.1 h2 k (hasType_mem.1 h)
  obtain ⟨a, b, h⟩ := this
  rw [h] at hn; cases hn

theorem field_ok {s t : Doc} (hs : Coherent s) (ht : Coherent t) (e) (he : e ∈ (traverse s t).fields) :
    fieldChanges (traverse s t).types e ≠ none := by
  obtain ⟨⟨n, f⟩, a, b⟩ := e
  obtain ⟨h0, h1, h2⟩ := fields_entry.1 (fields_mem.1 he)
  have hsrc : ∀ u, a = some u → HasMember s n f u := fun u hu => (member_iff hs).1 (by rw [h1, hu])
  have htgt : ∀ u, b = some u → HasMember t n f u := fun u hu => (member_iff ht).1 (by rw [h2, hu])
  unfold fieldChanges
  simp only
  split
  · rename_i hl
    exfalso
    cases a with
    | some u =>
      obtain ⟨k, hk, -⟩ := member_type (hsrc u rfl)
      exact lookup_ne_none (Or.inl hk) hl
    | none =>
      cases b with
      | some u =>
        obtain ⟨k, hk, -⟩ := member_type (htgt u rfl)
        exact lookup_ne_none (Or.inr hk) hl
      | none => exact h0 ⟨rfl, rfl⟩
  · rename_i hl
    exact absurd ⟨rfl, rfl⟩ (types_entry.1 hl).1
  · simp
  · simp
  · rename_i x y hl
    obtain ⟨-, h3, h4⟩ := types_entry.1 hl
    have hx := (type_iff hs).1 h3
    have hy := (type_iff ht).1 h4
    split
    · simp
    · rename_i hxy
      simp only [ne_eq, Classical.not_not] at hxy
      subst hxy
      have hk : x ≠ .scalar ∧ x ≠ .directive := by
        cases a with
        | some u =>
          obtain ⟨k, hk, h5, h6, -⟩ := member_type (hsrc u rfl)
          rw [hs.types n x k hx hk]; exact ⟨h5, h6⟩
        | none =>
          cases b with
          | some u =>
            obtain ⟨k, hk, h5, h6, -⟩ := member_type (htgt u rfl)
            rw [ht.types n x k hy hk]; exact ⟨h5, h6⟩
          | none => exact absurd ⟨rfl, rfl⟩ h0
      rw [if_neg (by simp [hk])]
      split
      · exact absurd ⟨rfl, rfl⟩ h0
      · split
        · simp
        · split <;> simp
      · split
        · simp
        · split <;> simp
      · rename_i u v
        split
        · rename_i hc
          split
          · obtain ⟨k, hk, -, -, h7⟩ := member_type (htgt none rfl)
            have := ht.types n x k hy hk
            subst this
            have hh : x = .object ∨ x = .interface ∨ x = .inputObject := by
              rcases hc.1 with h | h | h <;> simp [h]
            exact absurd rfl (h7.1 hh)
          · simp
        · simp

theorem arg_ok {s t : Doc} (hs : Coherent s) (ht : Coherent t) (e) (he : e ∈ (traverse s t).args) :
    argChanges (traverse s t).fields e ≠ none := by
  obtain ⟨⟨n, f, x⟩, a, b⟩ := e
  obtain ⟨h0, h1, h2⟩ := args_mem.1 he
  unfold argChanges
  simp only
  split
  · rename_i hl
    exfalso
    have hmem : last (s.flatMap Def.members) (n, f) ≠ none ∨ last (t.flatMap Def.members) (n, f) ≠ none := by
      cases a with
      | some u =>
        obtain ⟨v, hv⟩ := arg_member ((arg_iff hs).1 h1).1
        exact Or.inl (by rw [(member_iff hs).2 hv]; simp)
      | none =>
        cases b with
        | some u =>
          obtain ⟨v, hv⟩ := arg_member ((arg_iff ht).1 h2).1
          exact Or.inr (by rw [(member_iff ht).2 hv]; simp)
        | none => exact absurd ⟨rfl, rfl⟩ h0
    have : lookup (traverse s t).fields (n, f) = some (last (s.flatMap Def.members) (n, f), last (t.flatMap Def.members) (n, f)) :=
      fields_entry.2 ⟨fun ⟨g1, g2⟩ => by rcases hmem with h | h <;> contradiction, rfl, rfl⟩
    rw [hl] at this; cases this
  · simp
  · split
    · exact absurd ⟨rfl, rfl⟩ h0
    · simp
    · split <;> simp
    · simp

theorem add_kind {x : Kind} {p : Path} {l : List Change} {c : CK}
    (hl : (if x = .enum then some [(p, CK.addEnumValue)]
      else if x = .union then some [(p, .addUnionMember)] else some [(p, .addField)]) = some l)
    (hc : (p, c) ∈ l) : c = addMember x := by
  cases x <;> simp at hl <;> subst hl <;> simpa [addMember] using hc

theorem remove_kind {x : Kind} {p : Path} {l : List Change} {c : CK}
    (hl : (if x = .enum then some [(p, CK.removeEnumValue)]
      else if x = .union then some [(p, .removeUnionMember)] else some [(p, .removeField)]) = some l)
    (hc : (p, c) ∈ l) : c = removeMember x := by
  cases x <;> simp at hl <;> subst hl <;> simpa [removeMember] using hc

/-- The result of the differ on coherent documents. -/
theorem diff_parts {s t : Doc} (hs : Coherent s) (ht : Coherent t) :
    ∃ r, diff s t = some r ∧ ∀ c, c ∈ r ↔
      c ∈ schemaChanges (traverse s t).schemaDef ∨ c ∈ schemaExtChanges (traverse s t).schemaExts ∨
      c ∈ implChanges (traverse s t).impls ∨
      (∃ x ∈ (traverse s t).types, ∃ a, defChanges x = some a ∧ c ∈ a) ∨
      (∃ x ∈ (traverse s t).fields, ∃ a, fieldChanges (traverse s t).types x = some a ∧ c ∈ a) ∨
      ∃ x ∈ (traverse s t).args, ∃ a, argChanges (traverse s t).fields x = some a ∧ c ∈ a := by
  obtain ⟨d, hd, hdm⟩ := collect_some (def_ok (s := s) (t := t))
  obtain ⟨f, hf, hfm⟩ := collect_some (field_ok hs ht)
  obtain ⟨a, ha, ham⟩ := collect_some (arg_ok hs ht)
  refine ⟨_, by simp only [diff, hd, hf, ha, Option.bind_some, Option.map_some]; rfl, ?_⟩
  intro c
  simp only [List.mem_append, hdm, hfm, ham, or_assoc]

end Verif.SchemaDiff
