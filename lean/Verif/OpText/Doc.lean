import Verif.OpText.Canon
/-!
# Normalised documents
-/
namespace Verif.OpText

open Verif.OpChecks

/-! ## The record of fragments in use -/

/-- The entries are all `true`. -/
def Used.AllTrue (u : Used) : Prop := ∀ p ∈ u, p.2 = true

theorem Used.get_cons (n : Str) (b : Bool) (u : Used) (m : Str) :
    Used.get ((n, b) :: u) m = if n = m then some b else u.get m := by
  unfold Used.get
  rw [List.find?_cons]
  by_cases h : n = m
  · simp [h]
  · simp [h]

theorem Used.get_true {u : Used} (h : u.AllTrue) (n : Str) : u.get n = some true ∨ u.get n = none := by
  unfold Used.get
  cases hf : u.find? (fun p => decide (p.1 = n)) with
  | none => exact Or.inr rfl
  | some p => rw [Option.map_some, h p (List.mem_of_find?_eq_some hf)]; exact Or.inl rfl

/-- `orInsert` for each name, in order. -/
def Used.mark (u : Used) (ns : List Str) : Used := ns.foldl (fun u n => u.orInsert n true) u

theorem Used.mark_append (u : Used) (l m : List Str) : u.mark (l ++ m) = (u.mark l).mark m := List.foldl_append

theorem Used.orInsert_spec {u : Used} (h : u.AllTrue) (n : Str) :
    (u.orInsert n true).AllTrue ∧ ∀ m, (u.orInsert n true).get m = some true ↔ u.get m = some true ∨ m = n := by
  unfold Used.orInsert
  rcases u.get_true h n with hg | hg
  · rw [hg]
    simp only [Option.isSome_some, if_true]
    refine ⟨h, fun m => ⟨Or.inl, ?_⟩⟩
    rintro (h | rfl)
    · exact h
    · exact hg
  · rw [hg]
    simp only [Option.isSome_none, Bool.false_eq_true, if_false]
    refine ⟨?_, fun m => ?_⟩
    · intro p hp
      rcases List.mem_cons.1 hp with rfl | hp
      · rfl
      · exact h p hp
    · rw [Used.get_cons]
      by_cases e : n = m
      · simp [e]
      · simp only [e, if_false]
        exact ⟨Or.inl, fun o => o.resolve_right fun e' => e e'.symm⟩

theorem Used.mark_spec {u : Used} (h : u.AllTrue) (ns : List Str) :
    (u.mark ns).AllTrue ∧ ∀ m, (u.mark ns).get m = some true ↔ u.get m = some true ∨ m ∈ ns := by
  induction ns generalizing u with
  | nil => exact ⟨h, fun m => by simp [Used.mark]⟩
  | cons n t ih =>
    obtain ⟨h1, h2⟩ := u.orInsert_spec h n
    obtain ⟨h3, h4⟩ := ih h1
    refine ⟨h3, fun m => ?_⟩
    show ((u.orInsert n true).mark t).get m = some true ↔ _
    rw [h4, h2, List.mem_cons, or_assoc]

mutual
theorem normSel_eq : ∀ (u : Used) (s : Sel), normSel true u s = (canonSel s, u.mark s.spreads)
  | u, .field a n as ds ss => by
    rw [normSel, normItems_eq u ss, canonSel, Sel.spreads]
  | u, .spread n ds => by
    rw [normSel, canonSel, Sel.spreads]; rfl
  | u, .inline c ds ss => by
    rw [normSel, normItems_eq u ss, canonSel, Sel.spreads]
theorem normItems_eq : ∀ (u : Used) (ss : List Sel), normItems true u ss = (canonItems ss, u.mark (spreads ss))
  | u, [] => by rw [normItems, canonItems, spreads]; rfl
  | u, s :: rest => by
    rw [normItems, canonItems, spreads, normSel_eq u s, normItems_eq _ rest, Used.mark_append]
end

theorem normSels_eq (u : Used) (ss : List Sel) : normSels true u ss = (canonSels ss, u.mark (spreads ss)) := by
  unfold normSels
  rw [normItems_eq]
  rfl

/-! ## Definitions -/

def canonOp (o : Operation) : Operation :=
  match o.kind with
  | .shorthand => { o with sels := canonSels o.sels }
  | _ => { o with dirs := normDirs o.dirs, sels := canonSels o.sels, vars := sortBy (fun a b => (varCmp a b).isLE) o.vars }

def canonFrag (f : Fragment) : Fragment := { f with dirs := normDirs f.dirs, sels := canonSels f.sels }

def canonDef : Def → Def
  | .op o => .op (canonOp o)
  | .frag f => .frag (canonFrag f)

theorem canonOp_sels (o : Operation) : (canonOp o).sels = canonSels o.sels := by
  unfold canonOp
  cases o.kind <;> rfl

theorem canonOp_kind (o : Operation) : (canonOp o).kind = o.kind := by
  unfold canonOp
  cases h : o.kind <;> simp [h]

theorem canonOp_name (o : Operation) : (canonOp o).name = o.name := by
  unfold canonOp
  cases o.kind <;> rfl

theorem normOp_eq (u : Used) (o : Operation) : normOp u o = (canonOp o, u.mark (spreads o.sels)) := by
  unfold normOp canonOp
  rw [normSels_eq]
  cases o.kind <;> rfl

theorem canonOp_idem (o : Operation) : canonOp (canonOp o) = canonOp o := by
  obtain ⟨k, n, vs, ds, ss⟩ := o
  have hv : sortBy (fun a b => (varCmp a b).isLE) (sortBy (fun a b => (varCmp a b).isLE) vs) =
      sortBy (fun a b => (varCmp a b).isLE) vs :=
    sortBy_key_of_sorted (key := VarDef.name) varCmp_key (sortBy_key_sorted (key := VarDef.name) varCmp_key _)
  cases k <;> simp only [canonOp, canonSels_idem, normDirs_idem, hv]

theorem canonDef_idem (d : Def) : canonDef (canonDef d) = canonDef d := by
  cases d with
  | op o => simp only [canonDef, canonOp_idem]
  | frag f => simp only [canonDef, canonFrag, canonSels_idem, normDirs_idem]

def Def.isFrag : Def → Bool
  | .op _ => false
  | .frag _ => true

/-- A string that orders like `defCmp`. -/
def Def.key : Def → Str
  | .frag f => 'a' :: f.name
  | .op _ => ['b']

theorem defCmp_key (a b : Def) : defCmp a b = compare a.key b.key := by
  match a, b with
  | .frag a, .frag b => exact (compare_cons_same _ _ _).symm
  | .op _, .op _ => rfl
  | .op _, .frag _ => rfl
  | .frag _, .op _ => rfl

theorem canonDef_key (d : Def) : (canonDef d).key = d.key := by cases d <;> rfl

/-! ## The loops -/

def opSpreads : List Def → List Str
  | [] => []
  | .op o :: rest => spreads o.sels ++ opSpreads rest
  | .frag _ :: rest => opSpreads rest

theorem mem_opSpreads {doc : List Def} {n : Str} : n ∈ opSpreads doc ↔ InOperation doc n := by
  induction doc with
  | nil => simp [opSpreads, InOperation]
  | cons d t ih =>
    cases d with
    | op o =>
      simp only [opSpreads, List.mem_append, ih]
      unfold InOperation
      constructor
      · rintro (h | ⟨p, hp, h⟩)
        · exact ⟨o, List.mem_cons_self, h⟩
        · exact ⟨p, List.mem_cons_of_mem _ hp, h⟩
      · rintro ⟨p, hp, h⟩
        rcases List.mem_cons.1 hp with e | hp
        · cases e; exact Or.inl h
        · exact Or.inr ⟨p, hp, h⟩
    | frag f =>
      simp only [opSpreads, ih]
      unfold InOperation
      constructor
      · rintro ⟨p, hp, h⟩
        exact ⟨p, List.mem_cons_of_mem _ hp, h⟩
      · rintro ⟨p, hp, h⟩
        rcases List.mem_cons.1 hp with e | hp
        · cases e
        · exact ⟨p, hp, h⟩

/-- What `opLoop` does to a definition. -/
def opOnly : Def → Def
  | .op o => .op (canonOp o)
  | d => d

theorem opLoop_eq (u : Used) (doc : List Def) : opLoop u doc = (doc.map opOnly, u.mark (opSpreads doc)) := by
  induction doc generalizing u with
  | nil => rfl
  | cons d t ih =>
    cases d with
    | op o => rw [opLoop, normOp_eq, ih, opSpreads, Used.mark_append]; rfl
    | frag f => rw [opLoop, ih, opSpreads]; rfl

open Classical in
/-- What `fragLoop` does to a definition if the fragments come in order. -/
noncomputable def fragOnly (use : Str → Prop) : Def → Def
  | .frag f => if use f.name then .frag (canonFrag f) else .frag f
  | d => d

theorem fragLoop_eq (doc : List Def) (ho : InOrder doc) : ∀ (suf pre : List Def) (u : Used), doc = pre ++ suf → u.AllTrue →
    (∀ n, u.get n = some true ↔ InOperation doc n ∨ ∃ g, Def.frag g ∈ pre ∧ InUse doc g.name ∧ n ∈ spreads g.sels) →
    (fragLoop u (suf.map opOnly)).1 = (suf.map opOnly).map (fragOnly (InUse doc)) ∧
      (fragLoop u (suf.map opOnly)).2.AllTrue ∧
      ∀ n, (fragLoop u (suf.map opOnly)).2.get n = some true ↔ InUse doc n
  | [], pre, u, hd, ht, hu => by
    refine ⟨rfl, ht, fun n => ?_⟩
    show u.get n = some true ↔ _
    rw [hu]
    rw [List.append_nil] at hd
    subst hd
    constructor
    · rintro (h | ⟨g, hg, h1, h2⟩)
      · exact .op h
      · exact .frag hg h1 h2
    · intro h
      cases h with
      | op h => exact Or.inl h
      | frag hg h1 h2 => exact Or.inr ⟨_, hg, h1, h2⟩
  | .op o :: rest, pre, u, hd, ht, hu => by
    obtain ⟨h1, h2⟩ := fragLoop_eq doc ho rest (pre ++ [.op o]) u (by rw [hd]; simp) ht (by
      intro n
      rw [hu]
      simp)
    refine ⟨?_, ?_⟩
    · simp only [List.map_cons, opOnly, fragLoop, fragOnly]
      rw [h1]
    · simpa only [List.map_cons, opOnly, fragLoop] using h2
  | .frag f :: rest, pre, u, hd, ht, hu => by
    simp only [List.map_cons, opOnly, fragLoop]
    by_cases huse : InUse doc f.name
    · have hg : u.get f.name = some true := (hu _).2 (ho pre f rest hd huse)
      rw [hg]
      simp only [Option.isSome_some, Bool.not_true, Bool.false_eq_true, if_false]
      rw [normSels_eq]
      obtain ⟨ht', hu'⟩ := u.mark_spec ht (spreads f.sels)
      obtain ⟨h1, h2⟩ := fragLoop_eq doc ho rest (pre ++ [.frag f]) (u.mark (spreads f.sels)) (by rw [hd]; simp) ht' (by
        intro n
        rw [hu', hu, or_assoc]
        refine or_congr_right ?_
        constructor
        · rintro (⟨g, hg, h1, h2⟩ | h)
          · exact ⟨g, List.mem_append_left _ hg, h1, h2⟩
          · exact ⟨f, by simp, huse, h⟩
        · rintro ⟨g, hg, h1, h2⟩
          rcases List.mem_append.1 hg with hg | hg
          · exact Or.inl ⟨g, hg, h1, h2⟩
          · have e := List.mem_singleton.1 hg
            cases e
            exact Or.inr h2)
      refine ⟨?_, h2⟩
      rw [h1, fragOnly, if_pos huse]
      rfl
    · have hg : u.get f.name = none := by
        rcases u.get_true ht f.name with h | h
        · refine absurd ?_ huse
          rcases (hu _).1 h with h | ⟨g, hg, h1, h2⟩
          · exact .op h
          · exact .frag (by rw [hd]; exact List.mem_append_left _ hg) h1 h2
        · exact h
      rw [hg]
      simp only [Option.isSome_none, Bool.not_false, if_true]
      obtain ⟨h1, h2⟩ := fragLoop_eq doc ho rest (pre ++ [.frag f]) u (by rw [hd]; simp) ht (by
        intro n
        rw [hu]
        refine or_congr_right ?_
        constructor
        · rintro ⟨g, hg, h1, h2⟩
          exact ⟨g, List.mem_append_left _ hg, h1, h2⟩
        · rintro ⟨g, hg, h1, h2⟩
          rcases List.mem_append.1 hg with hg | hg
          · exact ⟨g, hg, h1, h2⟩
          · have e := List.mem_singleton.1 hg
            cases e
            exact absurd h1 huse)
      refine ⟨?_, h2⟩
      rw [h1, fragOnly, if_neg huse]

open Classical in
/-- Operations, and fragments in use. -/
noncomputable def Def.needed (use : Str → Prop) : Def → Bool
  | .op _ => true
  | .frag f => decide (use f.name)

theorem normalize_eq (opName : Option Str) (doc : List Def) (ho : InOrder (retained opName doc)) :
    normalize opName doc =
      let l := sortBy (fun a b => (defCmp a b).isLE)
        (((retained opName doc).filter (Def.needed (InUse (retained opName doc)))).map canonDef)
      if l.isEmpty then none else some l := by
  unfold normalize
  generalize hd : retained opName doc = d at ho
  have hnil : Used.AllTrue [] := fun p hp => (by cases hp)
  obtain ⟨ht, hu⟩ := Used.mark_spec hnil (opSpreads d)
  obtain ⟨h1, h2, h3⟩ := fragLoop_eq d ho d [] _ rfl ht (by
    intro n
    rw [hu, mem_opSpreads]
    simp [Used.get])
  simp only [opLoop_eq]
  rw [h1]
  have : ∀ l : List Def, ((l.map opOnly).map (fragOnly (InUse d))).filter (keepDef (fragLoop (Used.mark [] (opSpreads d)) (d.map opOnly)).2) = (l.filter (Def.needed (InUse d))).map canonDef := by
    intro l
    induction l with
    | nil => rfl
    | cons x t ih =>
      cases x with
      | op o =>
        rw [List.map_cons, List.map_cons, List.filter_cons_of_pos rfl, List.filter_cons_of_pos rfl, List.map_cons, ih]
        rfl
      | frag f =>
        simp only [List.map_cons, opOnly, fragOnly]
        by_cases huse : InUse d f.name
        · rw [if_pos huse, List.filter_cons_of_pos, List.filter_cons_of_pos, List.map_cons, ih]
          · rfl
          · simp [Def.needed, huse]
          · simp only [keepDef, canonFrag, (h3 _).2 huse, Option.getD_some]
        · rw [if_neg huse, List.filter_cons_of_neg, List.filter_cons_of_neg, ih]
          · simp [Def.needed, huse]
          · rcases Used.get_true h2 f.name with h | h
            · exact absurd ((h3 _).1 h) huse
            · simp [keepDef, h]
  rw [this]

/-! ## Sameness of documents -/

theorem EquivArgs.refl : ∀ as : List (Str × Value), EquivArgs as as
  | [] => .nil
  | p :: as => .same p (EquivArgs.refl as)

theorem EquivDirs.refl : ∀ ds : List Directive, EquivDirs ds ds
  | [] => .nil
  | ⟨n, as⟩ :: ds => .cons n (EquivArgs.refl as) (EquivDirs.refl ds)

theorem EquivSels.refl : ∀ ss : List Sel, EquivSels ss ss
  | [] => .nil
  | .field a n as ds ss :: l => .field a a n (EquivArgs.refl as) (EquivDirs.refl ds) (EquivSels.refl ss) (EquivSels.refl l)
  | .spread n ds :: l => .spread n (EquivDirs.refl ds) (EquivSels.refl l)
  | .inline c ds ss :: l => .inline c (EquivDirs.refl ds) (EquivSels.refl ss) (EquivSels.refl l)

theorem EquivDoc.refl : ∀ d : List Def, EquivDoc d d
  | [] => .nil
  | .op ⟨k, n, vs, ds, ss⟩ :: l => .op k n (.refl _) (EquivDirs.refl ds) (EquivSels.refl ss) (EquivDoc.refl l)
  | .frag ⟨n, c, ds, ss⟩ :: l => .frag n c (EquivDirs.refl ds) (EquivSels.refl ss) (EquivDoc.refl l)

/-- Some fragment named `m` spreads `n`. -/
def Edge (doc : List Def) (m n : Str) : Prop := ∃ g, Def.frag g ∈ doc ∧ g.name = m ∧ n ∈ spreads g.sels

theorem inUse_congr {d e : List Def} (h1 : ∀ n, InOperation d n → InOperation e n) (h2 : ∀ m n, Edge d m n → Edge e m n) {n : Str}
    (h : InUse d n) : InUse e n := by
  induction h with
  | op h => exact .op (h1 _ h)
  | frag hg _ hn ih =>
    obtain ⟨g', hg', e, hn'⟩ := h2 _ _ ⟨_, hg, rfl, hn⟩
    exact .frag hg' (by rw [e]; exact ih) hn'

theorem inOperation_cons_op (o : Operation) (l : List Def) (n : Str) :
    InOperation (.op o :: l) n ↔ n ∈ spreads o.sels ∨ InOperation l n := by
  rw [← mem_opSpreads, opSpreads, List.mem_append, mem_opSpreads]

theorem inOperation_cons_frag (f : Fragment) (l : List Def) (n : Str) : InOperation (.frag f :: l) n ↔ InOperation l n := by
  rw [← mem_opSpreads, opSpreads, mem_opSpreads]

theorem edge_cons_op (o : Operation) (l : List Def) (m n : Str) : Edge (.op o :: l) m n ↔ Edge l m n := by
  unfold Edge; simp

theorem edge_cons_frag (f : Fragment) (l : List Def) (m n : Str) :
    Edge (.frag f :: l) m n ↔ (f.name = m ∧ n ∈ spreads f.sels) ∨ Edge l m n := by
  unfold Edge
  constructor
  · rintro ⟨g, hg, h⟩
    rcases List.mem_cons.1 hg with e | hg
    · cases e; exact Or.inl h
    · exact Or.inr ⟨g, hg, h⟩
  · rintro (h | ⟨g, hg, h⟩)
    · exact ⟨f, List.mem_cons_self, h⟩
    · exact ⟨g, List.mem_cons_of_mem _ hg, h⟩

theorem EquivDoc.graph {d e : List Def} (h : EquivDoc d e) :
    (∀ n, InOperation d n ↔ InOperation e n) ∧ ∀ m n, Edge d m n ↔ Edge e m n := by
  induction h with
  | nil => exact ⟨fun _ => Iff.rfl, fun _ _ => Iff.rfl⟩
  | op k n hv hd hs h ih =>
    refine ⟨fun x => ?_, fun x y => ?_⟩
    · rw [inOperation_cons_op, inOperation_cons_op, ih.1, hs.spreads]
    · rw [edge_cons_op, edge_cons_op, ih.2]
  | frag n c hd hs h ih =>
    refine ⟨fun x => ?_, fun x y => ?_⟩
    · rw [inOperation_cons_frag, inOperation_cons_frag, ih.1]
    · rw [edge_cons_frag, edge_cons_frag, ih.2, hs.spreads]
  | swap f g l =>
    refine ⟨fun x => ?_, fun x y => ?_⟩
    · simp only [inOperation_cons_frag]
    · simp only [edge_cons_frag]
      exact or_left_comm
  | swapOp o f l =>
    refine ⟨fun x => ?_, fun x y => ?_⟩
    · simp only [inOperation_cons_frag, inOperation_cons_op]
    · simp only [edge_cons_frag, edge_cons_op]
  | swapFrag o f l =>
    refine ⟨fun x => ?_, fun x y => ?_⟩
    · simp only [inOperation_cons_frag, inOperation_cons_op]
    · simp only [edge_cons_frag, edge_cons_op]
  | trans _ _ ih1 ih2 =>
    exact ⟨fun n => (ih1.1 n).trans (ih2.1 n), fun m n => (ih1.2 m n).trans (ih2.2 m n)⟩

theorem EquivDoc.inUse {d e : List Def} (h : EquivDoc d e) (n : Str) : InUse d n ↔ InUse e n :=
  ⟨inUse_congr (fun n => (h.graph.1 n).1) fun m n => (h.graph.2 m n).1,
    inUse_congr (fun n => (h.graph.1 n).2) fun m n => (h.graph.2 m n).2⟩

def retains : Option Str → Def → Bool
  | none, _ => true
  | some n, d => hasName n d

theorem retained_eq (opName : Option Str) (doc : List Def) : retained opName doc = doc.filter (retains opName) := by
  cases opName with
  | none => exact (List.filter_eq_self.2 fun _ _ => rfl).symm
  | some n => rfl

theorem retains_frag (opName : Option Str) (f : Fragment) : retains opName (.frag f) = true := by cases opName <;> rfl

theorem retains_op (opName : Option Str) (o o' : Operation) (hk : o.kind = o'.kind) (hn : o.name = o'.name) :
    retains opName (.op o) = retains opName (.op o') := by
  cases opName with
  | none => rfl
  | some n => simp only [retains, hasName, hk, hn]

theorem EquivDoc.retained {d e : List Def} (h : EquivDoc d e) (opName : Option Str) :
    EquivDoc (Verif.OpText.retained opName d) (Verif.OpText.retained opName e) := by
  rw [retained_eq, retained_eq]
  induction h with
  | nil => exact .nil
  | @op vs ws ds es ss ts l m k n hv hd hs h ih =>
    have e := retains_op opName ⟨k, n, vs, ds, ss⟩ ⟨k, n, ws, es, ts⟩ rfl rfl
    rw [List.filter_cons, List.filter_cons, e]
    split
    · exact .op k n hv hd hs ih
    · exact ih
  | frag n c hd hs h ih =>
    rw [List.filter_cons_of_pos (retains_frag _ _), List.filter_cons_of_pos (retains_frag _ _)]
    exact .frag n c hd hs ih
  | swap f g l =>
    simp only [List.filter_cons, retains_frag, if_true]
    exact .swap ..
  | swapOp o f l =>
    simp only [List.filter_cons, retains_frag, if_true]
    split
    · exact .swapOp ..
    · exact EquivDoc.refl _
  | swapFrag o f l =>
    simp only [List.filter_cons, retains_frag, if_true]
    split
    · exact .swapFrag ..
    · exact EquivDoc.refl _
  | trans _ _ ih1 ih2 => exact ih1.trans ih2

theorem DocDistinct.retained {d : List Def} (h : DocDistinct d) (opName : Option Str) :
    DocDistinct (Verif.OpText.retained opName d) := by
  rw [retained_eq]
  exact ⟨h.1.sublist (List.filter_sublist.filterMap _), fun x hx => h.2 x (List.mem_filter.1 hx).1⟩

/-! ## The result does not depend on the order -/

theorem EquivDoc.perm {d e : List Def} (h : EquivDoc d e) (use : Str → Prop) (hd : ∀ x ∈ d, x.Distinct) :
    (((d.filter (Def.needed use)).map canonDef).filter Def.isFrag).Perm
        (((e.filter (Def.needed use)).map canonDef).filter Def.isFrag) ∧
      ((d.filter (Def.needed use)).map canonDef).filter (fun x => !x.isFrag) =
        ((e.filter (Def.needed use)).map canonDef).filter (fun x => !x.isFrag) ∧
      ∀ x ∈ e, x.Distinct := by
  induction h with
  | nil => exact ⟨.refl _, rfl, hd⟩
  | @op vs ws ds es ss ts l m k n hv hd' hs h ih =>
    obtain ⟨i1, i2, i3⟩ := ih fun x hx => hd x (List.mem_cons_of_mem _ hx)
    obtain ⟨h0, h1, h2, h3⟩ : Def.Distinct (.op ⟨k, n, vs, ds, ss⟩) := hd _ List.mem_cons_self
    obtain ⟨j1, j2⟩ := hs.norm h3
    have hvn : (ws.map (·.name)).Nodup := (hv.map _).nodup_iff.1 h1
    have hve := sortBy_key_perm (key := VarDef.name) varCmp_key hv h1
    have he : canonOp ⟨k, n, vs, ds, ss⟩ = canonOp ⟨k, n, ws, es, ts⟩ := by
      cases k with
      | shorthand =>
        obtain ⟨e1, e2⟩ := h0 rfl
        simp only at e1 e2
        subst e1 e2
        have e3 : ws = [] := List.nil_perm.1 hv
        have e4 : es = [] := by
          have := ((hd'.perm fun _ h => by cases h).1).length_eq
          rw [List.length_map, List.length_map] at this
          exact List.length_eq_zero_iff.1 this.symm
        simp only [canonOp, e3, e4, j1]
      | _ => simp only [canonOp, j1, hd'.norm h2, hve]
    have hdist : Def.Distinct (.op ⟨k, n, ws, es, ts⟩) := by
      refine ⟨fun hk => ?_, hvn, hd'.distinct h2, j2⟩
      obtain ⟨e1, e2⟩ := h0 hk
      simp only at e1 e2
      subst e1 e2
      refine ⟨List.nil_perm.1 hv, ?_⟩
      have := ((hd'.perm fun _ h => by cases h).1).length_eq
      rw [List.length_map, List.length_map] at this
      exact List.length_eq_zero_iff.1 this.symm
    have f1 : ∀ (o : Operation) (l : List Def), (Def.op o :: l).filter (Def.needed use) = .op o :: l.filter (Def.needed use) :=
      fun o l => List.filter_cons_of_pos rfl
    refine ⟨?_, ?_, ?_⟩
    · rw [f1, f1, List.map_cons, List.map_cons]
      exact i1
    · rw [f1, f1, List.map_cons, List.map_cons]
      show Def.op (canonOp _) :: List.filter _ _ = Def.op (canonOp _) :: List.filter _ _
      rw [he, i2]
    · intro x hx
      rcases List.mem_cons.1 hx with rfl | hx
      · exact hdist
      · exact i3 x hx
  | @frag ds es ss ts l m n c hd' hs h ih =>
    obtain ⟨i1, i2, i3⟩ := ih fun x hx => hd x (List.mem_cons_of_mem _ hx)
    obtain ⟨h2, h3⟩ : Def.Distinct (.frag ⟨n, c, ds, ss⟩) := hd _ List.mem_cons_self
    obtain ⟨j1, j2⟩ := hs.norm h3
    have he : canonFrag ⟨n, c, ds, ss⟩ = canonFrag ⟨n, c, es, ts⟩ := by
      simp only [canonFrag, j1, hd'.norm h2]
    have hn : Def.needed use (.frag ⟨n, c, ds, ss⟩) = Def.needed use (.frag ⟨n, c, es, ts⟩) := rfl
    refine ⟨?_, ?_, ?_⟩
    · rw [List.filter_cons, List.filter_cons, hn]
      split
      · rw [List.map_cons, List.map_cons]
        show (Def.frag (canonFrag _) :: List.filter _ _).Perm (Def.frag (canonFrag _) :: List.filter _ _)
        rw [he]
        exact i1.cons _
      · exact i1
    · rw [List.filter_cons, List.filter_cons, hn]
      split
      · exact i2
      · exact i2
    · intro x hx
      rcases List.mem_cons.1 hx with rfl | hx
      · exact ⟨hd'.distinct h2, j2⟩
      · exact i3 x hx
  | swap f g l =>
    refine ⟨?_, ?_, fun x hx => hd x ((List.Perm.swap (Def.frag f) (.frag g) l).mem_iff.1 hx)⟩
    · exact ((((List.Perm.swap (Def.frag g) (.frag f) l).filter _).map _).filter _)
    · simp only [List.filter_cons]
      split <;> split <;> rfl
  | swapOp o f l =>
    refine ⟨?_, ?_, fun x hx => hd x ((List.Perm.swap (Def.op o) (.frag f) l).mem_iff.1 hx)⟩
    · exact ((((List.Perm.swap (Def.frag f) (.op o) l).filter _).map _).filter _)
    · have ho : Def.needed use (.op o) = true := rfl
      simp only [List.filter_cons, ho, if_true]
      generalize Def.needed use (.frag f) = b
      cases b <;> rfl
  | swapFrag o f l =>
    refine ⟨?_, ?_, fun x hx => hd x ((List.Perm.swap (Def.frag f) (.op o) l).mem_iff.1 hx)⟩
    · exact ((((List.Perm.swap (Def.op o) (.frag f) l).filter _).map _).filter _)
    · have ho : Def.needed use (.op o) = true := rfl
      simp only [List.filter_cons, ho, if_true]
      generalize Def.needed use (.frag f) = b
      cases b <;> rfl
  | trans _ _ ih1 ih2 =>
    obtain ⟨a1, a2, a3⟩ := ih1 hd
    obtain ⟨b1, b2, b3⟩ := ih2 a3
    exact ⟨a1.trans b1, a2.trans b2, b3⟩

theorem sortDefs_split (l : List Def) : sortBy (fun a b => (defCmp a b).isLE) l =
    sortBy (fun a b => (defCmp a b).isLE) (l.filter Def.isFrag) ++ l.filter fun x => !x.isFrag := by
  apply sortBy_split
  · intro a b ha hb
    cases a <;> cases b <;> first | rfl | (cases ha; done) | (cases hb; done)
  · intro a b ha hb
    cases a <;> cases b <;> first | rfl | (cases ha; done) | (cases hb; done)
  · intro a b ha hb
    cases a <;> cases b <;> first | rfl | (cases ha; done) | (cases hb; done)

theorem nodup_fragKeys {d : List Def} (use : Str → Prop) (h : (d.filterMap Def.fragName).Nodup) :
    ((((d.filter (Def.needed use)).map canonDef).filter Def.isFrag).map Def.key).Nodup := by
  have : (((d.filter (Def.needed use)).map canonDef).filter Def.isFrag).map Def.key =
      ((d.filter (Def.needed use)).filterMap Def.fragName).map ('a' :: ·) := by
    generalize d.filter (Def.needed use) = l
    induction l with
    | nil => rfl
    | cons x t ih =>
      cases x with
      | op o =>
        rw [List.map_cons, List.filterMap_cons_none rfl, ← ih]
        rfl
      | frag f =>
        rw [List.map_cons, List.filterMap_cons_some (f := Def.fragName) (b := f.name) rfl, List.map_cons, ← ih]
        rfl
  rw [this]
  have hs := h.sublist ((List.filter_sublist (p := Def.needed use) (l := d)).filterMap Def.fragName)
  unfold List.Nodup at hs ⊢
  rw [List.pairwise_map]
  exact hs.imp fun hn e => hn (List.cons.inj e).2

theorem EquivDoc.sorted {d e : List Def} (h : EquivDoc d e) (use : Str → Prop) (hd : DocDistinct d) :
    sortBy (fun a b => (defCmp a b).isLE) ((d.filter (Def.needed use)).map canonDef) =
      sortBy (fun a b => (defCmp a b).isLE) ((e.filter (Def.needed use)).map canonDef) := by
  obtain ⟨h1, h2, _⟩ := h.perm use hd.2
  rw [sortDefs_split, sortDefs_split ((e.filter _).map _), h2,
    sortBy_key_perm defCmp_key h1 (nodup_fragKeys use hd.1)]

/-! ## Normalising twice -/

theorem needed_iff {use : Str → Prop} {d : Def} : Def.needed use d = true ↔ ∀ f, d = .frag f → use f.name := by
  cases d with
  | op o => simp [Def.needed]
  | frag f => simp [Def.needed]

/-- The normalised form of the needed definitions of `d`, in any order. -/
def IsNormal (d out : List Def) : Prop :=
  ∀ x, x ∈ out ↔ ∃ y ∈ d, Def.needed (InUse d) y = true ∧ canonDef y = x

theorem IsNormal.graph {d out : List Def} (h : IsNormal d out) (n : Str) :
    (InOperation out n ↔ InOperation d n) ∧ (InUse out n ↔ InUse d n) := by
  have hop : ∀ n, InOperation out n ↔ InOperation d n := by
    intro n
    constructor
    · rintro ⟨o, ho, hn⟩
      obtain ⟨y, hy, _, e⟩ := (h _).1 ho
      cases y with
      | frag f => cases e
      | op p =>
        injection e with e
        subst e
        rw [canonOp_sels, canonSels_spreads] at hn
        exact ⟨p, hy, hn⟩
    · rintro ⟨o, ho, hn⟩
      refine ⟨canonOp o, (h _).2 ⟨_, ho, rfl, rfl⟩, ?_⟩
      rw [canonOp_sels, canonSels_spreads]
      exact hn
  refine ⟨hop n, ?_, ?_⟩
  · intro hu
    induction hu with
    | op hn => exact .op ((hop _).1 hn)
    | frag hg _ hn ih =>
      obtain ⟨y, hy, _, e⟩ := (h _).1 hg
      cases y with
      | op o => cases e
      | frag f =>
        injection e with e
        subst e
        have hn : _ ∈ spreads (canonSels f.sels) := hn
        rw [canonSels_spreads] at hn
        exact .frag hy ih hn
  · intro hu
    induction hu with
    | op hn => exact .op ((hop _).2 hn)
    | @frag n g hg hg' hn ih =>
      refine .frag (g := canonFrag g) ((h _).2 ⟨_, hg, ?_, rfl⟩) ih ?_
      · exact needed_iff.2 fun f e => by cases e; exact hg'
      · show n ∈ spreads (canonSels g.sels)
        rw [canonSels_spreads]
        exact hn

theorem sorted_normal (d : List Def) :
    IsNormal d (sortBy (fun a b => (defCmp a b).isLE) ((d.filter (Def.needed (InUse d))).map canonDef)) := by
  intro x
  rw [(sortBy_perm _ _).mem_iff, List.mem_map]
  simp only [List.mem_filter, and_assoc]

theorem sorted_inOrder {d out : List Def} (h : IsNormal d out) (hn : InNameOrder d)
    (hs : out.Pairwise fun a b => (compare a.key b.key).isLE = true) : InOrder out := by
  intro pre f post hd hu
  have hf : Def.frag f ∈ out := by rw [hd]; simp
  obtain ⟨y, hy, _, e⟩ := (h _).1 hf
  cases y with
  | op o => cases e
  | frag f' =>
    injection e with e
    subst e
    have hu' : InUse d f'.name := (h.graph _).2.1 hu
    rcases hn f' hy hu' with ho | ⟨g, hg, hlt, hgu, hgs⟩
    · exact Or.inl ((h.graph _).1.2 ho)
    · right
      refine ⟨canonFrag g, ?_, (h.graph _).2.2 hgu, (canonSels_spreads _ _).2 hgs⟩
      have hm : Def.frag (canonFrag g) ∈ out := (h _).2 ⟨_, hg, needed_iff.2 fun f e => by cases e; exact hgu, rfl⟩
      rw [hd] at hm hs
      rcases List.mem_append.1 hm with hm | hm
      · exact hm
      · have hgt : ∀ x ∈ Def.frag (canonFrag f') :: post, x = Def.frag (canonFrag g) → False := by
          have hs' := (List.pairwise_append.1 hs).2.1
          intro x hx ex
          subst ex
          have hc : (compare (Def.key (.frag (canonFrag f'))) (Def.key (.frag (canonFrag g)))).isLE = true := by
            rcases List.mem_cons.1 hx with hx | hx
            · rw [hx, Std.ReflCmp.compare_self (cmp := compare)]; rfl
            · exact (List.pairwise_cons.1 hs').1 _ hx
          have hc : (compare f'.name g.name).isLE = true := by
            rw [← compare_cons_same 'a']; exact hc
          rw [Std.OrientedCmp.eq_swap (cmp := compare), hlt] at hc
          cases hc
        exact (hgt _ hm rfl).elim

end Verif.OpText
