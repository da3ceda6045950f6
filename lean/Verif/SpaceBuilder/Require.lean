import Verif.SpaceBuilder.Resolve
/-!
# `create_requirement`
-/
namespace Verif.SpaceBuilder

open Verif.QueryGraph (Kind SEdge)

variable {E : Env} {st st' st'' : St} {vs : List Node} {es : List SEdge} {L L' : List Task} {R R' : List Req} {Q : List Req} {t : Task} {q : Req}

theorem source_zero (hs : Shape E st) {s : Nat} (h : Source st 0 s) : s = 0 := by
  cases h with
  | root => rfl
  | provider _ h =>
    obtain ⟨⟨_, f, _, hf, _⟩, _⟩ := hs.edge _ h
    simp only [St.Field, hs.root] at hf
    cases hf

theorem newTasks_eq (hs : Shape E st) (g o n id : Nat) : ∃ new, st.newTasks g o n id = { st with tasks := new ++ st.tasks } ∧
    ∀ t, t ∈ new ↔ ∃ s, Source st g s ∧ t = ⟨⟨g, o, s⟩, n, id⟩ := by
  unfold St.newTasks
  split
  · rename_i hg
    subst hg
    refine ⟨[⟨⟨0, o, 0⟩, n, id⟩], rfl, fun t => ?_⟩
    simp only [List.mem_cons, List.not_mem_nil, or_false]
    constructor
    · rintro rfl
      exact ⟨0, .root, rfl⟩
    · rintro ⟨s, h, rfl⟩
      rw [source_zero hs h]
  · rename_i hg
    refine ⟨_, rfl, fun t => ?_⟩
    simp only [List.mem_reverse, List.mem_filterMap, mem_incoming]
    constructor
    · rintro ⟨⟨a, b, k⟩, ⟨h1, rfl⟩, h2⟩
      split at h2
      · rename_i h3
        obtain ⟨rfl, h3⟩ := h3
        obtain ⟨p, h3⟩ := Option.isSome_iff_exists.1 h3
        exact ⟨a, .provider (asProvidable_eq.1 h3) h1, (Option.some.inj h2).symm⟩
      · cases h2
    · rintro ⟨s, h, rfl⟩
      cases h with
      | root => exact (hg rfl).elim
      | provider h1 h2 => exact ⟨_, ⟨h2, rfl⟩, by simp [asProvidable_eq.2 h1]⟩

theorem findExisting_some {g item n id : Nat} (h : st.findExisting E g item = some (n, id)) :
    st.Edge g n .field ∧ ∃ f fl, st.Field n f ∧ f.id = id ∧ st.fields[id]? = some fl ∧ (fl.used = some item ∨ fl.same E item = true) := by
  unfold St.findExisting at h
  obtain ⟨⟨a, b, k⟩, h1, h2⟩ := List.exists_of_findSome?_eq_some h
  rw [mem_outgoing] at h1
  obtain ⟨h1, rfl⟩ := h1
  simp only at h2
  split at h2
  · rename_i hk
    split at h2
    · rename_i f hf
      split at h2
      · rename_i fl hfl
        split at h2
        · rename_i hm
          cases h2
          subst hk
          exact ⟨h1, f, fl, asField_eq.1 hf, rfl, hfl, hm⟩
        · cases h2
      · cases h2
    · cases h2
  · cases h2

theorem fits_same {fl : SpaceBuilder.Field} {item : Nat} (h : fl.same E item = true) : Fits E fl item := by
  simp only [Field.same, Bool.and_eq_true, decide_eq_true_eq] at h
  exact ⟨h.1, .inr h.2⟩

/-- An item is for the field `n`. -/
structure Taken (E : Env) (st : St) (g item n id : Nat) : Prop where
  edge : st.Edge g n .field
  field : ∃ f fl, st.Field n f ∧ f.id = id ∧ st.fields[id]? = some fl ∧ Fits E fl item

theorem Inv.takeOld (h : Inv E Q st st.tasks R) {g item n id : Nat} (hf : st.findExisting E g item = some (n, id)) :
    let st' : St := { st with fields := st.fields.modify id fun fl => { fl with used := some item } }
    Inv E Q st' st'.tasks R ∧ Grows st st' ∧ Taken E st' g item n id := by
  obtain ⟨h1, f, fl, h2, h3, h4, h5⟩ := findExisting_some hf
  have hfit : Fits E fl item := h5.elim (h.used _ _ _ h4) fits_same
  simp only
  generalize hst : ({ st with fields := st.fields.modify id fun fl => { fl with used := some item } } : St) = st'
  have hn : st'.nodes = st.nodes := by rw [← hst]
  have he : st'.edges = st.edges := by rw [← hst]
  have hfs : ∀ (i : Nat), st'.fields[i]? = (st.fields[i]?).map fun fl => if id = i then { fl with used := some item } else fl := by
    intro i
    rw [← hst]
    simp only [List.getElem?_modify]
    cases st.fields[i]? <;> simp
  have hx : Ext st st' [] [] := by
    refine ⟨⟨fun n v h _ => by rw [hn]; exact h, fun n f h => ⟨f, by rw [hn]; exact h, rfl, rfl, rfl, rfl, _root_.id⟩, fun e h => by rw [he]; exact h,
      fun i fl h => ?_, fun x hx => by rw [← hst]; exact hx, by rw [hn]; exact Nat.le_refl _⟩,
      fun n v h => .inl ⟨by rw [hn] at h; exact (List.getElem?_eq_some_iff.1 h).1, .inr (by rw [← hn]; exact h)⟩, by simp [he]⟩
    rw [hfs, h]
    refine ⟨_, rfl, ?_⟩
    split <;> exact ⟨rfl, rfl⟩
  have hs : Shape E st' := h.shape.link hx hn (by simp)
  have hu : Used E st' := by
    intro i fl' item' h6 h7
    rw [hfs, Option.map_eq_some_iff] at h6
    obtain ⟨fl0, h6, rfl⟩ := h6
    split at h7
    · rename_i hi
      subst hi
      rw [h4] at h6
      cases h6
      cases h7
      rw [if_pos rfl]
      exact hfit
    · rename_i hi
      rw [if_neg hi]
      exact h.used _ _ _ h6 h7
  refine ⟨h.ext hx hs hu (h.once.plain h.shape hx (by simp)) (fun q hq => hq) (fun t ht => ht) (fun t ht => .inl ht) (fun q hq => .inl hq) (h.phase.ext hx (by simp))
    (fun g n s h1 h2 => .inl (hx.cover h.shape (by simp) h1 h2)) (by simp) (by simp), hx.grows,
    hx.grows.edge h1, f, { fl with used := some item }, by simp only [St.Field, hn]; exact h2, h3, by rw [hfs, h4]; simp, hfit⟩

theorem Inv.takeNew (h : Inv E Q st st.tasks R) (hext : ∀ t ∈ st.tasks, IsExtra st t.node true) (hq : Output E st q.parent q.output) (item : Nat) :
    let st' := st.newField E q item
    Inv E Q st' st'.tasks R ∧ (∀ t ∈ st'.tasks, IsExtra st' t.node true) ∧ Grows st st' ∧ st'.reqs = st.reqs ∧
      Taken E st' q.parent item st.nodes.length st.fields.length := by
  have hlt : q.parent < st.nodes.length := exists_lt (hq.exists h.shape.root)
  simp only [St.newField]
  generalize hv : (⟨st.fields.length, true, q.indispensable, (E.out (E.itemDef item)).isNone, false, false⟩ : FNode) = v
  generalize hfl : (⟨some (E.itemDef item), E.itemArgs item, some item⟩ : SpaceBuilder.Field) = fl
  generalize hst1 : (({ st with fields := st.fields ++ [fl] } : St).addNode (.field v)).addEdge q.parent st.nodes.length .field = st1
  have hn : st1.nodes = st.nodes ++ [.field v] := by rw [← hst1]; rfl
  have he : st1.edges = st.edges ++ [⟨q.parent, st.nodes.length, .field⟩] := by rw [← hst1]; rfl
  have hfs : st1.fields = st.fields ++ [fl] := by rw [← hst1]; rfl
  have hgt : ∀ (n : Nat) w, st.nodes[n]? = some w → st1.nodes[n]? = some w := by
    intro n w h
    rw [hn, List.getElem?_append_left (exists_lt ⟨_, h⟩)]
    exact h
  have hx : Ext st st1 [.field v] [⟨q.parent, st.nodes.length, .field⟩] := by
    refine ⟨⟨fun n w h _ => hgt n w h, fun n f h => ⟨f, hgt n _ h, rfl, rfl, rfl, rfl, id⟩, fun e h => by rw [he]; simp [h],
      fun i fl' h => ⟨fl', ?_, rfl, rfl⟩, fun x hx => by rw [← hst1]; exact hx, by simp [hn]⟩, fun n w h => ?_, he⟩
    · rw [hfs, List.getElem?_append_left (List.getElem?_eq_some_iff.1 h).1]
      exact h
    · rw [hn] at h
      rcases Nat.lt_or_ge n st.nodes.length with hl | hl
      · rw [List.getElem?_append_left hl] at h
        exact .inl ⟨hl, .inr h⟩
      · rw [List.getElem?_append_right hl] at h
        exact .inr ⟨hl, List.mem_of_getElem? h⟩
  have hg := hx.grows
  have hfld : st1.Field st.nodes.length v := by simp [St.Field, hn]
  have hrec : st1.fields[v.id]? = some fl := by rw [hfs, ← hv]; simp
  have hdef : st1.Def st.nodes.length (some (E.itemDef item)) fl.args := ⟨v, fl, hfld, hrec, by rw [← hfl], rfl⟩
  have hedge : st1.Edge q.parent st.nodes.length .field := hx.new (e := ⟨q.parent, st.nodes.length, .field⟩) (by simp)
  have hat : ∀ (n : Nat) (f : FNode), st1.Field n f → st.nodes.length ≤ n → n = st.nodes.length ∧ f = v := by
    intro n f h1 h2
    have : n < st1.nodes.length := exists_lt ⟨_, h1⟩
    rw [hn] at this
    simp only [List.length_append, List.length_cons, List.length_nil] at this
    have hn' : n = st.nodes.length := by omega
    subst hn'
    simp only [St.Field] at h1 hfld
    rw [h1] at hfld
    cases hfld
    exact ⟨rfl, rfl⟩
  have hs : Shape E st1 := by
    refine h.shape.ext hx (by simp) (fun n f h1 h2 => ?_) ⟨by simp, by simp [hn]⟩ (fun e he => ?_) (by simp) (fun n p h1 h2 => ?_) (by simp)
      (fun n f f' h1 h2 h3 h4 => ?_)
    · obtain ⟨rfl, rfl⟩ := hat n f h1 h2
      refine ⟨⟨_, .inl hedge⟩, by rw [← hv]; exact Nat.le_refl _, by rw [← hv], fl, hrec, ?_⟩
      rw [← hv, ← hfl]
      simp
    · simp only [List.mem_cons, List.not_mem_nil, or_false] at he
      subst he
      exact ⟨⟨_, hg.output hq⟩, ⟨_, _, hdef⟩, fun _ => ⟨v, hfld, by rw [← hv]⟩, hlt⟩
    · exfalso
      have : n < st1.nodes.length := exists_lt ⟨_, h1⟩
      rw [hn] at this
      simp only [List.length_append, List.length_cons, List.length_nil] at this
      have hn' : n = st.nodes.length := by omega
      subst hn'
      simp only [St.Field, St.Provider] at h1 hfld
      rw [h1] at hfld
      cases hfld
    · simp only [St.Field] at h1 h2
      rw [hgt n _ h1] at h2
      cases h2
      rw [h3] at h4
      cases h4
  have hu : Used E st1 := by
    intro i fl' item' h1 h2
    rw [hfs] at h1
    rcases Nat.lt_or_ge i st.fields.length with hl | hl
    · rw [List.getElem?_append_left hl] at h1
      exact h.used _ _ _ h1 h2
    · rw [List.getElem?_append_right hl] at h1
      have := List.mem_of_getElem? h1
      simp only [List.mem_cons, List.not_mem_nil, or_false] at this
      subst this hfl
      cases h2
      exact ⟨rfl, .inl rfl⟩
  obtain ⟨new, hnew, hmem⟩ := newTasks_eq hs q.parent q.output st.nodes.length st.fields.length
  rw [hnew]
  generalize hst : ({ st1 with tasks := new ++ st1.tasks } : St) = st'
  have hx' : Ext st st' [.field v] [⟨q.parent, st.nodes.length, .field⟩] := by rw [← hst]; exact hx.of_tasks
  have hsame : Ext st1 st' [] [] := by apply Ext.same <;> rw [← hst]; simp
  have hs' : Shape E st' := by apply hs.same <;> rw [← hst]; simp
  have hg' := hsame.grows
  have htasks : st'.tasks = new ++ st.tasks := by rw [← hst, ← hst1]; rfl
  have hfld' : st'.Field st.nodes.length v := by rw [← hst]; exact hfld
  have hphase : ∀ t ∈ st'.tasks, IsExtra st' t.node true := by
    intro t ht
    rw [htasks, List.mem_append] at ht
    rcases ht with ht | ht
    · obtain ⟨s, _, rfl⟩ := (hmem t).1 ht
      exact ⟨v, hfld', by rw [← hv]⟩
    · exact hx'.grows.isExtra (hext t ht)
  have hsrc : ∀ g s, Source st' g s → Source st g s := by
    intro g s h1
    cases h1 with
    | root => exact .root
    | provider h2 h3 =>
      rcases hx'.edge h3 with h4 | h4
      · obtain ⟨⟨p, _, h5, _⟩, _⟩ := h.shape.edge _ h4
        exact .provider h5 h4
      · simp at h4
  refine ⟨h.ext hx' hs' (hu.same (by rw [← hst])) (h.once.plain h.shape hx' (by simp)) (fun q hq => hq) (fun t ht => by rw [htasks]; simp [ht]) (fun t ht => ?_) (fun q hq => .inl hq)
    (.inr hphase) (fun g n s h1 h2 => ?_) (by simp) (by simp), hphase, hx'.grows, by rw [← hst, ← hst1]; rfl, hg'.edge hedge, v, fl, hfld',
    by rw [← hv], by rw [← hst]; simp [hfs], by rw [← hfl]; exact ⟨rfl, .inl rfl⟩⟩
  · rw [htasks, List.mem_append] at ht
    rcases ht with ht | ht
    · obtain ⟨s, h1, rfl⟩ := (hmem t).1 ht
      exact .inr ⟨⟨v, hfld', by rw [← hv]⟩, .inl (hg'.edge hedge), hx'.grows.output hq, hg'.source h1⟩
    · exact .inl ht
  · have h3 := hsrc g s h2
    rcases h1 with h1 | h1
    · rcases hx'.edge h1 with h4 | h4
      · exact .inl ⟨.inl h4, h3⟩
      · right
        simp only [List.mem_cons, SEdge.mk.injEq, and_true, List.not_mem_nil, or_false] at h4
        obtain ⟨rfl, rfl⟩ := h4
        refine ⟨⟨⟨q.parent, q.output, s⟩, st.nodes.length, st.fields.length⟩, ?_, rfl, rfl, rfl⟩
        rw [htasks, List.mem_append]
        exact .inl ((hmem _).2 ⟨s, hg.source h3, rfl⟩)
    · rcases hx'.edge h1 with h4 | h4
      · exact .inl ⟨.inr h4, h3⟩
      · simp at h4

theorem Inv.takeField (h : Inv E Q st st.tasks R) (hext : ∀ t ∈ st.tasks, IsExtra st t.node true) (hq : Output E st q.parent q.output) (item : Nat) :
    ∃ st' n id, st.takeField E q item = (st', n, id) ∧ Inv E Q st' st'.tasks R ∧ (∀ t ∈ st'.tasks, IsExtra st' t.node true) ∧ Grows st st' ∧
      st'.reqs = st.reqs ∧ Taken E st' q.parent item n id := by
  unfold St.takeField
  split
  · rename_i n id hf
    obtain ⟨h1, h2, h3⟩ := h.takeOld hf
    exact ⟨_, n, id, rfl, h1, fun t ht => h2.isExtra (hext t ht), h2, rfl, h3⟩
  · obtain ⟨h1, h2, h3, h4, h5⟩ := h.takeNew hext hq item
    exact ⟨_, _, _, rfl, h1, h2, h3, h4, h5⟩

/-- One item of a requirement. -/
theorem Inv.requireItem (h : Inv E Q st st.tasks (q :: st.reqs)) (hext : ∀ t ∈ st.tasks, IsExtra st t.node true) (item : Nat) (sub : Sel) :
    let st' := st.requireItem E q item sub
    Inv E Q st' st'.tasks (q :: st'.reqs) ∧ (∀ t ∈ st'.tasks, IsExtra st' t.node true) ∧ Grows st st' ∧ (∀ q ∈ st.reqs, q ∈ st'.reqs) ∧
      Met E st' st'.reqs q.dependent q.parent (.cons item sub .nil) := by
  have hq := h.req q (by simp)
  obtain ⟨st1, n, id, h1, h2, h3, h4, h5, h6, f, fl, h7, h8, h9, h10⟩ := h.takeField hext hq.output item
  have hq1 := h4.reqOk hq
  simp only [St.requireItem, h1]
  have hdef : ((((st1.addEdge q.dependent n .requires).fields[id]?).bind (·.definition)).bind E.out) = E.out (E.itemDef item) := by
    show (((st1.fields[id]?).bind _).bind _) = _
    rw [h9]
    simp [h10.1]
  rw [hdef]
  have hd : st1.Def n (some (E.itemDef item)) fl.args := ⟨f, fl, h7, by rw [h8]; exact h9, h10.1, rfl⟩
  have key : ∀ (new : List Req) st', st' = ({ st1.addEdge q.dependent n .requires with reqs := new ++ st.reqs } : St) →
      (∀ q' ∈ new, ∃ o, E.out (E.itemDef item) = some o ∧ q' = ⟨q.dependent, q.indispensable, n, o, sub⟩) →
      ((E.out (E.itemDef item)).isSome → ∃ q' ∈ new, q'.dependent = q.dependent ∧ q'.parent = n ∧ q'.items = sub) →
      Inv E Q st' st'.tasks (q :: st'.reqs) ∧ (∀ t ∈ st'.tasks, IsExtra st' t.node true) ∧ Grows st st' ∧ (∀ q ∈ st.reqs, q ∈ st'.reqs) ∧
      Met E st' st'.reqs q.dependent q.parent (.cons item sub .nil) := by
    intro new st' hst hnew hsub
    have hn : st'.nodes = st1.nodes := by rw [hst]; rfl
    have hfs : st'.fields = st1.fields := by rw [hst]; rfl
    have hx : Ext st1 st' [] [⟨q.dependent, n, .requires⟩] := by apply Ext.link <;> rw [hst] <;> rfl
    have hg := hx.grows
    have htasks : st'.tasks = st1.tasks := by rw [hst]; rfl
    have hreqs : st'.reqs = new ++ st.reqs := by rw [hst]
    have hs : Shape E st' := by
      refine h2.shape.link hx hn fun e he => ?_
      simp only [List.mem_cons, List.not_mem_nil, or_false] at he
      subst he
      exact ⟨⟨⟨f, by simp only [St.Field, hn]; exact h7⟩, (hg.reqOk hq1).dependent⟩, by simp, by simp⟩
    have hph : ∀ t ∈ st1.tasks, IsExtra st' t.node true := fun t ht => hg.isExtra (h3 t ht)
    rw [htasks]
    refine ⟨h2.ext hx hs (h2.used.same hfs) (h2.once.plain h2.shape hx (by simp)) (fun q' hq' => ?_) (fun t ht => ht) (fun t ht => .inl ht) (fun q' hq' => ?_) (.inr hph)
      (fun g n s h1 h2' => .inl (hx.cover h2.shape (by simp) h1 h2')) (by simp) (by simp), hph, h4.trans hg, fun q' hq' => by rw [hreqs]; simp [hq'], ?_⟩
    · rw [hreqs]
      simp only [List.mem_cons, List.mem_append] at hq' ⊢
      tauto
    · rw [hreqs] at hq'
      simp only [List.mem_cons, List.mem_append] at hq' ⊢
      rcases hq' with hq' | hq' | hq'
      · exact .inl (.inl hq')
      · obtain ⟨o, ho, rfl⟩ := hnew q' hq'
        exact .inr ⟨(hg.reqOk hq1).dependent, .field (hg.def hd) ho⟩
      · exact .inl (.inr hq')
    · refine ⟨⟨n, f, fl, hg.edge h6, hx.new (e := ⟨q.dependent, n, .requires⟩) (by simp), by simp only [St.Field, hn]; exact h7,
        by rw [hfs, h8]; exact h9, h10, fun hsome => .inl ?_⟩, trivial⟩
      obtain ⟨q', a1, a2⟩ := hsub hsome
      exact ⟨q', by rw [hreqs]; simp [a1], a2⟩
  split
  · rename_i o ho
    refine key [⟨q.dependent, q.indispensable, n, o, sub⟩] _ ?_ (by simp [ho]) (by simp)
    simp [St.addEdge, h5]
  · rename_i ho
    refine key [] _ ?_ (by simp) (by simp [ho])
    simp [St.addEdge, ← h5]

theorem Inv.createRequirement {S : Sel} (h : Inv E Q st st.tasks (q :: st.reqs)) (hext : ∀ t ∈ st.tasks, IsExtra st t.node true) :
    let st' := st.createRequirement E q S
    Inv E Q st' st'.tasks (q :: st'.reqs) ∧ (∀ t ∈ st'.tasks, IsExtra st' t.node true) ∧ Grows st st' ∧ (∀ q ∈ st.reqs, q ∈ st'.reqs) ∧
      Met E st' st'.reqs q.dependent q.parent S := by
  induction S generalizing st with
  | nil => exact ⟨h, hext, .refl, fun q hq => hq, trivial⟩
  | cons item sub rest _ ih =>
    obtain ⟨h1, h2, h3, h4, h5, _⟩ := h.requireItem hext item sub
    obtain ⟨h6, h7, h8, h9, h10⟩ := ih h1 h2
    refine ⟨h6, h7, h3.trans h8, fun q hq => h9 q (h4 q hq), ?_, h10⟩
    exact (Met.grows (S := .cons item sub .nil) h8 h9 ⟨h5, trivial⟩).1

theorem Met.pop (hm : Met E st R q.dependent q.parent q.items) {n g : Nat} {S : Sel} (h : Met E st (q :: R) n g S) : Met E st R n g S := by
  induction S generalizing g with
  | nil => trivial
  | cons item sub rest ih1 ih2 =>
    obtain ⟨⟨c, f, fl, h1, h2, h3, h4, h5, h6⟩, h7⟩ := h
    refine ⟨⟨c, f, fl, h1, h2, h3, h4, h5, fun hs => ?_⟩, ih2 h7⟩
    rcases h6 hs with ⟨q', hq', a1, a2, a3⟩ | h
    · rcases List.mem_cons.1 hq' with rfl | hq'
      · subst a1 a2 a3
        exact .inr hm
      · exact .inl ⟨q', hq', a1, a2, a3⟩
    · exact .inr (ih1 h)

theorem Owed.pop (hm : Met E st R q.dependent q.parent q.items) {n g : Nat} {S : Sel} (h : Owed E st (q :: R) n g S) : Owed E st R n g S := by
  rcases h with ⟨q', hq', a1, a2, a3⟩ | h
  · rcases List.mem_cons.1 hq' with rfl | hq'
    · subst a1 a2 a3
      exact .inr hm
    · exact .inl ⟨q', hq', a1, a2, a3⟩
  · exact .inr (Met.pop hm h)

theorem Inv.pop (h : Inv E Q st L (q :: R)) (hm : Met E st R q.dependent q.parent q.items) : Inv E Q st L R := by
  refine ⟨h.shape, h.task, fun q' hq' => h.req q' (by simp [hq']), h.phase, h.cover, fun q' hq' => (h.init q' hq').pop hm,
    fun g i r S h1 h2 h3 => (h.res g i r S h1 h2 h3).pop hm, fun i j r f d args S h1 h2 h3 h4 h5 => ?_, h.used, h.once⟩
  obtain ⟨g, a1, a2, a3⟩ := h.need i j r f d args S h1 h2 h3 h4 h5
  exact ⟨g, a1, a2, a3.pop hm⟩

end Verif.SpaceBuilder
