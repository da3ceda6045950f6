import Verif.TypeChoice.Lemmas

namespace Verif.TypeChoice

theorem typeOf_under {es : List (Name × Json)} {n : Name} : typeOf es = some n ↔ ∃ b, under es "__typename" = some (.text n b) := by
  unfold typeOf
  cases under es "__typename" with
  | none => simp
  | some j => cases j <;> simp

theorem entryReaders_map (types : Types) : ∀ es, entryReaders types es = es.map (fun e => (e.1, e.2, read types e.2))
  | [] => rfl
  | (n, j) :: es => by rw [entryReaders, entryReaders_map types es]; rfl

theorem readers_map (types : Types) : ∀ js, readers types js = js.map (read types)
  | [] => rfl
  | j :: js => by rw [readers, readers_map types js]; rfl

/-- An entry to read. -/
def entry (types : Types) (kept : Bool) (e : Name × Json) : Entry := ⟨e.1, e.2, read types e.2, kept⟩

theorem readMap_entries (types : Types) (es : List (Name × Json)) (kept : Bool) :
    ((entryReaders types es).map (fun e => (⟨e.1, e.2.1, e.2.2, kept⟩ : Entry))) = es.map (entry types kept) := by
  rw [entryReaders_map, List.map_map]
  rfl

theorem readPoly_none (types : Types) (ps : List (Name × Concrete)) (fb : Option Concrete) : ∀ (E before : List Entry),
    (∀ e ∈ E, e.key ≠ typenameKey) → readPoly types ps fb before E = some .unexpected
  | [], _, _ => rfl
  | e :: E, before, h => by
    rw [readPoly, if_neg (h e List.mem_cons_self)]
    exact readPoly_none types ps fb E _ (fun e' he' => h e' (List.mem_cons_of_mem _ he'))

theorem readPoly_some (types : Types) (ps : List (Name × Concrete)) (fb : Option Concrete) (e : Entry) (after : List Entry) (n : Name)
    (b : Bool) (hk : e.key = typenameKey) (hv : e.value = .text n b) : ∀ (E before : List Entry),
    (∀ e ∈ E, e.key ≠ typenameKey) → readPoly types ps fb before (E ++ e :: after) =
      choose types ps fb n (before ++ E.map keep ++ after)
  | [], before, _ => by
    rw [List.nil_append, readPoly, if_pos hk, hv]
    simp
  | x :: E, before, h => by
    rw [List.cons_append, readPoly, if_neg (h x List.mem_cons_self),
      readPoly_some types ps fb e after n b hk hv E _ (fun e' he' => h e' (List.mem_cons_of_mem _ he'))]
    simp

/-- Reading an object whose type is known. -/
theorem known_wanted {types : Types} {es : List (Name × Json)} {E : List Entry} {c : Concrete} (n : Name)
    (hl : Link types es E) (hc : ConcreteOk c) (hr : ∀ f ∈ c.fields, ∀ e ∈ E, Ready f.shape e.value e.kept) :
    ∃ v, readConcrete c (some n) E = some v ∧ Wanted types (.concrete (.mk (.known n) c.typenames c.fields)) (.map es) v := by
  refine ⟨finish c (some n) (got c.fields E), ?_, finish_wanted hl hc hr .known⟩
  unfold readConcrete
  simp only
  rw [visitFields_got c.fields E 0 [] hl.nodup (by intro f hf; simp at hf) (link_readable hl hc hr)]
  rfl

theorem noDetect_in {c : Concrete} (h : NoDetectIn c) : ∀ f ∈ c.fields, NoDetect f.shape := by
  cases h with
  | mk h => exact h

theorem choose_wanted {types : Types} {ps : List (Name × Concrete)} {fb : Option Concrete} {es : List (Name × Json)} {E : List Entry} {n : Name}
    (hl : Link types es E) (hok : ShapeOk (.poly ps fb)) (ht : typeOf es = some n)
    (hr : ∀ c, (∃ m, (m, c) ∈ ps) ∨ fb = some c → ∀ f ∈ c.fields, ∀ e ∈ E, Ready f.shape e.value e.kept) :
    ∃ v, choose types ps fb n E = some v ∧ Wanted types (.poly ps fb) (.map es) v := by
  cases hok with
  | poly hn hps hfb =>
    unfold choose
    by_cases hty : types n = some true
    · rw [if_pos hty]
      cases hf : ps.find? (fun p => decide (p.1 = n)) with
      | some p =>
        obtain ⟨m, c⟩ := p
        have hm := List.mem_of_find?_eq_some hf
        have he : m = n := by simpa using List.find?_some hf
        subst he
        obtain ⟨v, h1, h2⟩ := known_wanted m hl (hps _ hm) (hr c (Or.inl ⟨m, hm⟩))
        exact ⟨v, h1, .possible ht hty hm h2⟩
      | none =>
        have hnot : n ∉ ps.map (·.1) := by
          intro h
          obtain ⟨p, hp, rfl⟩ := List.mem_map.mp h
          rw [List.find?_eq_none] at hf
          exact hf p hp (by simp)
        cases fb with
        | none => exact ⟨_, rfl, .nothing ht hty hnot⟩
        | some c =>
          obtain ⟨v, h1, h2⟩ := known_wanted n hl (hfb c rfl) (hr c (Or.inr rfl))
          simp only
          cases hi : c.ident with
          | detect possible =>
            simp only
            by_cases hp : n ∈ possible
            · rw [if_pos (by simpa using hp)]
              refine ⟨v, h1, .fallback ht hty hnot ?_ h2⟩
              intro p hp'
              rw [hi] at hp'
              cases hp'
              exact hp
            · rw [if_neg (by simpa using hp)]
              exact ⟨_, rfl, .notPossible ht hty hnot hi hp⟩
          | known m => exact ⟨v, h1, .fallback ht hty hnot (by intro p hp'; rw [hi] at hp'; cases hp') h2⟩
          | anonymous => exact ⟨v, h1, .fallback ht hty hnot (by intro p hp'; rw [hi] at hp'; cases hp') h2⟩
    · rw [if_neg hty]
      refine ⟨_, rfl, .unknown ?_⟩
      intro m hm
      rw [ht] at hm
      cases hm
      exact hty

/-- The reading of a value is the one wanted. -/
def Reads (types : Types) (j : Json) : Prop :=
  Fine j → ∀ s kept, ShapeOk s → Ready s j kept → ∃ v, read types j s kept = some v ∧ Wanted types s j v

theorem reads_list {types : Types} {js : List Json} (ih : ∀ j ∈ js, Reads types j) : Reads types (.list js) := by
  intro hf s kept hs hr
  cases hf with
  | list hf =>
    rw [read, readers_map]
    unfold readList
    cases hs with
    | leaf => exact ⟨_, rfl, .listOther (by intro t h; cases h)⟩
    | concrete _ => exact ⟨_, rfl, .listOther (by intro t h; cases h)⟩
    | poly _ _ _ => exact ⟨_, rfl, .listOther (by intro t h; cases h)⟩
    | @list item hs =>
      have hr' : ∀ j ∈ js, Ready item j kept := by
        intro j hj
        rcases hr with h | ⟨h, hk⟩
        · cases h with | list h => exact Or.inl h
        · cases h with | list h => exact Or.inr ⟨h j hj, hk⟩
      clear hr
      suffices h : ∃ vs, readItems item kept (js.map (read types)) = some vs ∧ js.length = vs.length ∧
          ∀ (i : Nat) j v, js[i]? = some j → vs[i]? = some v → Wanted types item j v by
        obtain ⟨vs, h1, h2, h3⟩ := h
        exact ⟨.list vs, by simp only [h1, Option.map_some], .list h2 h3⟩
      induction js with
      | nil => exact ⟨[], rfl, rfl, by simp⟩
      | cons j js ihj =>
        obtain ⟨vs, h1, h2, h3⟩ := ihj (fun x hx => ih x (List.mem_cons_of_mem _ hx)) (fun x hx => hf x (List.mem_cons_of_mem _ hx))
          (fun x hx => hr' x (List.mem_cons_of_mem _ hx))
        obtain ⟨v, h4, h5⟩ := ih j List.mem_cons_self (hf j List.mem_cons_self) item kept hs (hr' j List.mem_cons_self)
        refine ⟨v :: vs, ?_, by simp [h2], ?_⟩
        · rw [List.map_cons, readItems, h4]
          simp only [h1, Option.map_some]
        · intro i x w hx hw
          cases i with
          | zero =>
            simp only [List.getElem?_cons_zero, Option.some.injEq] at hx hw
            subst hx hw
            exact h5
          | succ i =>
            simp only [List.getElem?_cons_succ] at hx hw
            exact h3 i x w hx hw

theorem under_none {es : List (Name × Json)} {k : Name} : under es k = none ↔ k ∉ es.map (·.1) := by
  induction es with
  | nil => simp [under]
  | cons e es ih =>
    rw [under]
    by_cases hk : e.1 = k
    · simp [hk]
    · rw [if_neg hk, ih]
      simp only [List.map_cons, List.mem_cons, not_or]
      exact ⟨fun h => ⟨fun e => hk e.symm, h⟩, fun h => h.2⟩

theorem reads_map {types : Types} {es : List (Name × Json)} (ih : ∀ e ∈ es, Reads types e.2) : Reads types (.map es) := by
  intro hf s kept hs hr
  cases hf with
  | map hn hfe hft =>
    rw [read]
    unfold readMap
    -- all entries
    have hkeys : ∀ k, (es.map (entry types k)).map Entry.key = es.map (·.1) := fun k => by rw [List.map_map]; rfl
    have link : Link types es (es.map (entry types kept)) := by
      refine ⟨by rw [hkeys]; exact hn, ?_, ?_⟩
      · intro k j _
        rw [under_some hn]
        constructor
        · rintro ⟨e, he, rfl, rfl⟩
          obtain ⟨x, hx, rfl⟩ := List.mem_map.mp he
          exact hx
        · intro h
          exact ⟨_, List.mem_map_of_mem h, rfl, rfl⟩
      · intro e he t ht hrd
        obtain ⟨x, hx, rfl⟩ := List.mem_map.mp he
        exact ih x hx (hfe x hx) t kept ht hrd
    cases hs with
    | leaf => exact ⟨_, rfl, .leafOther (by intro c h; cases h) (by intro p f h; cases h) ⟨es, rfl⟩⟩
    | list _ => exact ⟨_, rfl, .leafOther (by intro c h; cases h) (by intro p f h; cases h) ⟨es, rfl⟩⟩
    | @concrete c hc =>
      simp only
      rw [readMap_entries]
      have hready : ∀ f ∈ c.fields, ∀ e ∈ es.map (entry types kept), Ready f.shape e.value e.kept := by
        intro f hf e he
        obtain ⟨x, hx, rfl⟩ := List.mem_map.mp he
        rcases hr with h | ⟨h, hk⟩
        · cases h with | concrete _ h => exact Or.inl (noDetect_in h f hf)
        · cases h with | map h _ _ => exact Or.inr ⟨h x hx, hk⟩
      have hv := visitFields_got c.fields _ 0 [] link.nodup (by intro f hf; simp at hf) (link_readable link hc hready)
      have eta : c = .mk c.ident c.typenames c.fields := by cases c; rfl
      unfold readConcrete
      simp only
      cases hi : c.ident with
      | known n =>
        simp only [hv, Option.map_some, List.nil_append]
        refine ⟨_, rfl, ?_⟩
        have := finish_wanted (i := .known n) link hc hready .known
        rw [← hi, ← eta] at this
        exact this
      | anonymous =>
        simp only [hv, Option.map_some, List.nil_append]
        refine ⟨_, rfl, ?_⟩
        have := finish_wanted (i := .anonymous) link hc hready .anonymous
        rw [← hi, ← eta] at this
        exact this
      | detect possible =>
        -- types are told first
        have hfirst : First (.map es) ∧ kept = false := by
          rcases hr with h | h
          · cases h with | concrete h _ => exact absurd hi (h possible)
          · exact h
        obtain ⟨hfirst, rfl⟩ := hfirst
        cases hfirst with
        | map _ _ hbor =>
          have hstr : ∀ e ∈ es.map (entry types false), e.key = typenameKey → asStr e ≠ none := by
            intro e he hk
            obtain ⟨x, hx, rfl⟩ := List.mem_map.mp he
            obtain ⟨t, ht⟩ := hbor x hx hk
            simp [asStr, entry, ht]
          have hexp : ∀ f ∈ c.fields, f.expected ≠ typenameKey := by
            cases hc with
            | mk _ _ h _ => exact h
          have hd := visitDetect_got possible c.fields hexp _ 0 none [] link.nodup (by intro f hf; simp at hf)
            (link_readable link hc hready) hstr
          simp only [Option.none_or, List.nil_append] at hd
          have htold : told possible (es.map (entry types false)) = (typeOf es).filter possible.contains := by
            unfold told
            congr 1
            cases hu : under es "__typename" with
            | none =>
              have h1 : (es.map (entry types false)).find? (fun e => decide (e.key = typenameKey)) = none := by
                rw [List.find?_eq_none]
                intro e he
                obtain ⟨x, hx, rfl⟩ := List.mem_map.mp he
                rw [under_none] at hu
                simp only [decide_eq_true_iff]
                intro hk
                have hk' : x.1 = "__typename" := hk
                exact hu (hk' ▸ List.mem_map_of_mem hx)
              rw [h1]
              unfold typeOf
              rw [hu]
              rfl
            | some j =>
              have hm := (under_some hn).mp hu
              obtain ⟨t, ht⟩ := hbor _ hm rfl
              have ht' : j = .text t true := ht
              subst ht'
              cases hfnd : (es.map (entry types false)).find? (fun e => decide (e.key = typenameKey)) with
              | none =>
                rw [List.find?_eq_none] at hfnd
                exact absurd (by rfl) (hfnd _ (List.mem_map_of_mem hm))
              | some e =>
                obtain ⟨x, hx, rfl⟩ := List.mem_map.mp (List.mem_of_find?_eq_some hfnd)
                have hk : (entry types false x).key = typenameKey := by simpa using List.find?_some hfnd
                have : x = ("__typename", .text t true) := inj_of_nodup (·.1) hn hx hm hk
                subst this
                unfold typeOf
                rw [hu]
                rfl
          simp only
          rw [hd, htold]
          cases ht : typeOf es with
          | none =>
            refine ⟨.unexpected, rfl, .untold (Or.inl ?_)⟩
            rw [hi]
            intro t h
            cases h with
            | detect h _ => rw [ht] at h; cases h
          | some n =>
            by_cases hp : n ∈ possible
            · have : (some n).filter possible.contains = some n := by simp [Option.filter, hp]
              rw [this]
              refine ⟨_, rfl, ?_⟩
              have := finish_wanted (i := .detect possible) link hc hready (.detect ht hp)
              rw [← hi, ← eta] at this
              exact this
            · have : (some n).filter possible.contains = none := by simp [Option.filter, hp]
              rw [this]
              refine ⟨.unexpected, rfl, .untold (Or.inl ?_)⟩
              rw [hi]
              intro t h
              cases h with
              | detect h h' => rw [ht] at h; cases h; exact hp h'
    | @poly ps fb hps1 hps2 hps3 =>
      simp only
      rw [readMap_entries]
      cases hu : under es "__typename" with
      | none =>
        rw [readPoly_none]
        · refine ⟨_, rfl, .unknown ?_⟩
          intro n h
          obtain ⟨b, h⟩ := typeOf_under.mp h
          rw [hu] at h
          cases h
        · intro e he hk
          obtain ⟨x, hx, rfl⟩ := List.mem_map.mp he
          rw [under_none] at hu
          have hk' : x.1 = "__typename" := hk
          exact hu (hk' ▸ List.mem_map_of_mem hx)
      | some j =>
        have hm := (under_some hn).mp hu
        obtain ⟨n, b, hj⟩ := hft _ hm rfl
        have hj' : j = .text n b := hj
        subst hj'
        have ht : typeOf es = some n := typeOf_under.mpr ⟨b, hu⟩
        obtain ⟨pre, post, hes⟩ := List.append_of_mem hm
        have hnd := hn
        rw [hes, List.map_append, List.map_cons, List.nodup_append] at hnd
        have hpre : ∀ x ∈ pre, x.1 ≠ "__typename" := fun x hx h =>
          hnd.2.2 _ (List.mem_map_of_mem hx) _ List.mem_cons_self h
        have hpost : ∀ x ∈ post, x.1 ≠ "__typename" := fun x hx h =>
          (List.nodup_cons.mp hnd.2.1).1 (List.mem_map.mpr ⟨x, hx, h⟩)
        have hE : es.map (entry types kept) = pre.map (entry types kept) ++ entry types kept ("__typename", .text n b) ::
            post.map (entry types kept) := by rw [hes, List.map_append, List.map_cons]
        rw [hE, readPoly_some types ps fb _ _ n b rfl rfl _ [] (by
          intro e he
          obtain ⟨x, hx, rfl⟩ := List.mem_map.mp he
          exact hpre x hx)]
        rw [List.nil_append, List.map_map]
        have hkeep : pre.map (keep ∘ entry types kept) = pre.map (entry types true) := by
          apply List.map_congr_left
          intro x _
          rfl
        rw [hkeep]
        refine choose_wanted ?_ (.poly hps1 hps2 hps3) ht ?_
        · refine ⟨?_, ?_, ?_⟩
          · rw [List.map_append, List.map_map, List.map_map]
            have e1 : (Entry.key ∘ entry types true) = (fun x : Name × Json => x.1) := rfl
            have e2 : (Entry.key ∘ entry types kept) = (fun x : Name × Json => x.1) := rfl
            rw [e1, e2, List.nodup_append]
            exact ⟨hnd.1, (List.nodup_cons.mp hnd.2.1).2, fun a ha c hc => hnd.2.2 a ha c (List.mem_cons_of_mem _ hc)⟩
          · intro k j hk
            rw [under_some hn, hes]
            constructor
            · rintro ⟨e, he, rfl, rfl⟩
              rcases List.mem_append.mp he with he | he
              · obtain ⟨x, hx, rfl⟩ := List.mem_map.mp he
                exact List.mem_append_left _ hx
              · obtain ⟨x, hx, rfl⟩ := List.mem_map.mp he
                exact List.mem_append_right _ (List.mem_cons_of_mem _ hx)
            · intro h
              rcases List.mem_append.mp h with h | h
              · exact ⟨_, List.mem_append_left _ (List.mem_map_of_mem h), rfl, rfl⟩
              · rcases List.mem_cons.mp h with h | h
                · cases h
                  exact absurd rfl hk
                · exact ⟨_, List.mem_append_right _ (List.mem_map_of_mem h), rfl, rfl⟩
          · intro e he t hts hrd
            rcases List.mem_append.mp he with he | he
            · obtain ⟨x, hx, rfl⟩ := List.mem_map.mp he
              have hx' : x ∈ es := hes ▸ List.mem_append_left _ hx
              exact ih x hx' (hfe x hx') t true hts hrd
            · obtain ⟨x, hx, rfl⟩ := List.mem_map.mp he
              have hx' : x ∈ es := hes ▸ List.mem_append_right _ (List.mem_cons_of_mem _ hx)
              exact ih x hx' (hfe x hx') t kept hts hrd
        · intro c hc f hf e he
          rcases hr with h | ⟨h, hk⟩
          · cases h with
            | poly h1 h2 =>
              rcases hc with ⟨m, hc⟩ | hc
              · exact Or.inl (noDetect_in (h1 _ hc) f hf)
              · exact Or.inl (noDetect_in (h2 _ hc) f hf)
          · cases h with
            | map h1 h2 h3 =>
              have hnil : pre = [] := by
                cases pre with
                | nil => rfl
                | cons x pre =>
                  rw [hes] at h2
                  exact absurd rfl (h2 ("__typename", .text n b) (by simp))
              rw [hnil] at he
              simp only [List.map_nil, List.nil_append] at he
              obtain ⟨x, hx, rfl⟩ := List.mem_map.mp he
              exact Or.inr ⟨h1 x (hes ▸ List.mem_append_right _ (List.mem_cons_of_mem _ hx)), hk⟩

mutual
theorem reads (types : Types) : ∀ j, Reads types j
  | .null => fun _ s kept _ _ => ⟨.null, by rw [read, readNull], .null⟩
  | .text t b => fun _ s kept hs _ => by
    rw [read]
    unfold readLeaf
    cases hs with
    | leaf => exact ⟨_, rfl, .text⟩
    | list _ => exact ⟨_, rfl, .scalarOther (by intro h; cases h) (Or.inl ⟨t, b, rfl⟩)⟩
    | concrete _ => exact ⟨_, rfl, .scalarOther (by intro h; cases h) (Or.inl ⟨t, b, rfl⟩)⟩
    | poly _ _ _ => exact ⟨_, rfl, .scalarOther (by intro h; cases h) (Or.inl ⟨t, b, rfl⟩)⟩
  | .other n => fun _ s kept hs _ => by
    rw [read]
    unfold readLeaf
    cases hs with
    | leaf => exact ⟨_, rfl, .other⟩
    | list _ => exact ⟨_, rfl, .scalarOther (by intro h; cases h) (Or.inr ⟨n, rfl⟩)⟩
    | concrete _ => exact ⟨_, rfl, .scalarOther (by intro h; cases h) (Or.inr ⟨n, rfl⟩)⟩
    | poly _ _ _ => exact ⟨_, rfl, .scalarOther (by intro h; cases h) (Or.inr ⟨n, rfl⟩)⟩
  | .list js => reads_list (readsAll types js)
  | .map es => reads_map (readsEntries types es)

theorem readsAll (types : Types) : ∀ js : List Json, ∀ j ∈ js, Reads types j
  | [], _, h => by cases h
  | j :: js, x, h => by
    have h0 := reads types j
    have h1 := readsAll types js
    rcases List.mem_cons.mp h with h | h
    · exact h ▸ h0
    · exact h1 x h

theorem readsEntries (types : Types) : ∀ es : List (Name × Json), ∀ e ∈ es, Reads types e.2
  | [], _, h => by cases h
  | (n, j) :: es, x, h => by
    have h0 := reads types j
    have h1 := readsEntries types es
    rcases List.mem_cons.mp h with h | h
    · exact h ▸ h0
    · exact h1 x h
end

/-! ## There is one value -/

theorem ordered_ext : ∀ {a b : List (Nat × Val)}, Ordered a → Ordered b → (∀ k, k ∈ a.map (·.1) ↔ k ∈ b.map (·.1)) →
    (∀ k v w, (k, v) ∈ a → (k, w) ∈ b → v = w) → a = b
  | [], [], _, _, _, _ => rfl
  | [], y :: b, _, _, h, _ => by have := (h y.1).mpr (by simp); simp at this
  | x :: a, [], _, _, h, _ => by have := (h x.1).mp (by simp); simp at this
  | (k, v) :: a, (l, w) :: b, ha, hb, h, hv => by
    unfold Ordered at ha hb
    rw [List.pairwise_cons] at ha hb
    have hkl : k = l := by
      have h1 : k ∈ ((l, w) :: b).map (·.1) := (h k).mp (by simp)
      have h2 : l ∈ ((k, v) :: a).map (·.1) := (h l).mpr (by simp)
      rw [List.map_cons, List.mem_cons] at h1 h2
      rcases h1 with h1 | h1
      · exact h1
      · rcases h2 with h2 | h2
        · exact h2.symm
        · obtain ⟨x, hx, e1⟩ := List.mem_map.mp h1
          obtain ⟨y, hy, e2⟩ := List.mem_map.mp h2
          have h3 := hb.1 x hx
          have h4 := ha.1 y hy
          simp only at h3 h4
          omega
    subst hkl
    have hvw : v = w := hv k v w List.mem_cons_self List.mem_cons_self
    subst hvw
    congr 1
    refine ordered_ext ha.2 hb.2 (fun m => ?_) (fun m x y hx hy => hv m x y (List.mem_cons_of_mem _ hx) (List.mem_cons_of_mem _ hy))
    have hm := h m
    rw [List.map_cons, List.map_cons, List.mem_cons, List.mem_cons] at hm
    constructor
    · intro hx
      rcases hm.mp (Or.inr hx) with e | hx'
      · obtain ⟨x, hx, e'⟩ := List.mem_map.mp hx
        have := ha.1 x hx
        simp only at this e
        omega
      · exact hx'
    · intro hx
      rcases hm.mpr (Or.inr hx) with e | hx'
      · obtain ⟨x, hx, e'⟩ := List.mem_map.mp hx
        have := hb.1 x hx
        simp only at this e
        omega
      · exact hx'

theorem told_unique {i : Ident} {es : List (Name × Json)} {t u : Option Name} (h : Told i es t) (k : Told i es u) : t = u := by
  cases h with
  | known => cases k; rfl
  | anonymous => cases k; rfl
  | detect h _ =>
    cases k with
    | detect k _ => rw [h] at k; exact k

theorem wanted_unique {types : Types} {s : Shape} {j : Json} {v : Val} (h : Wanted types s j v) :
    ShapeOk s → ∀ w, Wanted types s j w → v = w := by
  induction h with
  | null =>
    intro _ w h
    cases h with
    | null => rfl
    | leafOther _ _ h => obtain ⟨_, h⟩ := h; cases h
    | scalarOther _ h => rcases h with ⟨_, _, h⟩ | ⟨_, h⟩ <;> cases h
  | text =>
    intro _ w h
    cases h with
    | text => rfl
    | leafOther _ _ h => obtain ⟨_, h⟩ := h; cases h
    | scalarOther h _ => exact absurd rfl h
  | other =>
    intro _ w h
    cases h with
    | other => rfl
    | leafOther _ _ h => obtain ⟨_, h⟩ := h; cases h
    | scalarOther h _ => exact absurd rfl h
  | @list s js vs hl _ ih =>
    intro hs w h
    cases hs with
    | list hs =>
      cases h with
      | leafOther _ _ h => obtain ⟨_, h⟩ := h; cases h
      | listOther h => exact absurd rfl (h s)
      | scalarOther _ h => rcases h with ⟨_, _, h⟩ | ⟨_, h⟩ <;> cases h
      | @list _ _ ws hl' h =>
        congr 1
        apply List.ext_getElem?
        intro i
        cases hv : vs[i]? with
        | none =>
          rw [List.getElem?_eq_none_iff] at hv
          exact (List.getElem?_eq_none (by omega)).symm
        | some v =>
          have hi : i < vs.length := (List.getElem?_eq_some_iff.mp hv).1
          have hj : js[i]? = some js[i] := List.getElem?_eq_getElem (by omega)
          have hw : ws[i]? = some ws[i] := List.getElem?_eq_getElem (by omega)
          rw [hw, ih i _ v hj hv hs _ (h i _ _ hj hw)]
  | leafOther h1 h2 h3 =>
    intro _ w h
    obtain ⟨es, rfl⟩ := h3
    cases h with
    | leafOther => rfl
    | scalarOther => rfl
    | object => exact absurd rfl (h1 _)
    | untold => rfl
    | possible => exact absurd rfl (h2 _ _)
    | fallback => exact absurd rfl (h2 _ _)
    | notPossible => rfl
    | nothing => exact absurd rfl (h2 _ _)
    | unknown => rfl
  | listOther h =>
    intro _ w h'
    cases h' with
    | list => exact absurd rfl (h _)
    | listOther => rfl
    | leafOther => rfl
    | scalarOther => rfl
  | scalarOther h1 h2 =>
    intro _ w h
    rcases h2 with ⟨t, b, rfl⟩ | ⟨n, rfl⟩
    · cases h with
      | text => exact absurd rfl h1
      | leafOther => rfl
      | scalarOther => rfl
    · cases h with
      | other => exact absurd rfl h1
      | leafOther => rfl
      | scalarOther => rfl
  | @object c es t fs ht htn ho _ hk hnull hty ih =>
    intro hs w h
    cases hs with
    | concrete hc =>
      have hsh : ∀ f ∈ c.fields, ShapeOk f.shape := by cases hc with | mk _ _ _ hh => exact hh
      cases h with
      | leafOther h _ _ => exact absurd rfl (h c)
      | scalarOther _ h => rcases h with ⟨_, _, h⟩ | ⟨_, h⟩ <;> cases h
      | untold h =>
        rcases h with h | ⟨h, h'⟩
        · exact absurd ht (h t)
        · exact absurd (told_unique ht h') (htn h)
      | @object _ _ t' gs ht' htn' ho' hv' hk' hnull' hty' =>
        have e := told_unique ht ht'
        subst e
        congr 1
        refine ordered_ext ho ho' (fun k => (hk k).trans (hk' k).symm) ?_
        intro k v w hv hw
        rcases (hk k).mp (List.mem_map.mpr ⟨_, hv, rfl⟩) with ⟨f, hf, rfl, _⟩ | hkt
        · cases hu : under es f.expected with
          | none => rw [hnull f hf hu v hv, hnull' f hf hu w hw]
          | some j => exact ih f hf j hu v hv (hsh f hf) w (hv' f hf j hu w hw)
        · obtain ⟨n, e1, e2⟩ := hty k hkt v hv
          obtain ⟨m, e3, e4⟩ := hty' k hkt w hw
          rw [e1] at e3
          cases e3
          rw [e2, e4]
  | untold h' =>
    intro _ w h
    cases h with
    | leafOther => rfl
    | scalarOther => rfl
    | untold => rfl
    | object ht htn =>
      rcases h' with h' | ⟨h', h''⟩
      · exact absurd ht (h' _)
      · exact absurd (told_unique ht h'') (htn h')
  | @possible ps fb es n c v ht hty hm _ ih =>
    intro hs w h
    cases hs with
    | poly hn hps hfb =>
      have hc : ShapeOk (.concrete (.mk (.known n) c.typenames c.fields)) := by
        have := hps _ hm
        cases this with
        | mk h1 h2 h3 h4 => exact .concrete (.mk h1 h2 h3 h4)
      cases h with
      | leafOther _ h _ => exact absurd rfl (h _ _)
      | scalarOther _ h => rcases h with ⟨_, _, h⟩ | ⟨_, h⟩ <;> cases h
      | possible ht' _ hm' h =>
        rw [ht] at ht'
        cases ht'
        have e := inj_of_nodup (·.1) hn hm hm' rfl
        cases e
        exact ih hc w h
      | fallback ht' _ hm' _ _ =>
        rw [ht] at ht'
        cases ht'
        exact absurd (List.mem_map_of_mem hm) hm'
      | notPossible ht' _ hm' _ _ =>
        rw [ht] at ht'
        cases ht'
        exact absurd (List.mem_map_of_mem hm) hm'
      | nothing ht' _ hm' =>
        rw [ht] at ht'
        cases ht'
        exact absurd (List.mem_map_of_mem hm) hm'
      | unknown h => exact absurd hty (h n ht)
  | @fallback ps es n c v ht hty hm hp _ ih =>
    intro hs w h
    cases hs with
    | poly hn hps hfb =>
      have hc : ShapeOk (.concrete (.mk (.known n) c.typenames c.fields)) := by
        have := hfb c rfl
        cases this with
        | mk h1 h2 h3 h4 => exact .concrete (.mk h1 h2 h3 h4)
      cases h with
      | leafOther _ h _ => exact absurd rfl (h _ _)
      | scalarOther _ h => rcases h with ⟨_, _, h⟩ | ⟨_, h⟩ <;> cases h
      | possible ht' _ hm' h =>
        rw [ht] at ht'
        cases ht'
        exact absurd (List.mem_map_of_mem hm') hm
      | fallback ht' _ _ _ h =>
        rw [ht] at ht'
        cases ht'
        exact ih hc w h
      | notPossible ht' _ _ hi hnp =>
        rw [ht] at ht'
        cases ht'
        exact absurd (hp _ hi) hnp
      | unknown h => exact absurd hty (h n ht)
  | @notPossible ps es n c possible ht hty hm hi hnp =>
    intro _ w h
    cases h with
    | leafOther => rfl
    | scalarOther => rfl
    | possible ht' _ hm' h =>
      rw [ht] at ht'
      cases ht'
      exact absurd (List.mem_map_of_mem hm') hm
    | fallback ht' _ _ hp _ =>
      rw [ht] at ht'
      cases ht'
      exact absurd (hp _ hi) hnp
    | notPossible => rfl
    | unknown => rfl
  | @nothing ps es n ht hty hm =>
    intro _ w h
    cases h with
    | leafOther _ h _ => exact absurd rfl (h _ _)
    | scalarOther _ h => rcases h with ⟨_, _, h⟩ | ⟨_, h⟩ <;> cases h
    | possible ht' _ hm' h =>
      rw [ht] at ht'
      cases ht'
      exact absurd (List.mem_map_of_mem hm') hm
    | nothing ht' _ _ =>
      rw [ht] at ht'
      cases ht'
      rfl
    | unknown h => exact absurd hty (h n ht)
  | unknown h' =>
    intro _ w h
    cases h with
    | leafOther => rfl
    | scalarOther => rfl
    | possible ht hty => exact absurd hty (h' _ ht)
    | fallback ht hty => exact absurd hty (h' _ ht)
    | notPossible => rfl
    | nothing ht hty => exact absurd hty (h' _ ht)
    | unknown => rfl

/-! ## The order of entries -/

theorem same_type {es gs : List (Name × Json)} {n : Name} (h : Same (.map es) (.map gs)) (ht : typeOf es = some n) :
    typeOf gs = some n := by
  cases h with
  | map h1 h2 =>
    obtain ⟨b, hb⟩ := typeOf_under.mp ht
    cases hg : under gs "__typename" with
    | none => rw [(h1 _).mpr hg] at hb; cases hb
    | some j =>
      have := h2 _ _ _ hb hg
      cases this
      exact typeOf_under.mpr ⟨b, hg⟩

theorem same_symm {i j : Json} (h : Same i j) : Same j i := by
  induction h with
  | null => exact .null
  | text => exact .text
  | other => exact .other
  | list hl _ ih => exact .list hl.symm (fun i j k hj hk => ih i k j hk hj)
  | map h1 _ ih => exact .map (fun k => (h1 k).symm) (fun k i j hi hj => ih k j i hj hi)

theorem same_told {c : Ident} {es gs : List (Name × Json)} {t : Option Name} (h : Same (.map es) (.map gs)) (ht : Told c es t) :
    Told c gs t := by
  cases ht with
  | known => exact .known
  | anonymous => exact .anonymous
  | detect h1 h2 => exact .detect (same_type h h1) h2

theorem same_wanted {types : Types} {s : Shape} {j : Json} {v : Val} (h : Wanted types s j v) : ∀ k, Same j k → Wanted types s k v := by
  induction h with
  | null => intro k hk; cases hk; exact .null
  | text => intro k hk; cases hk; exact .text
  | other => intro k hk; cases hk; exact .other
  | @list s js vs hl _ ih =>
    intro k hk
    cases hk with
    | @list _ ks hl' h =>
      refine .list (hl'.symm.trans hl) (fun i j v hj hv => ?_)
      have hi : i < vs.length := (List.getElem?_eq_some_iff.mp hv).1
      have hx : js[i]? = some js[i] := List.getElem?_eq_getElem (by omega)
      exact ih i _ v hx hv j (h i _ j hx hj)
  | leafOther h1 h2 h3 =>
    intro k hk
    obtain ⟨es, rfl⟩ := h3
    cases hk with
    | @map _ gs _ _ => exact .leafOther h1 h2 ⟨gs, rfl⟩
  | listOther h =>
    intro k hk
    cases hk with
    | list => exact .listOther h
  | scalarOther h1 h2 =>
    intro k hk
    rcases h2 with ⟨t, b, rfl⟩ | ⟨n, rfl⟩
    · cases hk; exact .scalarOther h1 (Or.inl ⟨t, b, rfl⟩)
    · cases hk; exact .scalarOther h1 (Or.inr ⟨n, rfl⟩)
  | @object c es t fs ht htn ho _ hk hnull hty ih =>
    intro k hsame
    cases hsame with
    | @map _ gs h1 h2 =>
      refine .object (same_told (.map h1 h2) ht) htn ho ?_ ?_ ?_ hty
      · intro f hf j hj v hv
        cases he : under es f.expected with
        | none => rw [(h1 _).mp he] at hj; cases hj
        | some i => exact ih f hf i he v hv j (h2 _ i j he hj)
      · intro k
        rw [hk k]
        constructor
        · rintro (⟨f, hf, e, h⟩ | h)
          · exact Or.inl ⟨f, hf, e, h.imp (fun h h' => h ((h1 _).mpr h')) id⟩
          · exact Or.inr h
        · rintro (⟨f, hf, e, h⟩ | h)
          · exact Or.inl ⟨f, hf, e, h.imp (fun h h' => h ((h1 _).mp h')) id⟩
          · exact Or.inr h
      · intro f hf hn
        exact hnull f hf ((h1 _).mpr hn)
  | untold h =>
    intro k hsame
    cases hsame with
    | @map _ gs h1 h2 =>
      refine .untold (h.imp (fun h t ht => h t (same_told (same_symm (.map h1 h2)) ht)) (fun h => ⟨h.1, same_told (.map h1 h2) h.2⟩))
  | possible ht hty hm _ ih =>
    intro k hsame
    have hs := hsame
    cases hsame with
    | map h1 h2 => exact .possible (same_type hs ht) hty hm (ih _ hs)
  | fallback ht hty hm hp _ ih =>
    intro k hsame
    have hs := hsame
    cases hsame with
    | map h1 h2 => exact .fallback (same_type hs ht) hty hm hp (ih _ hs)
  | notPossible ht hty hm hi hp =>
    intro k hsame
    have hs := hsame
    cases hsame with
    | map h1 h2 => exact .notPossible (same_type hs ht) hty hm hi hp
  | nothing ht hty hm =>
    intro k hsame
    have hs := hsame
    cases hsame with
    | map h1 h2 => exact .nothing (same_type hs ht) hty hm
  | unknown h =>
    intro k hsame
    have hs := hsame
    cases hsame with
    | map h1 h2 => exact .unknown (fun n hn => h n (same_type (same_symm hs) hn))

end Verif.TypeChoice
