import Verif.QueryMods.Lemmas
/-!
# Lemmas: the fields requested from subgraphs
-/
namespace Verif.QueryMods

variable {p : Plan} {resp : Nat → Bool}

theorem mem_pushReq {r x : List Item} {s : List (List Item)} : x ∈ pushReq r s ↔ x ∈ s ∨ (x = r ∧ r ≠ []) := by
  unfold pushReq
  cases r with
  | nil => simp
  | cons a l => simp [or_comm]

theorem mem_pushDer {d : Option Nat} {x : Nat} {s : List Nat} : x ∈ pushDer d s ↔ x ∈ s ∨ d = some x := by
  unfold pushDer
  cases d with
  | none => simp
  | some a => simp [or_comm, eq_comm]

/-! ## Soundness -/

/-- A field something shown or required is derived from. -/
def Src (p : Plan) (resp : Nat → Bool) (d : Nat) : Prop :=
  (∃ i, resp i = true ∧ i < p.fields.length ∧ (p.field i).derive = some d) ∨
    ∃ r it, Req p resp r ∧ it ∈ r ∧ (p.field it.field).derive = some d

theorem Src.needed {denied : Nat → Prop} {d : Nat} (h : Src p resp d) : Needed p resp denied d := by
  rcases h with ⟨i, h1, h2, h3⟩ | ⟨r, it, h1, h2, h3⟩
  · exact .source h1 h2 h3
  · exact .sourceItem h1 h2 h3

theorem Src.req {d : Nat} (h : Src p resp d) : Req p resp (p.field d).req := by
  rcases h with ⟨i, h1, h2, h3⟩ | ⟨r, it, h1, h2, h3⟩
  · exact .source h1 h2 h3
  · exact .sourceItem h1 h2 h3

structure Sound (p : Plan) (resp : Nat → Bool) (denied : Nat → Prop) (s : St) : Prop where
  bits : ∀ i, s.bits i = true → Needed p resp denied i
  reqs : ∀ r ∈ s.reqs, Req p resp r
  der : ∀ d ∈ s.der, Src p resp d

theorem drain_sound {denied : Nat → Prop} {l : List Nat} {bits : Nat → Bool} {reqs : List (List Item)}
    (hb : ∀ i, bits i = true → Needed p resp denied i) (hr : ∀ r ∈ reqs, Req p resp r)
    (hd : ∀ d ∈ l, Src p resp d) : Sound p resp denied (drain p resp bits reqs l) := by
  induction l generalizing bits reqs with
  | nil => exact ⟨hb, hr, by simp [drain]⟩
  | cons i t ih =>
    rw [drain]
    split
    · exact ih hb hr (fun d h => hd d (by simp [h]))
    · refine ih ?_ ?_ (fun d h => hd d (by simp [h]))
      · intro j hj
        rw [put_apply] at hj
        split at hj
        · rename_i h; subst h; exact (hd j (by simp)).needed
        · exact hb j hj
      · intro r hr'
        split at hr'
        · exact hr r hr'
        · rcases mem_pushReq.1 hr' with h | ⟨rfl, -⟩
          · exact hr r h
          · exact (hd i (by simp)).req

theorem visit_sound {denied : Nat → Prop} {s : St} {r : List Item} {it : Item} (hs : Sound p resp denied s)
    (hr : Req p resp r) (hit : it ∈ r) : Sound p resp denied (visit p s it) := by
  refine ⟨?_, ?_, ?_⟩
  · intro j hj
    simp only [visit, put_apply] at hj
    split at hj
    · rename_i h; subst h; exact .required hr hit
    · exact hs.bits j hj
  · intro x hx
    simp only [visit] at hx
    rcases mem_pushReq.1 hx with h | ⟨rfl, -⟩
    · rcases List.mem_cons.1 h with rfl | h
      · exact .sub hr hit
      · exact hs.reqs x h
    · exact .item hr hit
  · intro d hd
    simp only [visit] at hd
    rcases mem_pushDer.1 hd with h | h
    · exact hs.der d h
    · exact Or.inr ⟨r, it, hr, hit, h⟩

theorem fold_sound {denied : Nat → Prop} {r l : List Item} {s : St} (hs : Sound p resp denied s)
    (hr : Req p resp r) (hl : ∀ it ∈ l, it ∈ r) : Sound p resp denied (l.foldl (visit p) s) := by
  induction l generalizing s with
  | nil => exact hs
  | cons it t ih =>
    exact ih (visit_sound hs hr (hl it (by simp))) (fun x hx => hl x (by simp [hx]))

theorem popLoop_sound {denied : Nat → Prop} {fuel : Nat} {s s' : St} (hs : Sound p resp denied s)
    (h : popLoop p fuel s = some s') : Sound p resp denied s' ∧ s'.reqs = [] := by
  induction fuel generalizing s with
  | zero =>
    rw [popLoop.eq_def] at h
    split at h
    · rename_i h'; cases h; exact ⟨hs, h'⟩
    · cases h
    · rename_i h'; cases h'
  | succ n ih =>
    rw [popLoop.eq_def] at h
    split at h
    · rename_i h'; cases h; exact ⟨hs, h'⟩
    · rename_i h'; cases h'
    · rename_i r t fuel hreq hf
      cases hf
      refine ih (fold_sound ?_ (hs.reqs r (by simp [hreq])) (fun _ h => h)) h
      exact ⟨hs.bits, fun x hx => hs.reqs x (by simp [hreq, hx]), hs.der⟩

theorem closure_sound {denied : Nat → Prop} {fuel : Nat} {s : St} {b : Nat → Bool}
    (hs : Sound p resp denied s) (h : closure p resp fuel s = some b) :
    ∀ i, b i = true → Needed p resp denied i := by
  induction fuel generalizing s with
  | zero =>
    rw [closure.eq_def] at h
    split at h
    · cases h; exact hs.bits
    · cases h
  | succ n ih =>
    rw [closure.eq_def] at h
    split at h
    · cases h; exact hs.bits
    · simp only [Option.bind_eq_some_iff] at h
      obtain ⟨s1, h1, h2⟩ := h
      exact ih (popLoop_sound (drain_sound hs.bits hs.reqs
        (fun d hd => hs.der d (List.mem_reverse.1 hd))) h1).1 h2

/-! ## Completeness -/

/-- A required set was treated, is still on the stack or is empty. -/
def Seen (done : List Item → Prop) (reqs : List (List Item)) (r : List Item) : Prop :=
  r = [] ∨ r ∈ reqs ∨ done r

theorem Seen.mono {done done' : List Item → Prop} {reqs reqs' : List (List Item)} {r : List Item}
    (h : Seen done reqs r) (h1 : ∀ x ∈ reqs, x ∈ reqs' ∨ done' x) (h2 : ∀ x, done x → done' x) :
    Seen done' reqs' r := by
  rcases h with h | h | h
  · exact Or.inl h
  · rcases h1 r h with h | h
    · exact Or.inr (Or.inl h)
    · exact Or.inr (Or.inr h)
  · exact Or.inr (Or.inr (h2 r h))

structure Proc (p : Plan) (done : List Item → Prop) (bits : Nat → Bool) (reqs : List (List Item))
    (der : List Nat) (it : Item) : Prop where
  bit : bits it.field = true
  sub : Seen done reqs it.sub
  src : ∀ d, (p.field it.field).derive = some d → d ∈ der ∨ bits d = true

structure Inv (p : Plan) (resp : Nat → Bool) (denied : Nat → Prop) (done chk : List Item → Prop)
    (bits : Nat → Bool) (reqs : List (List Item)) (der : List Nat) : Prop where
  chk : ∀ r, chk r → ∀ it ∈ r, Proc p done bits reqs der it
  bitsReq : ∀ i, bits i = true → Seen done reqs (p.field i).req
  respReq : ∀ i, resp i = true → Seen done reqs (p.field i).req
  respSuper : ∀ i, resp i = true → Seen done reqs (p.field i).reqSuper
  respSrc : ∀ i d, resp i = true → (p.field i).derive = some d → d ∈ der ∨ bits d = true
  part : ∀ r ∈ p.partitions, Seen done reqs r
  shown : ∀ i, resp i = true → ¬ denied i → bits i = true

/-- The invariant is kept when the bits, the stacks and the treated sets grow. -/
theorem Inv.grow {denied : Nat → Prop} {done done' chk : List Item → Prop} {bits bits' : Nat → Bool}
    {reqs reqs' : List (List Item)} {der der' : List Nat} (h : Inv p resp denied done chk bits reqs der)
    (h1 : ∀ x ∈ reqs, x ∈ reqs' ∨ done' x) (h2 : ∀ x, done x → done' x)
    (h3 : ∀ i, bits i = true → bits' i = true) (h4 : ∀ d ∈ der, d ∈ der' ∨ bits' d = true)
    (h5 : ∀ i, bits' i = true → bits i = true ∨ Seen done' reqs' (p.field i).req) :
    Inv p resp denied done' chk bits' reqs' der' := by
  have hder : ∀ d, d ∈ der ∨ bits d = true → d ∈ der' ∨ bits' d = true := by
    rintro d (h | h)
    · exact h4 d h
    · exact Or.inr (h3 d h)
  refine ⟨?_, ?_, ?_, ?_, ?_, ?_, ?_⟩
  · intro r hr it hit
    have := h.chk r hr it hit
    exact ⟨h3 _ this.bit, this.sub.mono h1 h2, fun d hd => hder d (this.src d hd)⟩
  · intro i hi
    rcases h5 i hi with h' | h'
    · exact (h.bitsReq i h').mono h1 h2
    · exact h'
  · intro i hi; exact (h.respReq i hi).mono h1 h2
  · intro i hi; exact (h.respSuper i hi).mono h1 h2
  · intro i d hi hd; exact hder d (h.respSrc i d hi hd)
  · intro r hr; exact (h.part r hr).mono h1 h2
  · intro i hi hn; exact h3 i (h.shown i hi hn)

theorem drain_inv {denied : Nat → Prop} {done : List Item → Prop} {l : List Nat} {bits : Nat → Bool}
    {reqs : List (List Item)} (h : Inv p resp denied done done bits reqs l) :
    Inv p resp denied done done (drain p resp bits reqs l).bits (drain p resp bits reqs l).reqs [] ∧
      (drain p resp bits reqs l).der = [] := by
  induction l generalizing bits reqs with
  | nil => exact ⟨h, rfl⟩
  | cons i t ih =>
    rw [drain]
    split
    · rename_i hb
      refine ih (h.grow (fun x hx => Or.inl hx) (fun _ h => h) (fun _ h => h) ?_ (fun _ h => Or.inl h))
      intro d hd
      rcases List.mem_cons.1 hd with rfl | hd
      · exact Or.inr hb
      · exact Or.inl hd
    · refine ih (h.grow ?_ (fun _ h => h) ?_ ?_ ?_)
      · intro x hx
        left
        split
        · exact hx
        · exact mem_pushReq.2 (Or.inl hx)
      · intro j hj
        rw [put_apply]
        split
        · rfl
        · exact hj
      · intro d hd
        rcases List.mem_cons.1 hd with rfl | hd
        · exact Or.inr (by simp [put_apply])
        · exact Or.inl hd
      · intro j hj
        rw [put_apply] at hj
        split at hj
        · rename_i hji
          subst hji
          right
          cases hr : resp j with
          | true =>
            simp only [if_true]
            exact h.respReq j hr
          | false =>
            simp only [Bool.false_eq_true, if_false]
            by_cases hn : (p.field j).req = []
            · exact Or.inl hn
            · exact Or.inr (Or.inl (mem_pushReq.2 (Or.inr ⟨rfl, hn⟩)))
        · exact Or.inl hj

theorem visit_inv {denied : Nat → Prop} {done chk : List Item → Prop} {s : St} (it : Item)
    (h : Inv p resp denied done chk s.bits s.reqs s.der) :
    Inv p resp denied done chk (visit p s it).bits (visit p s it).reqs (visit p s it).der ∧
      Proc p done (visit p s it).bits (visit p s it).reqs (visit p s it).der it := by
  refine ⟨h.grow ?_ (fun _ h => h) ?_ ?_ ?_, ?_, ?_, ?_⟩
  · intro x hx; exact Or.inl (mem_pushReq.2 (Or.inl (by simp [hx])))
  · intro j hj
    simp only [visit, put_apply]
    split
    · rfl
    · exact hj
  · intro d hd; exact Or.inl (mem_pushDer.2 (Or.inl hd))
  · intro j hj
    simp only [visit, put_apply] at hj
    split at hj
    · rename_i hji
      subst hji
      right
      by_cases hn : (p.field it.field).req = []
      · exact Or.inl hn
      · exact Or.inr (Or.inl (mem_pushReq.2 (Or.inr ⟨rfl, hn⟩)))
    · exact Or.inl hj
  · simp [visit, put_apply]
  · exact Or.inr (Or.inl (mem_pushReq.2 (Or.inl (by simp))))
  · intro d hd; exact Or.inl (mem_pushDer.2 (Or.inr hd))

structure Grows (s s' : St) : Prop where
  bits : ∀ i, s.bits i = true → s'.bits i = true
  reqs : ∀ r ∈ s.reqs, r ∈ s'.reqs
  der : ∀ d ∈ s.der, d ∈ s'.der

theorem visit_grows (s : St) (it : Item) : Grows s (visit p s it) := by
  refine ⟨?_, ?_, ?_⟩
  · intro j hj
    simp only [visit, put_apply]
    split
    · rfl
    · exact hj
  · intro x hx; exact mem_pushReq.2 (Or.inl (by simp [hx]))
  · intro d hd; exact mem_pushDer.2 (Or.inl hd)

theorem fold_grows (s : St) (l : List Item) : Grows s (l.foldl (visit p) s) := by
  induction l generalizing s with
  | nil => exact ⟨fun _ h => h, fun _ h => h, fun _ h => h⟩
  | cons it t ih =>
    have a := visit_grows (p := p) s it
    have b := ih (visit p s it)
    exact ⟨fun i h => b.bits i (a.bits i h), fun r h => b.reqs r (a.reqs r h), fun d h => b.der d (a.der d h)⟩

theorem fold_inv {denied : Nat → Prop} {done chk : List Item → Prop} {s : St} (l : List Item)
    (h : Inv p resp denied done chk s.bits s.reqs s.der) :
    Inv p resp denied done chk (l.foldl (visit p) s).bits (l.foldl (visit p) s).reqs (l.foldl (visit p) s).der ∧
      ∀ it ∈ l, Proc p done (l.foldl (visit p) s).bits (l.foldl (visit p) s).reqs (l.foldl (visit p) s).der it := by
  induction l generalizing s with
  | nil => exact ⟨h, by simp⟩
  | cons it t ih =>
    obtain ⟨h1, h2⟩ := visit_inv it h
    obtain ⟨h3, h4⟩ := ih h1
    refine ⟨h3, ?_⟩
    intro x hx
    rcases List.mem_cons.1 hx with rfl | hx
    · have g := fold_grows (p := p) (visit p s x) t
      refine ⟨g.bits _ h2.bit, h2.sub.mono (fun y hy => Or.inl (g.reqs y hy)) (fun _ h => h), ?_⟩
      intro d hd
      rcases h2.src d hd with h | h
      · exact Or.inl (g.der d h)
      · exact Or.inr (g.bits d h)
    · exact h4 x hx

theorem popLoop_inv {denied : Nat → Prop} {done : List Item → Prop} {fuel : Nat} {s s' : St}
    (hs : Inv p resp denied done done s.bits s.reqs s.der) (h : popLoop p fuel s = some s') :
    ∃ done', Inv p resp denied done' done' s'.bits s'.reqs s'.der := by
  induction fuel generalizing s done with
  | zero =>
    rw [popLoop.eq_def] at h
    split at h
    · cases h; exact ⟨done, hs⟩
    · cases h
    · rename_i h'; cases h'
  | succ n ih =>
    rw [popLoop.eq_def] at h
    split at h
    · cases h; exact ⟨done, hs⟩
    · rename_i h'; cases h'
    · rename_i r t fuel hreq hf
      cases hf
      have h1 : Inv p resp denied (fun x => done x ∨ x = r) done
          ({ s with reqs := t } : St).bits ({ s with reqs := t } : St).reqs ({ s with reqs := t } : St).der := by
        refine hs.grow ?_ (fun _ h => Or.inl h) (fun _ h => h) (fun d h => Or.inl h) (fun i h => Or.inl h)
        intro x hx
        rw [hreq] at hx
        rcases List.mem_cons.1 hx with rfl | hx
        · exact Or.inr (Or.inr rfl)
        · exact Or.inl hx
      obtain ⟨h2, h3⟩ := fold_inv r h1
      refine ih (done := fun x => done x ∨ x = r) ?_ h
      refine { h2 with chk := ?_ }
      rintro x (hx | rfl) it hit
      · exact h2.chk x hx it hit
      · exact h3 it hit

theorem inv_complete {denied : Nat → Prop} {done : List Item → Prop} {bits : Nat → Bool}
    (h : Inv p resp denied done done bits [] []) : ∀ i, Needed p resp denied i → bits i = true := by
  have item : ∀ {r it}, Seen done [] r → it ∈ r → Proc p done bits [] [] it := by
    intro r it hr hit
    rcases hr with rfl | h' | h'
    · simp at hit
    · simp at h'
    · exact h.chk r h' it hit
  have hreq : ∀ r, Req p resp r → Seen done [] r := by
    intro r hr
    induction hr with
    | field h1 h2 => exact h.respReq _ h1
    | super h1 h2 => exact h.respSuper _ h1
    | partition h1 => exact h.part _ h1
    | sub _ h2 ih => exact (item ih h2).sub
    | item _ h2 ih => exact h.bitsReq _ (item ih h2).bit
    | source h1 h2 h3 =>
      rcases h.respSrc _ _ h1 h3 with h' | h'
      · simp at h'
      · exact h.bitsReq _ h'
    | sourceItem _ h2 h3 ih =>
      rcases (item ih h2).src _ h3 with h' | h'
      · simp at h'
      · exact h.bitsReq _ h'
  intro i hi
  cases hi with
  | shown h1 h2 => exact h.shown i h1 h2
  | required h1 h2 => exact (item (hreq _ h1) h2).bit
  | source h1 h2 h3 =>
    rcases h.respSrc _ _ h1 h3 with h' | h'
    · simp at h'
    · exact h'
  | sourceItem h1 h2 h3 =>
    rcases (item (hreq _ h1) h2).src _ h3 with h' | h'
    · simp at h'
    · exact h'

theorem closure_complete {denied : Nat → Prop} {done : List Item → Prop} {fuel : Nat} {s : St} {b : Nat → Bool}
    (hs : Inv p resp denied done done s.bits s.reqs s.der) (h : closure p resp fuel s = some b) :
    ∀ i, Needed p resp denied i → b i = true := by
  induction fuel generalizing s done with
  | zero =>
    rw [closure.eq_def] at h
    split at h
    · rename_i he
      simp only [Bool.and_eq_true, List.isEmpty_iff] at he
      rw [he.1, he.2] at hs
      cases h
      exact inv_complete hs
    · cases h
  | succ n ih =>
    rw [closure.eq_def] at h
    split at h
    · rename_i he
      simp only [Bool.and_eq_true, List.isEmpty_iff] at he
      rw [he.1, he.2] at hs
      cases h
      exact inv_complete hs
    · simp only [Option.bind_eq_some_iff] at h
      obtain ⟨s1, h1, h2⟩ := h
      have hrev : Inv p resp denied done done s.bits s.reqs s.der.reverse :=
        hs.grow (fun x hx => Or.inl hx) (fun _ h => h) (fun _ h => h)
          (fun d hd => Or.inl (List.mem_reverse.2 hd)) (fun _ h => Or.inl h)
      obtain ⟨h3, h4⟩ := drain_inv hrev
      rw [← h4] at h3
      obtain ⟨done', h5⟩ := popLoop_inv h3 h1
      exact ih h5 h2

/-! ## The initial state -/

theorem clearDenied_iff {l : List (Nat × Nat)} {bits : Nat → Bool} {i : Nat} :
    clearDenied bits l i = true ↔ bits i = true ∧ ∀ e, (i, e) ∉ l := by
  induction l generalizing bits with
  | nil => simp [clearDenied]
  | cons x t ih =>
    obtain ⟨j, e⟩ := x
    rw [clearDenied, ih, put_apply]
    by_cases hij : i = j
    · subst hij
      simp only [if_true, Bool.false_eq_true, false_and, List.mem_cons, Prod.mk.injEq, true_and, not_or,
        false_iff, not_and]
      intro _ h
      exact (h e).1 rfl
    · simp [hij]

theorem initFold {l : List Nat} {s : St} :
    (l.foldl (initField p resp) s).bits = s.bits ∧
      (∀ r, r ∈ (l.foldl (initField p resp) s).reqs ↔ r ∈ s.reqs ∨
        ∃ i ∈ l, resp i = true ∧ r ≠ [] ∧ (r = (p.field i).req ∨ r = (p.field i).reqSuper)) ∧
      ∀ d, d ∈ (l.foldl (initField p resp) s).der ↔ d ∈ s.der ∨
        ∃ i ∈ l, resp i = true ∧ (p.field i).derive = some d := by
  induction l generalizing s with
  | nil => simp
  | cons i t ih =>
    obtain ⟨h1, h2, h3⟩ := ih (s := initField p resp s i)
    rw [List.foldl_cons]
    cases hr : resp i with
    | false =>
      have : initField p resp s i = s := by simp [initField, hr]
      rw [this] at h1 h2 h3
      rw [this]
      refine ⟨h1, ?_, ?_⟩
      · intro r; rw [h2]; simp [hr]
      · intro d; rw [h3]; simp [hr]
    | true =>
      refine ⟨?_, ?_, ?_⟩
      · rw [h1]; simp [initField, hr]
      · intro r
        rw [h2]
        simp only [initField, hr, if_true, mem_pushReq, List.mem_cons, exists_eq_or_imp, true_and]
        constructor
        · rintro (((h | ⟨rfl, h⟩) | ⟨rfl, h⟩) | h)
          · exact Or.inl h
          · exact Or.inr (Or.inl ⟨h, Or.inl rfl⟩)
          · exact Or.inr (Or.inl ⟨h, Or.inr rfl⟩)
          · exact Or.inr (Or.inr h)
        · rintro (h | ⟨h, rfl | rfl⟩ | h)
          · exact Or.inl (Or.inl (Or.inl h))
          · exact Or.inl (Or.inl (Or.inr ⟨rfl, h⟩))
          · exact Or.inl (Or.inr ⟨rfl, h⟩)
          · exact Or.inr h
      · intro d
        rw [h3]
        simp only [initField, hr, if_true, mem_pushDer, List.mem_cons, exists_eq_or_imp, true_and, or_assoc]

theorem partFold {l : List (List Item)} {s : St} :
    (l.foldl (fun (s : St) r => { s with reqs := r :: s.reqs }) s).bits = s.bits ∧
      (l.foldl (fun (s : St) r => { s with reqs := r :: s.reqs }) s).der = s.der ∧
      ∀ r, r ∈ (l.foldl (fun (s : St) r => { s with reqs := r :: s.reqs }) s).reqs ↔ r ∈ s.reqs ∨ r ∈ l := by
  induction l generalizing s with
  | nil => simp
  | cons x t ih =>
    obtain ⟨h1, h2, h3⟩ := ih (s := { s with reqs := x :: s.reqs })
    refine ⟨h1, h2, ?_⟩
    intro r
    rw [List.foldl_cons, h3]
    simp only [List.mem_cons]
    constructor
    · rintro ((h | h) | h)
      · exact Or.inr (Or.inl h)
      · exact Or.inl h
      · exact Or.inr (Or.inr h)
    · rintro (h | h | h)
      · exact Or.inl (Or.inr h)
      · exact Or.inl (Or.inl h)
      · exact Or.inr h

theorem initial_spec {denied : List (Nat × Nat)} :
    (initial p resp denied).bits = clearDenied resp denied ∧
      (∀ r, r ∈ (initial p resp denied).reqs ↔
        (∃ i, i < p.fields.length ∧ resp i = true ∧ r ≠ [] ∧ (r = (p.field i).req ∨ r = (p.field i).reqSuper)) ∨
          r ∈ p.partitions) ∧
      ∀ d, d ∈ (initial p resp denied).der ↔
        ∃ i, i < p.fields.length ∧ resp i = true ∧ (p.field i).derive = some d := by
  unfold initial
  obtain ⟨a1, a2, a3⟩ := initFold (p := p) (resp := resp) (l := List.range p.fields.length)
    (s := ⟨clearDenied resp denied, [], []⟩)
  obtain ⟨b1, b2, b3⟩ := partFold (l := p.partitions)
    (s := (List.range p.fields.length).foldl (initField p resp) ⟨clearDenied resp denied, [], []⟩)
  refine ⟨b1.trans a1, ?_, ?_⟩
  · intro r; rw [b3, a2]; simp
  · intro d; rw [b2, a3]; simp

theorem field_out {i : Nat} (h : ¬ i < p.fields.length) : p.field i = Field.empty := by
  unfold Plan.field
  rw [List.getElem?_eq_none (by omega)]
  rfl

theorem initial_sound (denied : List (Nat × Nat)) :
    Sound p resp (fun i => ∃ e, (i, e) ∈ denied) (initial p resp denied) := by
  obtain ⟨h1, h2, h3⟩ := initial_spec (p := p) (resp := resp) (denied := denied)
  refine ⟨?_, ?_, ?_⟩
  · intro i hi
    rw [h1, clearDenied_iff] at hi
    exact .shown hi.1 (fun ⟨e, he⟩ => hi.2 e he)
  · intro r hr
    rcases (h2 r).1 hr with ⟨i, a, b, c, rfl | rfl⟩ | h
    · exact .field b a
    · exact .super b a
    · exact .partition h
  · intro d hd
    obtain ⟨i, a, b, c⟩ := (h3 d).1 hd
    exact Or.inl ⟨i, b, a, c⟩

theorem initial_inv (denied : List (Nat × Nat)) :
    Inv p resp (fun i => ∃ e, (i, e) ∈ denied) (fun _ => False) (fun _ => False)
      (initial p resp denied).bits (initial p resp denied).reqs (initial p resp denied).der := by
  obtain ⟨h1, h2, h3⟩ := initial_spec (p := p) (resp := resp) (denied := denied)
  have hreq : ∀ i, resp i = true → Seen (fun _ => False) (initial p resp denied).reqs (p.field i).req := by
    intro i hi
    by_cases hn : (p.field i).req = []
    · exact Or.inl hn
    · by_cases hl : i < p.fields.length
      · exact Or.inr (Or.inl ((h2 _).2 (Or.inl ⟨i, hl, hi, hn, Or.inl rfl⟩)))
      · rw [field_out hl] at hn; exact absurd rfl hn
  refine ⟨by simp, ?_, hreq, ?_, ?_, ?_, ?_⟩
  · intro i hi
    rw [h1, clearDenied_iff] at hi
    exact hreq i hi.1
  · intro i hi
    by_cases hn : (p.field i).reqSuper = []
    · exact Or.inl hn
    · by_cases hl : i < p.fields.length
      · exact Or.inr (Or.inl ((h2 _).2 (Or.inl ⟨i, hl, hi, hn, Or.inr rfl⟩)))
      · rw [field_out hl] at hn; exact absurd rfl hn
  · intro i d hi hd
    by_cases hl : i < p.fields.length
    · exact Or.inl ((h3 d).2 ⟨i, hl, hi, hd⟩)
    · rw [field_out hl] at hd; simp [Field.empty] at hd
  · intro r hr; exact Or.inr (Or.inl ((h2 r).2 (Or.inr hr)))
  · intro i hi hn
    rw [h1, clearDenied_iff]
    exact ⟨hi, fun e he => hn ⟨e, he⟩⟩

/-! ## Termination -/

def sources (p : Plan) : List Nat := p.fields.filterMap (·.derive)

theorem mem_sources {i d : Nat} (h : (p.field i).derive = some d) : d ∈ sources p := by
  by_cases hl : i < p.fields.length
  · unfold Plan.field at h
    rw [List.getElem?_eq_getElem hl] at h
    exact List.mem_filterMap.2 ⟨p.fields[i], List.getElem_mem hl, h⟩
  · rw [field_out hl] at h; simp [Field.empty] at h

/-- The loop gets rid of the top of the stack. -/
def Pops (p : Plan) (r : List Item) : Prop :=
  ∀ s t, s.reqs = r :: t → ∃ n s', s'.reqs = t ∧ (∀ i, s.bits i = true → s'.bits i = true) ∧
    (∀ d ∈ s'.der, d ∈ s.der ∨ d ∈ sources p) ∧ ∀ fuel, popLoop p (n + fuel) s = popLoop p fuel s'

theorem pops_list {l : List (List Item)} (h : ∀ r ∈ l, Pops p r) :
    ∀ s t, s.reqs = l ++ t → ∃ n s', s'.reqs = t ∧ (∀ i, s.bits i = true → s'.bits i = true) ∧
      (∀ d ∈ s'.der, d ∈ s.der ∨ d ∈ sources p) ∧ ∀ fuel, popLoop p (n + fuel) s = popLoop p fuel s' := by
  induction l with
  | nil => intro s t hs; exact ⟨0, s, by simpa using hs, fun _ h => h, fun _ h => Or.inl h, by simp⟩
  | cons r l ih =>
    intro s t hs
    obtain ⟨n, s1, a1, a2, a3, a4⟩ := h r (by simp) s (l ++ t) hs
    obtain ⟨m, s2, b1, b2, b3, b4⟩ := ih (fun x hx => h x (by simp [hx])) s1 t a1
    refine ⟨n + m, s2, b1, fun i hi => b2 i (a2 i hi), ?_, ?_⟩
    · intro d hd
      rcases b3 d hd with h | h
      · exact a3 d h
      · exact Or.inr h
    · intro fuel; rw [Nat.add_assoc, a4, b4]

/-- What visiting items pushes. -/
theorem fold_push {l : List Item} {s : St} :
    ∃ new, (l.foldl (visit p) s).reqs = new ++ s.reqs ∧
      (∀ r ∈ new, ∃ it ∈ l, r = it.sub ∨ r = (p.field it.field).req) ∧
      ∀ d ∈ (l.foldl (visit p) s).der, d ∈ s.der ∨ d ∈ sources p := by
  induction l generalizing s with
  | nil => exact ⟨[], by simp, by simp, fun d h => Or.inl h⟩
  | cons it t ih =>
    obtain ⟨new, h1, h2, h3⟩ := ih (s := visit p s it)
    refine ⟨new ++ pushReq (p.field it.field).req [it.sub], ?_, ?_, ?_⟩
    · rw [List.foldl_cons, h1]
      simp only [visit, pushReq]
      split <;> simp
    · intro r hr
      rcases List.mem_append.1 hr with hr | hr
      · obtain ⟨x, hx, h⟩ := h2 r hr
        exact ⟨x, by simp [hx], h⟩
      · rcases mem_pushReq.1 hr with hr | ⟨rfl, -⟩
        · exact ⟨it, by simp, Or.inl (by simpa using hr)⟩
        · exact ⟨it, by simp, Or.inr rfl⟩
    · intro d hd
      rw [List.foldl_cons] at hd
      rcases h3 d hd with h | h
      · simp only [visit] at h
        rcases mem_pushDer.1 h with h | h
        · exact Or.inl h
        · exact Or.inr (mem_sources h)
      · exact Or.inr h

theorem sub_lt {it : Item} {r : List Item} (h : it ∈ r) : sizeOf it.sub < sizeOf r := by
  have h1 := List.sizeOf_lt_of_mem h
  cases it with
  | mk f s =>
    simp only [Item.sub, Item.mk.sizeOf_spec] at *
    omega

theorem pops_of_occurs (n : Nat) : ∀ r, sizeOf r < n → (∀ f, Occurs f r → Pops p (p.field f).req) → Pops p r := by
  induction n with
  | zero => intro r h; omega
  | succ n ih =>
    intro r hn hocc s t hs
    obtain ⟨new, h1, h2, h3⟩ := fold_push (p := p) (l := r) (s := { s with reqs := t })
    have hnew : ∀ x ∈ new, Pops p x := by
      intro x hx
      obtain ⟨it, hit, rfl | rfl⟩ := h2 x hx
      · exact ih _ (by have := sub_lt hit; omega) (fun f hf => hocc f (.deep hit hf))
      · exact hocc _ (.top hit)
    obtain ⟨m, s', a1, a2, a3, a4⟩ := pops_list hnew _ t h1
    refine ⟨m + 1, s', a1, ?_, ?_, ?_⟩
    · intro i hi
      exact a2 i ((fold_grows (p := p) { s with reqs := t } r).bits i hi)
    · intro d hd
      rcases a3 d hd with h | h
      · exact h3 d h
      · exact Or.inr h
    · intro fuel
      rw [show m + 1 + fuel = (m + fuel) + 1 by omega, ← a4]
      rw [popLoop.eq_def]
      simp only [hs]

theorem pops_all (hac : Acyclic p) (r : List Item) : Pops p r := by
  obtain ⟨rank, hrank⟩ := hac
  have key : ∀ n i, rank i < n → Pops p (p.field i).req := by
    intro n
    induction n with
    | zero => intro i h; omega
    | succ n ih =>
      intro i hi
      refine pops_of_occurs _ _ (Nat.lt_succ_self _) ?_
      intro f hf
      exact ih f (by have := hrank i f hf; omega)
  exact pops_of_occurs _ _ (Nat.lt_succ_self _) (fun f _ => key _ f (Nat.lt_succ_self _))

theorem popLoop_nil {s : St} (h : s.reqs = []) (fuel : Nat) : popLoop p fuel s = some s := by
  rw [popLoop.eq_def]
  simp only [h]

theorem popLoop_ends (hac : Acyclic p) (s : St) :
    ∃ n s', s'.reqs = [] ∧ (∀ i, s.bits i = true → s'.bits i = true) ∧
      (∀ d ∈ s'.der, d ∈ s.der ∨ d ∈ sources p) ∧ ∀ fuel, n ≤ fuel → popLoop p fuel s = some s' := by
  obtain ⟨n, s', a1, a2, a3, a4⟩ := pops_list (l := s.reqs) (fun r _ => pops_all hac r) s [] (by simp)
  refine ⟨n, s', a1, a2, a3, ?_⟩
  intro fuel hf
  rw [show fuel = n + (fuel - n) by omega, a4, popLoop_nil a1]

theorem drain_post {l : List Nat} {bits : Nat → Bool} {reqs : List (List Item)} :
    (∀ i, bits i = true → (drain p resp bits reqs l).bits i = true) ∧ (drain p resp bits reqs l).der = [] ∧
      ((drain p resp bits reqs l).reqs ≠ reqs → ∃ d ∈ l, bits d = false ∧ (drain p resp bits reqs l).bits d = true) := by
  induction l generalizing bits reqs with
  | nil => simp [drain]
  | cons i t ih =>
    rw [drain]
    split
    · obtain ⟨h1, h2, h3⟩ := ih (bits := bits) (reqs := reqs)
      refine ⟨h1, h2, ?_⟩
      intro h
      obtain ⟨d, a, b⟩ := h3 h
      exact ⟨d, by simp [a], b⟩
    · rename_i hb
      obtain ⟨h1, h2, h3⟩ := ih (bits := put bits i true)
        (reqs := if resp i then reqs else pushReq (p.field i).req reqs)
      refine ⟨?_, h2, ?_⟩
      · intro j hj
        apply h1
        rw [put_apply]
        split
        · rfl
        · exact hj
      · intro _
        exact ⟨i, by simp, by simpa using hb, h1 i (by simp [put_apply])⟩

def unset (p : Plan) (bits : Nat → Bool) : Nat := (sources p).countP fun d => !bits d

theorem unset_le {bits bits' : Nat → Bool} (h : ∀ i, bits i = true → bits' i = true) :
    unset p bits' ≤ unset p bits := by
  unfold unset
  apply List.countP_mono_left
  intro d _ hd
  cases hb : bits d with
  | true => rw [h d hb] at hd; simp at hd
  | false => rfl

theorem countP_lt {α : Type} {P Q : α → Bool} {l : List α} (h : ∀ x ∈ l, P x = true → Q x = true) {a : α} (ha : a ∈ l)
    (h1 : P a = false) (h2 : Q a = true) : l.countP P < l.countP Q := by
  induction l with
  | nil => simp at ha
  | cons x t ih =>
    have ht : t.countP P ≤ t.countP Q := List.countP_mono_left (fun y hy => h y (by simp [hy]))
    rcases List.mem_cons.1 ha with rfl | ha
    · simp only [List.countP_cons, h1, h2]
      simp
      omega
    · have := ih (fun y hy => h y (by simp [hy])) ha
      have hx := h x (by simp)
      simp only [List.countP_cons]
      cases hp : P x with
      | true => rw [hx hp]; simp; omega
      | false => cases Q x <;> simp <;> omega

theorem unset_lt {bits bits' : Nat → Bool} (h : ∀ i, bits i = true → bits' i = true) {d : Nat}
    (hd : d ∈ sources p) (h1 : bits d = false) (h2 : bits' d = true) : unset p bits' < unset p bits := by
  unfold unset
  refine countP_lt ?_ hd (by simp [h2]) (by simp [h1])
  intro x _ hx
  cases hb : bits x with
  | true => rw [h x hb] at hx; simp at hx
  | false => rfl

theorem closure_ends0 (hac : Acyclic p) (n : Nat) : ∀ s : St, unset p s.bits < n → s.reqs = [] →
    (∀ d ∈ s.der, d ∈ sources p) → ∃ N, ∀ fuel, N ≤ fuel → ∃ b, closure p resp fuel s = some b := by
  induction n with
  | zero => intro s h; omega
  | succ n ih =>
    intro s hn hreq hder
    obtain ⟨g1, g2, g3⟩ := drain_post (p := p) (resp := resp) (l := s.der.reverse) (bits := s.bits) (reqs := s.reqs)
    obtain ⟨m, s', a1, a2, a3, a4⟩ := popLoop_ends hac (drain p resp s.bits s.reqs s.der.reverse)
    have hder' : ∀ d ∈ s'.der, d ∈ sources p := by
      intro d hd
      rcases a3 d hd with h | h
      · rw [g2] at h; simp at h
      · exact h
    by_cases hne : (drain p resp s.bits s.reqs s.der.reverse).reqs = s.reqs
    · refine ⟨m + 2, ?_⟩
      intro fuel hf
      obtain ⟨k, rfl⟩ : ∃ k, fuel = k + 2 := ⟨fuel - 2, by omega⟩
      rw [closure.eq_def]
      split
      · exact ⟨_, rfl⟩
      · have e : popLoop p (k + 1) (drain p resp s.bits s.reqs s.der.reverse) =
            some (drain p resp s.bits s.reqs s.der.reverse) := popLoop_nil (hne.trans hreq) _
        simp only [e, Option.bind_some]
        rw [closure.eq_def]
        rw [if_pos (by simp [hne.trans hreq, g2])]
        exact ⟨_, rfl⟩
    · obtain ⟨d, hd1, hd2, hd3⟩ := g3 hne
      have hlt := unset_lt (p := p) g1 (hder d (List.mem_reverse.1 hd1)) hd2 hd3
      have hle := unset_le (p := p) a2
      obtain ⟨N, hN⟩ := ih s' (by omega) a1 hder'
      refine ⟨m + N + 1, ?_⟩
      intro fuel hf
      obtain ⟨k, rfl⟩ : ∃ k, fuel = k + 1 := ⟨fuel - 1, by omega⟩
      rw [closure.eq_def]
      split
      · exact ⟨_, rfl⟩
      · simp only [a4 k (by omega), Option.bind_some]
        exact hN k (by omega)

theorem closure_ends (hac : Acyclic p) (s : St) : ∃ N, ∀ fuel, N ≤ fuel → ∃ b, closure p resp fuel s = some b := by
  obtain ⟨g1, g2, g3⟩ := drain_post (p := p) (resp := resp) (l := s.der.reverse) (bits := s.bits) (reqs := s.reqs)
  obtain ⟨m, s', a1, a2, a3, a4⟩ := popLoop_ends hac (drain p resp s.bits s.reqs s.der.reverse)
  obtain ⟨N, hN⟩ := closure_ends0 (resp := resp) hac (unset p s'.bits + 1) s' (by omega) a1 (by
    intro d hd
    rcases a3 d hd with h | h
    · rw [g2] at h; simp at h
    · exact h)
  refine ⟨m + N + 1, ?_⟩
  intro fuel hf
  obtain ⟨k, rfl⟩ : ∃ k, fuel = k + 1 := ⟨fuel - 1, by omega⟩
  rw [closure.eq_def]
  split
  · exact ⟨_, rfl⟩
  · simp only [a4 k (by omega), Option.bind_some]
    exact hN k (by omega)

end Verif.QueryMods
