import Verif.Views.Spec
import Verif.OpChecks.TableLemmas

/-!
# Views of the response: lemmas
-/

namespace Verif.Views

open Verif.OpChecks (sortBy sortBy_perm sortBy_sorted)

variable {α β : Type}

/-! ## Outcomes -/

theorem bind_ok {x : Out α} {f : α → Out β} {b : β} : x.bind f = .ok b ↔ ∃ a, x = .ok a ∧ f a = .ok b := by
  cases x <;> simp [Out.bind]

theorem map_ok {x : Out α} {f : α → β} {b : β} : x.map f = .ok b ↔ ∃ a, x = .ok a ∧ f a = b := by
  cases x <;> simp [Out.map]

theorem bind_panic {x : Out α} {f : α → Out β} : x.bind f = .panic ↔ x = .panic ∨ ∃ a, x = .ok a ∧ f a = .panic := by
  cases x <;> simp [Out.bind]

theorem map_panic {x : Out α} {f : α → β} : x.map f = .panic ↔ x = .panic := by
  cases x <;> simp [Out.map]

theorem ok_or {x : Out α} (h : x ≠ .panic) (he : ∀ a, x ≠ .ok a) : x = .err := by
  cases x with
  | ok a => exact absurd rfl (he a)
  | err => rfl
  | panic => exact absurd rfl h

/-! ## Union -/

theorem unionSub_eq (i : Item α) (r : List (Item α)) : unionSub i r = union i.sub r := by
  cases i with | mk a b c => rw [unionSub]; rfl

theorem union_nil_left (r : List (Item α)) : union [] r = r := by rw [union]

theorem union_nil_right (l : List (Item α)) : union l [] = l := by
  cases l with
  | nil => rw [union]
  | cons x t => rw [union, mergeItem]

theorem hasPath_nil (p : List Nat) : HasPath p ([] : List (Item α)) ↔ p = [] := by
  cases p <;> simp [HasPath]

theorem hasPath_cons (p : List Nat) (x : Item α) (l : List (Item α)) :
    HasPath p (x :: l) ↔ HasPath p [x] ∨ HasPath p l := by
  cases p with
  | nil => simp [HasPath]
  | cons i p => simp [HasPath]

theorem hasPath_single (i : Nat) (p : List Nat) (x : Item α) :
    HasPath (i :: p) [x] ↔ x.id = i ∧ HasPath p x.sub := by
  simp [HasPath]

theorem hasPath_one (p : List Nat) (x : Item α) :
    HasPath p [x] ↔ p = [] ∨ ∃ q, p = x.id :: q ∧ HasPath q x.sub := by
  cases p with
  | nil => simp [HasPath]
  | cons i p =>
    rw [hasPath_single]
    constructor
    · rintro ⟨rfl, h⟩
      exact .inr ⟨p, rfl, h⟩
    · rintro (h | ⟨q, h, hq⟩)
      · cases h
      · cases h
        exact ⟨rfl, hq⟩

theorem hasPath_merge {l : Item α} {rest : List (Item α)} {both next : List (Item α) → List (Item α)}
    (hb : ∀ r p, HasPath p (both r) ↔ HasPath p l.sub ∨ HasPath p r)
    (hn : ∀ r p, HasPath p (next r) ↔ HasPath p rest ∨ HasPath p r) (right : List (Item α)) (p : List Nat) :
    HasPath p (mergeItem l rest both next right) ↔ HasPath p (l :: rest) ∨ HasPath p right := by
  induction right with
  | nil =>
    rw [mergeItem, hasPath_nil]
    constructor
    · exact .inl
    · rintro (h | rfl)
      · exact h
      · trivial
  | cons r rs ih =>
    rw [mergeItem]
    split
    · rw [hasPath_cons, hn, hasPath_cons p l rest]
      exact or_assoc.symm
    · split
      · rw [hasPath_cons, ih, hasPath_cons p r rs]
        constructor
        · rintro (h | h | h)
          · exact .inr (.inl h)
          · exact .inl h
          · exact .inr (.inr h)
        · rintro (h | h | h)
          · exact .inr (.inl h)
          · exact .inl h
          · exact .inr (.inr h)
      · rename_i h1 h2
        have hid : r.id = l.id := by omega
        rw [hasPath_cons, hn, hasPath_cons p l rest, hasPath_cons p r rs]
        have key : HasPath p [Item.mk l.id l.data (if l.sub.isEmpty then r.sub else both r.sub)] ↔
            HasPath p [l] ∨ HasPath p [r] := by
          cases p with
          | nil => simp [HasPath]
          | cons i q =>
            rw [hasPath_single, hasPath_single, hasPath_single, hid]
            have hs : HasPath q (if l.sub.isEmpty then r.sub else both r.sub) ↔ HasPath q l.sub ∨ HasPath q r.sub := by
              split
              · rename_i he
                rw [List.isEmpty_iff.1 he, hasPath_nil]
                constructor
                · exact .inr
                · rintro (rfl | h)
                  · trivial
                  · exact h
              · exact hb _ _
            simp only [Item.id, Item.sub] at hs ⊢
            constructor
            · rintro ⟨h1, h2⟩
              rcases hs.1 h2 with h | h
              · exact .inl ⟨h1, h⟩
              · exact .inr ⟨h1, h⟩
            · rintro (⟨h1, h⟩ | ⟨h1, h⟩)
              · exact ⟨h1, hs.2 (.inl h)⟩
              · exact ⟨h1, hs.2 (.inr h)⟩
        rw [key]
        constructor
        · rintro ((h | h) | h | h)
          · exact .inl (.inl h)
          · exact .inr (.inl h)
          · exact .inl (.inr h)
          · exact .inr (.inr h)
        · rintro ((h | h) | h | h)
          · exact .inl (.inl h)
          · exact .inr (.inl h)
          · exact .inl (.inr h)
          · exact .inr (.inr h)

mutual

theorem hasPath_union : ∀ (l r : List (Item α)) (p : List Nat), HasPath p (union l r) ↔ HasPath p l ∨ HasPath p r
  | [], r, p => by
    rw [union, hasPath_nil]
    constructor
    · exact .inr
    · rintro (rfl | h)
      · trivial
      · exact h
  | l :: ls, r, p => by
    rw [union]
    exact hasPath_merge (fun r p => hasPath_unionSub l r p) (fun r p => hasPath_union ls r p) r p

theorem hasPath_unionSub : ∀ (l : Item α) (r : List (Item α)) (p : List Nat),
    HasPath p (unionSub l r) ↔ HasPath p l.sub ∨ HasPath p r
  | .mk _ _ sub, r, p => by
    rw [unionSub]
    exact hasPath_union sub r p

end

/-! ## Strict trees -/

theorem Strict.head {i : Item α} {is : List (Item α)} (h : Strict (i :: is)) :
    Strict i.sub ∧ (∀ j ∈ is, i.id < j.id) ∧ Strict is := by
  cases h with
  | cons _ _ a b c => exact ⟨a, b, c⟩

theorem Strict.mem {l : List (Item α)} (h : Strict l) {x : Item α} (hx : x ∈ l) : Strict x.sub := by
  induction h with
  | nil => cases hx
  | cons i is hs hlt hr _ ih2 =>
    rcases List.mem_cons.1 hx with rfl | hx
    · exact hs
    · exact ih2 hx

theorem Strict.unique {l : List (Item α)} (h : Strict l) {x y : Item α} (hx : x ∈ l) (hy : y ∈ l)
    (he : x.id = y.id) : x = y := by
  induction h with
  | nil => cases hx
  | cons i is hs hlt hr _ ih2 =>
    rcases List.mem_cons.1 hx with hx1 | hx1
    · rcases List.mem_cons.1 hy with hy1 | hy1
      · rw [hx1, hy1]
      · have := hlt y hy1
        rw [hx1] at he
        omega
    · rcases List.mem_cons.1 hy with hy1 | hy1
      · have := hlt x hx1
        rw [hy1] at he
        omega
      · exact ih2 hx1 hy1

theorem mem_merge_id {l : Item α} {rest : List (Item α)} {both next : List (Item α) → List (Item α)}
    (hn : ∀ r x, x ∈ next r → ∃ y, (y ∈ rest ∨ y ∈ r) ∧ y.id = x.id) (right : List (Item α)) {x : Item α}
    (hx : x ∈ mergeItem l rest both next right) : ∃ y, (y ∈ l :: rest ∨ y ∈ right) ∧ y.id = x.id := by
  induction right with
  | nil =>
    rw [mergeItem] at hx
    exact ⟨x, .inl hx, rfl⟩
  | cons r rs ih =>
    rw [mergeItem] at hx
    split at hx
    · rcases List.mem_cons.1 hx with rfl | hx
      · exact ⟨x, .inl List.mem_cons_self, rfl⟩
      · obtain ⟨y, hy, he⟩ := hn _ _ hx
        exact ⟨y, hy.imp (List.mem_cons_of_mem _) id, he⟩
    · split at hx
      · rcases List.mem_cons.1 hx with rfl | hx
        · exact ⟨x, .inr List.mem_cons_self, rfl⟩
        · obtain ⟨y, hy, he⟩ := ih hx
          exact ⟨y, hy.imp id (List.mem_cons_of_mem _), he⟩
      · rcases List.mem_cons.1 hx with rfl | hx
        · exact ⟨l, .inl List.mem_cons_self, rfl⟩
        · obtain ⟨y, hy, he⟩ := hn _ _ hx
          exact ⟨y, hy.imp (List.mem_cons_of_mem _) (List.mem_cons_of_mem _), he⟩

theorem mem_union_id : ∀ (l r : List (Item α)) {x : Item α}, x ∈ union l r → ∃ y, (y ∈ l ∨ y ∈ r) ∧ y.id = x.id
  | [], r, x, hx => by
    rw [union] at hx
    exact ⟨x, .inr hx, rfl⟩
  | l :: ls, r, x, hx => by
    rw [union] at hx
    exact mem_merge_id (fun r x hx => mem_union_id ls r hx) r hx

theorem strict_merge {l : Item α} {rest : List (Item α)} {both next : List (Item α) → List (Item α)}
    (hl : Strict (l :: rest)) (hb : ∀ r, Strict r → Strict (both r))
    (hn : ∀ r, Strict r → Strict (next r))
    (hm : ∀ r x, x ∈ next r → ∃ y, (y ∈ rest ∨ y ∈ r) ∧ y.id = x.id) (right : List (Item α)) (hr : Strict right) :
    Strict (mergeItem l rest both next right) := by
  obtain ⟨hl1, hl2, hl3⟩ := hl.head
  induction right with
  | nil =>
    rw [mergeItem]
    exact hl
  | cons r rs ih =>
    obtain ⟨hr1, hr2, hr3⟩ := hr.head
    rw [mergeItem]
    split
    · rename_i h1
      refine .cons _ _ hl1 ?_ (hn _ hr)
      intro x hx
      obtain ⟨y, hy, he⟩ := hm _ _ hx
      rw [← he]
      rcases hy with hy | hy
      · exact hl2 y hy
      · rcases List.mem_cons.1 hy with rfl | hy
        · exact h1
        · have := hr2 y hy
          omega
    · split
      · rename_i h1 h2
        refine .cons _ _ hr1 ?_ (ih hr3)
        intro x hx
        obtain ⟨y, hy, he⟩ := mem_merge_id hm rs hx
        rw [← he]
        rcases hy with hy | hy
        · rcases List.mem_cons.1 hy with rfl | hy
          · exact h2
          · have := hl2 y hy
            omega
        · exact hr2 y hy
      · rename_i h1 h2
        refine .cons _ _ ?_ ?_ (hn _ hr3)
        · show Strict (if l.sub.isEmpty then r.sub else both r.sub)
          split
          · exact hr1
          · exact hb _ hr1
        · intro x hx
          obtain ⟨y, hy, he⟩ := hm _ _ hx
          show l.id < x.id
          rw [← he]
          rcases hy with hy | hy
          · exact hl2 y hy
          · have := hr2 y hy
            omega

mutual

theorem strict_union : ∀ (l r : List (Item α)), Strict l → Strict r → Strict (union l r)
  | [], r, _, hr => by
    rw [union]
    exact hr
  | l :: ls, r, hl, hr => by
    rw [union]
    refine strict_merge hl ?_ ?_ (fun r x hx => mem_union_id ls r hx) r hr
    · intro r hr
      exact strict_unionSub l r hl.head.1 hr
    · intro r hr
      exact strict_union ls r hl.head.2.2 hr

theorem strict_unionSub : ∀ (l : Item α) (r : List (Item α)), Strict l.sub → Strict r → Strict (unionSub l r)
  | .mk _ _ sub, r, hl, hr => by
    rw [unionSub]
    exact strict_union sub r hl hr

end

/-! ## Looking a field up -/

/-- The field with the id. -/
def look (i : Nat) (l : List (Item α)) : Option (Item α) := l.find? (fun it => it.id == i)

theorem look_some {i : Nat} {l : List (Item α)} {x : Item α} (h : look i l = some x) : x ∈ l ∧ x.id = i := by
  unfold look at h
  exact ⟨List.mem_of_find?_eq_some h, by simpa using List.find?_some h⟩

theorem look_of_mem {l : List (Item α)} (hs : Strict l) {x : Item α} (hx : x ∈ l) : look x.id l = some x := by
  cases hf : look x.id l with
  | none =>
    unfold look at hf
    have := List.find?_eq_none.1 hf x hx
    simp at this
  | some y =>
    obtain ⟨hy, he⟩ := look_some hf
    rw [hs.unique hy hx he]

theorem look_of_path {i : Nat} {p : List Nat} {l : List (Item α)} (hs : Strict l) (h : HasPath (i :: p) l) :
    ∃ x, look i l = some x ∧ HasPath p x.sub := by
  obtain ⟨x, hx, rfl, hp⟩ := h
  exact ⟨x, look_of_mem hs hx, hp⟩

theorem look_cons (i : Nat) (x : Item α) (l : List (Item α)) :
    look i (x :: l) = if x.id = i then some x else look i l := by
  unfold look
  rw [List.find?_cons]
  by_cases h : x.id = i
  · simp [h]
  · have : (x.id == i) = false := by simpa using h
    simp [this, h]

theorem look_lt {i : Nat} {l : List (Item α)} (h : ∀ x ∈ l, i < x.id) : look i l = none := by
  unfold look
  apply List.find?_eq_none.2
  intro x hx
  have := h x hx
  simp
  omega

/-- The paths of `fs` are in `reqs`. -/
def Covers (reqs : List (Item α)) (fs : List (Item β)) : Prop := ∀ p, HasPath p fs → HasPath p reqs

theorem Covers.head {reqs : List (Item α)} {f : Item β} {fs : List (Item β)} (hs : Strict reqs)
    (h : Covers reqs (f :: fs)) : (∃ r, look f.id reqs = some r ∧ Covers r.sub f.sub) ∧ Covers reqs fs := by
  constructor
  · have h1 : HasPath [f.id] reqs := h _ ⟨f, List.mem_cons_self, rfl, trivial⟩
    obtain ⟨r, hr, -⟩ := look_of_path hs h1
    refine ⟨r, hr, ?_⟩
    intro p hp
    have h2 : HasPath (f.id :: p) reqs := h _ ⟨f, List.mem_cons_self, rfl, hp⟩
    obtain ⟨r', hr', hp'⟩ := look_of_path hs h2
    rw [hr] at hr'
    cases hr'
    exact hp'
  · intro p hp
    exact h p ((hasPath_cons p f fs).2 (.inr hp))

theorem covers_union {reqs : List (Item α)} {a b : List (Item β)} :
    Covers reqs (union a b) ↔ Covers reqs a ∧ Covers reqs b := by
  constructor
  · intro h
    exact ⟨fun p hp => h p ((hasPath_union a b p).2 (.inl hp)), fun p hp => h p ((hasPath_union a b p).2 (.inr hp))⟩
  · rintro ⟨h1, h2⟩ p hp
    rcases (hasPath_union a b p).1 hp with hp | hp
    · exact h1 p hp
    · exact h2 p hp

/-! ## Showing values -/

mutual

theorem forward_ok (k : Obj → Out Json) : ∀ (v : Val) (j : Json),
    forward k v = .ok j ↔ Shown (fun o j => k o = .ok j) v j
  | .null, j => by simp [forward, Shown, eq_comm]
  | .leaf s, j => by simp [forward, Shown, eq_comm]
  | .unexpected, j => by simp [forward, Shown]
  | .inaccessible v, j => by
    rw [forward, Shown]
    exact forward_ok k v j
  | .list vs, j => by
    rw [forward, Shown, map_ok]
    constructor
    · rintro ⟨js, h, rfl⟩
      exact ⟨js, rfl, (forwardList_ok k vs js).1 h⟩
    · rintro ⟨js, rfl, h⟩
      exact ⟨js, (forwardList_ok k vs js).2 h, rfl⟩
  | .map kvs, j => by
    rw [forward, Shown, map_ok]
    constructor
    · rintro ⟨js, h, rfl⟩
      exact ⟨js, rfl, (forwardMap_ok k kvs js).1 h⟩
    · rintro ⟨js, rfl, h⟩
      exact ⟨js, (forwardMap_ok k kvs js).2 h, rfl⟩
  | .object d fs, j => by rw [forward, Shown]

theorem forwardList_ok (k : Obj → Out Json) : ∀ (vs : List Val) (js : List Json),
    forwardList k vs = .ok js ↔ ShownList (fun o j => k o = .ok j) vs js
  | [], js => by simp [forwardList, ShownList, eq_comm]
  | v :: vs, js => by
    rw [forwardList, ShownList, bind_ok]
    constructor
    · rintro ⟨j, h, h2⟩
      obtain ⟨rest, h3, rfl⟩ := map_ok.1 h2
      exact ⟨j, rest, rfl, (forward_ok k v j).1 h, (forwardList_ok k vs rest).1 h3⟩
    · rintro ⟨j, rest, rfl, h, h3⟩
      exact ⟨j, (forward_ok k v j).2 h, map_ok.2 ⟨rest, (forwardList_ok k vs rest).2 h3, rfl⟩⟩

theorem forwardMap_ok (k : Obj → Out Json) : ∀ (kvs : List (String × Val)) (es : List (String × Json)),
    forwardMap k kvs = .ok es ↔ ShownMap (fun o j => k o = .ok j) kvs es
  | [], js => by simp [forwardMap, ShownMap, eq_comm]
  | kv :: kvs, js => by
    rw [forwardMap, ShownMap, bind_ok]
    constructor
    · rintro ⟨e, h, h2⟩
      obtain ⟨rest, h3, rfl⟩ := map_ok.1 h2
      obtain ⟨j, rfl, h4⟩ := (forwardEntry_ok k kv e).1 h
      exact ⟨j, rest, rfl, h4, (forwardMap_ok k kvs rest).1 h3⟩
    · rintro ⟨j, rest, rfl, h, h3⟩
      exact ⟨_, (forwardEntry_ok k kv (kv.1, j)).2 ⟨j, rfl, h⟩, map_ok.2 ⟨rest, (forwardMap_ok k kvs rest).2 h3, rfl⟩⟩

theorem forwardEntry_ok (k : Obj → Out Json) : ∀ (kv : String × Val) (e : String × Json),
    forwardEntry k kv = .ok e ↔ ∃ j, e = (kv.1, j) ∧ ShownEntry (fun o j => k o = .ok j) kv j
  | (key, v), e => by
    rw [forwardEntry, map_ok]
    constructor
    · rintro ⟨j, h, rfl⟩
      exact ⟨j, rfl, (by rw [ShownEntry]; exact (forward_ok k v j).1 h)⟩
    · rintro ⟨j, rfl, h⟩
      rw [ShownEntry] at h
      exact ⟨j, (forward_ok k v j).2 h, rfl⟩

end

mutual

/-- Only the objects can panic. -/
theorem forward_panic {k : Obj → Out Json} (hk : ∀ o, k o ≠ .panic) : ∀ v, forward k v ≠ .panic
  | .null => by simp [forward]
  | .leaf s => by simp [forward]
  | .unexpected => by simp [forward]
  | .inaccessible v => by
    rw [forward]
    exact forward_panic hk v
  | .list vs => by
    rw [forward]
    intro h
    exact forwardList_panic hk vs (map_panic.1 h)
  | .map kvs => by
    rw [forward]
    intro h
    exact forwardMap_panic hk kvs (map_panic.1 h)
  | .object d fs => by
    rw [forward]
    exact hk _

theorem forwardList_panic {k : Obj → Out Json} (hk : ∀ o, k o ≠ .panic) : ∀ vs, forwardList k vs ≠ .panic
  | [] => by simp [forwardList]
  | v :: vs => by
    rw [forwardList]
    intro h
    rcases bind_panic.1 h with h | ⟨j, -, h⟩
    · exact forward_panic hk v h
    · exact forwardList_panic hk vs (map_panic.1 h)

theorem forwardMap_panic {k : Obj → Out Json} (hk : ∀ o, k o ≠ .panic) : ∀ kvs, forwardMap k kvs ≠ .panic
  | [] => by simp [forwardMap]
  | kv :: kvs => by
    rw [forwardMap]
    intro h
    rcases bind_panic.1 h with h | ⟨j, -, h⟩
    · exact forwardEntry_panic hk kv h
    · exact forwardMap_panic hk kvs (map_panic.1 h)

theorem forwardEntry_panic {k : Obj → Out Json} (hk : ∀ o, k o ≠ .panic) : ∀ kv, forwardEntry k kv ≠ .panic
  | (key, v) => by
    rw [forwardEntry]
    intro h
    exact forward_panic hk v (map_panic.1 h)

end

mutual

theorem forward_congr {P : Obj → Obj → Prop} {k k' : Obj → Out Json} (h : ∀ o o', P o o' → k o = k' o') :
    ∀ v w, AgreeVal P v w → forward k v = forward k' w
  | .null, w, a => by
    rw [AgreeVal] at a
    rw [a, forward, forward]
  | .leaf s, w, a => by
    rw [AgreeVal] at a
    rw [a, forward, forward]
  | .unexpected, w, a => by
    rw [AgreeVal] at a
    rw [a, forward, forward]
  | .inaccessible v, w, a => by
    rw [AgreeVal] at a
    obtain ⟨w', rfl, a⟩ := a
    rw [forward, forward]
    exact forward_congr h v w' a
  | .list vs, w, a => by
    rw [AgreeVal] at a
    obtain ⟨w', rfl, a⟩ := a
    rw [forward, forward, forwardList_congr h vs w' a]
  | .map vs, w, a => by
    rw [AgreeVal] at a
    obtain ⟨w', rfl, a⟩ := a
    rw [forward, forward, forwardMap_congr h vs w' a]
  | .object d fs, w, a => by
    rw [AgreeVal] at a
    obtain ⟨d', fs', rfl, a⟩ := a
    rw [forward, forward, h _ _ a]

theorem forwardList_congr {P : Obj → Obj → Prop} {k k' : Obj → Out Json} (h : ∀ o o', P o o' → k o = k' o') :
    ∀ v w, AgreeList P v w → forwardList k v = forwardList k' w
  | [], w, a => by
    rw [AgreeList] at a
    rw [a, forwardList, forwardList]
  | v :: vs, w, a => by
    rw [AgreeList] at a
    obtain ⟨w', rest, rfl, a, b⟩ := a
    rw [forwardList, forwardList, forward_congr h v w' a, forwardList_congr h vs rest b]

theorem forwardMap_congr {P : Obj → Obj → Prop} {k k' : Obj → Out Json} (h : ∀ o o', P o o' → k o = k' o') :
    ∀ v w, AgreeMap P v w → forwardMap k v = forwardMap k' w
  | [], w, a => by
    rw [AgreeMap] at a
    rw [a, forwardMap, forwardMap]
  | kv :: kvs, w, a => by
    rw [AgreeMap] at a
    obtain ⟨w', rest, rfl, a, b⟩ := a
    rw [forwardMap, forwardMap, forwardEntry_congr h kv w' a, forwardMap_congr h kvs rest b]

theorem forwardEntry_congr {P : Obj → Obj → Prop} {k k' : Obj → Out Json} (h : ∀ o o', P o o' → k o = k' o') :
    ∀ kv w, AgreeEntry P kv w → forwardEntry k kv = forwardEntry k' (kv.1, w)
  | (key, v), w, a => by
    rw [AgreeEntry] at a
    rw [forwardEntry, forwardEntry, forward_congr h v w a]

end

mutual

theorem agreeVal_refl {P : Obj → Obj → Prop} (h : ∀ o, P o o) : ∀ v, AgreeVal P v v
  | .null => by rw [AgreeVal]
  | .leaf s => by rw [AgreeVal]
  | .unexpected => by rw [AgreeVal]
  | .inaccessible v => by
    rw [AgreeVal]
    exact ⟨v, rfl, agreeVal_refl h v⟩
  | .list vs => by
    rw [AgreeVal]
    exact ⟨vs, rfl, agreeList_refl h vs⟩
  | .map vs => by
    rw [AgreeVal]
    exact ⟨vs, rfl, agreeMap_refl h vs⟩
  | .object d fs => by
    rw [AgreeVal]
    exact ⟨d, fs, rfl, h _⟩

theorem agreeList_refl {P : Obj → Obj → Prop} (h : ∀ o, P o o) : ∀ v, AgreeList P v v
  | [] => by rw [AgreeList]
  | v :: vs => by
    rw [AgreeList]
    exact ⟨v, vs, rfl, agreeVal_refl h v, agreeList_refl h vs⟩

theorem agreeMap_refl {P : Obj → Obj → Prop} (h : ∀ o, P o o) : ∀ v, AgreeMap P v v
  | [] => by rw [AgreeMap]
  | kv :: kvs => by
    rw [AgreeMap]
    exact ⟨kv.2, kvs, rfl, agreeEntry_refl h kv, agreeMap_refl h kvs⟩

theorem agreeEntry_refl {P : Obj → Obj → Prop} (h : ∀ o, P o o) : ∀ kv, AgreeEntry P kv kv.2
  | (key, v) => by
    rw [AgreeEntry]
    exact agreeVal_refl h v

end

theorem forward_ext {k k' : Obj → Out Json} (h : ∀ o, k o = k' o) (v : Val) : forward k v = forward k' v := by
  have : k = k' := funext h
  rw [this]

/-! ## The view of the required fields -/

theorem skipped_iff (d : Data) (o : Obj) : skipped d o = true ↔ Foreign d o := by
  unfold skipped Foreign
  cases ho : o.definition with
  | none => simp
  | some id =>
    cases hp : d.parent with
    | object obj => simp
    | interface possible => simp

theorem requiredEntry_eq (i : Item Data) (o : Obj) :
    requiredEntry i o =
      match o.find i.data.key with
      | none => if skipped i.data o then .ok [] else .err
      | some v => (forward (required i.sub) v).map (fun j => [(i.data.name, j)]) := by
  cases i with
  | mk a d sub => rw [requiredEntry]; rfl

mutual

theorem requiredEntries_panic : ∀ (l : List (Item Data)) (o : Obj), requiredEntries l o ≠ .panic
  | [], o => by simp [requiredEntries]
  | i :: is, o => by
    rw [requiredEntries]
    intro h
    rcases bind_panic.1 h with h | ⟨j, -, h⟩
    · exact requiredEntry_panic i o h
    · exact requiredEntries_panic is o (map_panic.1 h)

theorem requiredEntry_panic : ∀ (i : Item Data) (o : Obj), requiredEntry i o ≠ .panic
  | .mk _ d sub, o => by
    rw [requiredEntry]
    split
    · split <;> simp
    · intro h
      exact forward_panic (fun o' h => requiredEntries_panic sub o' (map_panic.1 h)) _ (map_panic.1 h)

end

theorem required_panic (l : List (Item Data)) (o : Obj) : required l o ≠ .panic :=
  fun h => requiredEntries_panic l o (map_panic.1 h)

theorem representation_panic (extra : List (String × Json)) (l : List (Item Data)) (o : Obj) :
    representation extra l o ≠ .panic := by
  intro h0
  have h := map_panic.1 h0
  clear h0
  induction l with
  | nil => simp [representationEntries] at h
  | cons i is ih =>
    rw [representationEntries] at h
    rcases bind_panic.1 h with h | ⟨j, -, h⟩
    · unfold representationEntry at h
      split at h
      · cases h
      · exact forward_panic (required_panic _) _ (map_panic.1 h)
    · exact ih (map_panic.1 h)

theorem agreeOn_definition : ∀ (l : List (Item Data)) (o o' : Obj), AgreeOn l o o' → o.definition = o'.definition
  | [], o, o', h => by
    rw [AgreeOn] at h
    exact h
  | i :: is, o, o', h => by
    rw [AgreeOn] at h
    exact agreeOn_definition is o o' h.2

theorem agreeOn_mem : ∀ (l : List (Item Data)) (o o' : Obj), AgreeOn l o o' → ∀ i ∈ l, AgreeField i o o'
  | [], o, o', h, i, hi => by cases hi
  | x :: is, o, o', h, i, hi => by
    rw [AgreeOn] at h
    rcases List.mem_cons.1 hi with rfl | hi
    · exact h.1
    · exact agreeOn_mem is o o' h.2 i hi

theorem agreeField_eq (i : Item Data) (o o' : Obj) : AgreeField i o o' =
    match o.find i.data.key, o'.find i.data.key with
    | none, none => True
    | some v, some w => AgreeVal (AgreeOn i.sub) v w
    | _, _ => False := by
  cases i with
  | mk a d sub => rw [AgreeField]; rfl

mutual

theorem agreeOn_refl : ∀ (l : List (Item Data)) (o : Obj), AgreeOn l o o
  | [], o => by rw [AgreeOn]
  | i :: is, o => by
    rw [AgreeOn]
    exact ⟨agreeField_refl i o, agreeOn_refl is o⟩

theorem agreeField_refl : ∀ (i : Item Data) (o : Obj), AgreeField i o o
  | .mk _ d sub, o => by
    rw [AgreeField]
    cases o.find d.key with
    | none => trivial
    | some v => exact agreeVal_refl (agreeOn_refl sub) v

end

theorem skipped_congr {d : Data} {o o' : Obj} (h : o.definition = o'.definition) : skipped d o = skipped d o' := by
  unfold skipped
  rw [h]

mutual

theorem requiredEntries_congr : ∀ (l : List (Item Data)) (o o' : Obj), AgreeOn l o o' →
    requiredEntries l o = requiredEntries l o'
  | [], o, o', h => by rw [requiredEntries, requiredEntries]
  | i :: is, o, o', h => by
    have hd := agreeOn_definition _ _ _ h
    rw [AgreeOn] at h
    rw [requiredEntries, requiredEntries, requiredEntry_congr i o o' hd h.1, requiredEntries_congr is o o' h.2]

theorem requiredEntry_congr : ∀ (i : Item Data) (o o' : Obj), o.definition = o'.definition → AgreeField i o o' →
    requiredEntry i o = requiredEntry i o'
  | .mk _ d sub, o, o', hd, h => by
    rw [AgreeField] at h
    rw [requiredEntry, requiredEntry]
    cases h1 : o.find d.key with
    | none =>
      cases h2 : o'.find d.key with
      | none => simp only [skipped_congr hd]
      | some w => simp only [h1, h2] at h
    | some v =>
      cases h2 : o'.find d.key with
      | none => simp only [h1, h2] at h
      | some w =>
        simp only [h1, h2] at h
        simp only
        rw [forward_congr (fun o o' ho => by rw [requiredEntries_congr sub o o' ho]) v w h]

end

/-! ## The view of a field set -/

theorem seek_eq {l : List (Item Data)} (hs : Strict l) {i : Nat} {r : Item Data} (h : look i l = some r) :
    ∃ rest, seek i l = some (r, rest) ∧ Strict rest ∧ ∀ j, i < j → look j rest = look j l := by
  induction l with
  | nil => cases h
  | cons x t ih =>
    obtain ⟨-, hlt, ht⟩ := hs.head
    rw [look_cons] at h
    rw [seek]
    split at h
    · rename_i he
      cases h
      rw [if_neg (by omega), if_pos he.symm]
      refine ⟨t, rfl, ht, ?_⟩
      intro j hj
      rw [look_cons, if_neg (by omega)]
    · rename_i hne
      obtain ⟨hm, hid⟩ := look_some h
      have := hlt r hm
      rw [if_neg (by omega), if_neg (by omega)]
      obtain ⟨rest, h1, h2, h3⟩ := ih ht h
      refine ⟨rest, h1, h2, ?_⟩
      intro j hj
      rw [h3 j hj, look_cons, if_neg (by omega)]

theorem fieldSetEntry_eq (f : Item Unit) (r : Item Data) (o : Obj) :
    fieldSetEntry f r o =
      match o.find r.data.key with
      | none => if skipped r.data o then .ok [] else .err
      | some v => (forward (fieldSet f.sub r.sub) v).map (fun j => [(r.data.name, j)]) := by
  cases f with
  | mk a d sub => rw [fieldSetEntry]; rfl

theorem restrictField_some (f : Item Unit) (r : Item Data) :
    restrictField f (some r) = [.mk r.id r.data (restrict f.sub r.sub)] := by
  cases f with
  | mk a d sub => rw [restrictField]; rfl

theorem requiredEntries_append (a b : List (Item Data)) (o : Obj) :
    requiredEntries (a ++ b) o = (requiredEntries a o).bind fun x => (requiredEntries b o).map (x ++ ·) := by
  induction a with
  | nil =>
    rw [requiredEntries]
    simp only [List.nil_append, Out.bind]
    cases requiredEntries b o <;> simp [Out.map]
  | cons i is ih =>
    rw [List.cons_append, requiredEntries, requiredEntries, ih]
    cases requiredEntry i o with
    | ok e =>
      simp only [Out.bind]
      cases requiredEntries is o with
      | ok x =>
        simp only [Out.map]
        cases requiredEntries b o <;> simp [Out.map]
      | err => rfl
      | panic => rfl
    | err => rfl
    | panic => rfl

/-- What the join needs of the requirements that are left: they hold, for the fields to come, what all
of them hold. -/
def Ahead (rem reqs : List (Item Data)) (fs : List (Item Unit)) : Prop := ∀ f ∈ fs, look f.id rem = look f.id reqs

mutual

theorem fieldSetEntries_eq : ∀ (fs : List (Item Unit)) (rem reqs : List (Item Data)) (o : Obj), Strict fs → Strict rem →
    Strict reqs → Ahead rem reqs fs → Covers reqs fs → fieldSetEntries fs rem o = requiredEntries (restrict fs reqs) o
  | [], rem, reqs, o, _, _, _, _, _ => by rw [fieldSetEntries, restrict, requiredEntries]
  | f :: fs, rem, reqs, o, hf, hrem, hreqs, ha, hc => by
    obtain ⟨⟨r, hr, hcr⟩, hc'⟩ := hc.head hreqs
    obtain ⟨hf1, hf2, hf3⟩ := hf.head
    have hr' : look f.id rem = some r := by rw [ha f List.mem_cons_self, hr]
    obtain ⟨rest, h1, h2, h3⟩ := seek_eq hrem hr'
    rw [fieldSetEntries, h1]
    have hreq : restrict (f :: fs) reqs = [.mk r.id r.data (restrict f.sub r.sub)] ++ restrict fs reqs := by
      rw [restrict]
      have : reqs.find? (fun r => r.id == f.id) = some r := hr
      rw [this, restrictField_some]
    rw [hreq, requiredEntries_append]
    simp only
    have he : requiredEntries [.mk r.id r.data (restrict f.sub r.sub)] o = fieldSetEntry f r o := by
      rw [requiredEntries, requiredEntries, fieldSetEntry_field f r o hf1 (hreqs.mem (look_some hr).1) hcr]
      cases requiredEntry (.mk r.id r.data (restrict f.sub r.sub)) o <;> simp [Out.bind, Out.map]
    rw [he, fieldSetEntries_eq fs rest reqs o hf3 h2 hreqs ?_ hc']
    intro g hg
    rw [h3 g.id (hf2 g hg), ha g (List.mem_cons_of_mem _ hg)]

theorem fieldSetEntry_field : ∀ (f : Item Unit) (r : Item Data) (o : Obj), Strict f.sub → Strict r.sub →
    Covers r.sub f.sub → fieldSetEntry f r o = requiredEntry (.mk r.id r.data (restrict f.sub r.sub)) o
  | .mk a b sub, r, o, hf, hr, hc => by
    rw [fieldSetEntry, requiredEntry]
    split
    · rfl
    · congr 1
      refine forward_ext ?_ _
      intro o'
      show (fieldSetEntries sub r.sub o').map Json.obj = (requiredEntries (restrict sub r.sub) o').map Json.obj
      rw [fieldSetEntries_eq sub r.sub r.sub o' hf hr hr (fun _ _ => rfl) hc]

end

end Verif.Views
