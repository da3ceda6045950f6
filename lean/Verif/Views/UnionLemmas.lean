import Verif.Views.Lemmas

/-!
# Views of the response: lemmas about what a view of a union shows
-/

namespace Verif.Views

variable {α : Type}

/-- The item of a union for an item of each side. -/
def both (a b : Item α) : Item α := .mk a.id a.data (if a.sub.isEmpty then b.sub else union a.sub b.sub)

/-- What is in a union. -/
def either (a b : Option (Item α)) : Option (Item α) :=
  match a, b with
  | some a, some b => some (both a b)
  | some a, none => some a
  | none, b => b

theorem look_nil (i : Nat) : look i ([] : List (Item α)) = none := rfl

theorem look_merge {l : Item α} {rest : List (Item α)} {next : List (Item α) → List (Item α)} (i : Nat)
    (hl : ∀ j ∈ rest, l.id < j.id) (hn : ∀ r, Strict r → look i (next r) = either (look i rest) (look i r))
    (right : List (Item α)) (hr : Strict right) :
    look i (mergeItem l rest (union l.sub) next right) = either (look i (l :: rest)) (look i right) := by
  induction right with
  | nil =>
    rw [mergeItem, look_nil]
    cases look i (l :: rest) <;> rfl
  | cons r rs ih =>
    obtain ⟨h1, h2, h3⟩ := hr.head
    rw [mergeItem]
    split
    · rename_i hlt
      rw [look_cons, look_cons i l rest]
      by_cases he : l.id = i
      · rw [if_pos he, if_pos he]
        have : look i (r :: rs) = none := by
          apply look_lt
          intro x hx
          rcases List.mem_cons.1 hx with rfl | hx
          · omega
          · have := h2 x hx
            omega
        rw [this]
        rfl
      · rw [if_neg he, if_neg he]
        exact hn _ hr
    · split
      · rename_i hnlt hlt
        rw [look_cons, look_cons i r rs]
        by_cases he : r.id = i
        · rw [if_pos he, if_pos he]
          have : look i (l :: rest) = none := by
            apply look_lt
            intro x hx
            rcases List.mem_cons.1 hx with rfl | hx
            · omega
            · have := hl x hx
              omega
          rw [this]
          rfl
        · rw [if_neg he, if_neg he]
          exact ih h3
      · rename_i hnlt hnlt2
        have hid : r.id = l.id := by omega
        rw [look_cons, look_cons i r rs, look_cons i l rest, hid]
        show (if l.id = i then _ else _) = _
        by_cases he : l.id = i
        · rw [if_pos he, if_pos he, if_pos he]
          rfl
        · rw [if_neg he, if_neg he, if_neg he]
          exact hn _ h3

theorem look_union (i : Nat) : ∀ (l r : List (Item α)), Strict l → Strict r →
    look i (union l r) = either (look i l) (look i r)
  | [], r, _, _ => by
    rw [union, look_nil]
    rfl
  | l :: ls, r, hl, hr => by
    obtain ⟨h1, h2, h3⟩ := hl.head
    rw [union]
    have : unionSub l = union l.sub := funext (unionSub_eq l)
    rw [this]
    exact look_merge i h2 (fun r hr => look_union i ls r h3 hr) r hr

/-! ## What the views show does not depend on the nodes -/

inductive SameView : List (Item Data) → List (Item Data) → Prop where
  | nil : SameView [] []
  | cons (a b : Item Data) (as bs : List (Item Data)) (d : SameData a.data b.data) (s : SameView a.sub b.sub)
    (t : SameView as bs) : SameView (a :: as) (b :: bs)

theorem skipped_same {a b : Data} (h : SameData a b) (o : Obj) : skipped a o = skipped b o := by
  unfold skipped
  rw [h.2.2]

theorem requiredEntries_same {a b : List (Item Data)} (h : SameView a b) : ∀ o, requiredEntries a o = requiredEntries b o := by
  induction h with
  | nil => intro o; rfl
  | cons a b as bs d s t ih1 ih2 =>
    intro o
    rw [requiredEntries, requiredEntries, ih2 o, requiredEntry_eq, requiredEntry_eq, d.1, d.2.1, skipped_same d o]
    have : required a.sub = required b.sub := by
      funext o
      unfold required
      rw [ih1 o]
    rw [this]

theorem sameView_refl : ∀ (k : Nat) (l : List (Item Data)), sizeOf l ≤ k → SameView l l
  | 0, l, h => by
    cases l with
    | nil => exact .nil
    | cons x t => simp at h
  | k + 1, l, h => by
    cases l with
    | nil => exact .nil
    | cons x t =>
      refine .cons x x t t ⟨rfl, rfl, rfl⟩ (sameView_refl k _ ?_) (sameView_refl k _ ?_)
      · cases x with
        | mk a b c =>
          show sizeOf c ≤ k
          simp at h
          omega
      · simp at h
        omega

theorem dataAt_one (i : Nat) (l : List (Item α)) : dataAt [i] l = (look i l).map (·.data) := rfl

theorem dataAt_cons (i : Nat) {p : List Nat} (hp : p ≠ []) (l : List (Item α)) :
    dataAt (i :: p) l = (look i l).bind (fun it => dataAt p it.sub) := by
  cases p with
  | nil => exact absurd rfl hp
  | cons j p => rfl

theorem Consistent.sub {a b : List (Item Data)} (h : Consistent a b) {i : Nat} {x y : Item Data} (hx : look i a = some x)
    (hy : look i b = some y) : SameData x.data y.data ∧ Consistent x.sub y.sub := by
  constructor
  · refine h [i] _ _ ?_ ?_
    · rw [dataAt_one, hx]
      rfl
    · rw [dataAt_one, hy]
      rfl
  · intro p d e h1 h2
    have hp : p ≠ [] := by
      rintro rfl
      cases h1
    refine h (i :: p) d e ?_ ?_
    · rw [dataAt_cons i hp, hx]
      exact h1
    · rw [dataAt_cons i hp, hy]
      exact h2

theorem covers_nil {fs : List (Item Unit)} (h : Covers ([] : List (Item Data)) fs) : fs = [] := by
  cases fs with
  | nil => rfl
  | cons f fs =>
    have := h [f.id] ⟨f, List.mem_cons_self, rfl, trivial⟩
    rw [hasPath_nil] at this
    cases this

theorem restrict_cons (f : Item Unit) (fs : List (Item Unit)) {reqs : List (Item Data)} {r : Item Data}
    (h : look f.id reqs = some r) :
    restrict (f :: fs) reqs = .mk r.id r.data (restrict f.sub r.sub) :: restrict fs reqs := by
  rw [restrict]
  have : reqs.find? (fun r => r.id == f.id) = some r := h
  rw [this, restrictField_some]
  rfl

theorem restrict_nil (reqs : List (Item Data)) : restrict [] reqs = [] := by rw [restrict]

theorem fsize (f : Item Unit) (fs : List (Item Unit)) : sizeOf f.sub < sizeOf (f :: fs) ∧ sizeOf fs < sizeOf (f :: fs) := by
  cases f with
  | mk a b c =>
    show sizeOf c < _ ∧ _
    simp
    omega

theorem restrict_union_left : ∀ (k : Nat) (fs : List (Item Unit)) (a b : List (Item Data)), sizeOf fs ≤ k → Strict a →
    Strict b → Covers a fs → SameView (restrict fs (union a b)) (restrict fs a)
  | k, [], a, b, _, _, _, _ => by
    rw [restrict_nil, restrict_nil]
    exact .nil
  | 0, f :: fs, a, b, h, _, _, _ => by simp at h
  | k + 1, f :: fs, a, b, h, ha, hb, hc => by
    obtain ⟨⟨x, hx, hcx⟩, hc'⟩ := hc.head ha
    have hu := look_union f.id a b ha hb
    have hsz := fsize f fs
    have hxs := ha.mem (look_some hx).1
    rw [hx] at hu
    rw [restrict_cons f fs hx]
    have hrest := restrict_union_left k fs a b (by omega) ha hb hc'
    cases hy : look f.id b with
    | none =>
      rw [hy] at hu
      rw [restrict_cons f fs hu]
      exact .cons _ _ _ _ ⟨rfl, rfl, rfl⟩ (sameView_refl _ _ (Nat.le_refl _)) hrest
    | some y =>
      rw [hy] at hu
      rw [restrict_cons f fs hu]
      refine .cons _ _ _ _ ⟨rfl, rfl, rfl⟩ ?_ hrest
      show SameView (restrict f.sub (if x.sub.isEmpty then y.sub else union x.sub y.sub)) (restrict f.sub x.sub)
      split
      · rename_i he
        rw [List.isEmpty_iff.1 he] at hcx
        rw [covers_nil hcx, restrict_nil, restrict_nil]
        exact .nil
      · exact restrict_union_left k f.sub x.sub y.sub (by omega) hxs (hb.mem (look_some hy).1) hcx

theorem restrict_union_right : ∀ (k : Nat) (fs : List (Item Unit)) (a b : List (Item Data)), sizeOf fs ≤ k → Strict a →
    Strict b → Covers b fs → Consistent a b → SameView (restrict fs (union a b)) (restrict fs b)
  | k, [], a, b, _, _, _, _, _ => by
    rw [restrict_nil, restrict_nil]
    exact .nil
  | 0, f :: fs, a, b, h, _, _, _, _ => by simp at h
  | k + 1, f :: fs, a, b, h, ha, hb, hc, hcon => by
    obtain ⟨⟨y, hy, hcy⟩, hc'⟩ := hc.head hb
    have hu := look_union f.id a b ha hb
    have hsz := fsize f fs
    have hys := hb.mem (look_some hy).1
    rw [hy] at hu
    rw [restrict_cons f fs hy]
    have hrest := restrict_union_right k fs a b (by omega) ha hb hc' hcon
    cases hx : look f.id a with
    | none =>
      rw [hx] at hu
      rw [restrict_cons f fs hu]
      exact .cons _ _ _ _ ⟨rfl, rfl, rfl⟩ (sameView_refl _ _ (Nat.le_refl _)) hrest
    | some x =>
      rw [hx] at hu
      rw [restrict_cons f fs hu]
      obtain ⟨h1, h2⟩ := hcon.sub hx hy
      refine .cons _ _ _ _ h1 ?_ hrest
      show SameView (restrict f.sub (if x.sub.isEmpty then y.sub else union x.sub y.sub)) (restrict f.sub y.sub)
      split
      · exact sameView_refl _ _ (Nat.le_refl _)
      · exact restrict_union_right k f.sub x.sub y.sub (by omega) (ha.mem (look_some hx).1) hys hcy h2

end Verif.Views
