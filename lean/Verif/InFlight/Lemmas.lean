import Verif.InFlight.Model

namespace Verif.InFlight

/-! ## Keys -/

theorem addHeaders_spec (hs : List (Bytes × Bytes)) (st : Bytes × List (Nat × Nat)) (sent : List Bytes)
    (hst : st.2.map (fun s => slice st.1 s.1 s.2) = sent) (hb : ∀ s ∈ st.2, s.2 ≤ st.1.length)
    (hl : st.1.length + (hs.flatMap (fun h => h.1 ++ h.2)).length < 2 ^ 32) :
    (addHeaders hs st).1 = st.1 ++ hs.flatMap (fun h => h.1 ++ h.2) ∧
    (addHeaders hs st).2.map (fun s => slice (addHeaders hs st).1 s.1 s.2) = sent ++ hs.map (fun h => h.1 ++ h.2) ∧
    ∀ s ∈ (addHeaders hs st).2, s.2 ≤ (addHeaders hs st).1.length := by
  induction hs generalizing st sent with
  | nil => simp [addHeaders]; exact ⟨hst, fun a b h => hb (a, b) h⟩
  | cons x hs ih =>
    obtain ⟨n, v⟩ := x
    simp only [addHeaders]
    simp only [List.flatMap_cons, List.length_append] at hl
    have e1 : u32 st.1.length = st.1.length := Nat.mod_eq_of_lt (by omega)
    have e2 : u32 (st.1 ++ n ++ v).length = (st.1 ++ n ++ v).length :=
      Nat.mod_eq_of_lt (by simp only [List.length_append]; omega)
    obtain ⟨h1, h2, h3⟩ := ih (st.1 ++ n ++ v, st.2 ++ [(u32 st.1.length, u32 (st.1 ++ n ++ v).length)])
      (sent ++ [n ++ v]) (by
        simp only [List.map_append, List.map_cons, List.map_nil, e1, e2]
        congr 1
        · rw [← hst]
          apply List.map_congr_left
          intro s hs
          simp only [slice, List.append_assoc]
          rw [List.take_append_of_le_length (hb s hs)]
        · simp only [slice, List.append_assoc]
          rw [List.take_length, List.drop_left]) (by
        intro s hs
        simp only [List.mem_append, List.mem_singleton] at hs
        rcases hs with hs | rfl
        · have := hb s hs
          simp only [List.length_append]; omega
        · simp only [e2]; exact Nat.le_refl _) (by simp only [List.length_append]; omega)
    refine ⟨by rw [h1]; simp, by rw [h2]; simp, h3⟩

/-- The bytes of the headers and of the URL. -/
def size (r : Request) : Nat := (r.headers.flatMap (fun h => h.1 ++ h.2)).length + r.url.length

def joined (r : Request) : List Bytes := r.headers.map (fun h => h.1 ++ h.2)

def sorted (l : List Bytes) : List Bytes := l.mergeSort (fun a b => decide (a ≤ b))

theorem sorted_eq_iff (a b : List Bytes) : sorted a = sorted b ↔ a.Perm b := by
  constructor
  · intro h
    exact (List.mergeSort_perm a _).symm.trans ((List.Perm.of_eq h).trans (List.mergeSort_perm b _))
  · intro h
    have hp : ∀ l, List.Pairwise (fun a b : Bytes => decide (a ≤ b) = true) (sorted l) := fun l =>
      List.pairwise_mergeSort (fun a b c h1 h2 => by simp at *; exact List.le_trans h1 h2)
        (fun a b => by simp; exact List.le_total a b) l
    refine List.Perm.eq_of_pairwise (fun x y _ _ h1 h2 => List.le_antisymm (by simpa using h1) (by simpa using h2))
      (hp a) (hp b) ?_
    exact (List.mergeSort_perm a _).trans (h.trans (List.mergeSort_perm b _).symm)

/-- What a key stands for. -/
theorem keyOf_spec (r : Request) (hs : size r < 2 ^ 32) :
    (keyOf r).subgraph = r.subgraph ∧ (keyOf r).body = r.body ∧
    (keyOf r).urlStart = (r.headers.flatMap (fun h => h.1 ++ h.2)).length ∧
    (keyOf r).methodStart = size r ∧
    (keyOf r).parts = r.headers.flatMap (fun h => h.1 ++ h.2) ++ r.url ++ r.method ∧
    (keyOf r).parts.drop (keyOf r).methodStart = r.method ∧
    slice (keyOf r).parts (keyOf r).urlStart (keyOf r).methodStart = r.url ∧
    (keyOf r).sections.map (fun s => slice (keyOf r).parts s.1 s.2) = sorted (joined r) := by
  unfold size at *
  obtain ⟨h1, h2, h3⟩ := addHeaders_spec r.headers ([], []) [] (by simp) (by simp) (by simp at *; omega)
  simp only [List.nil_append] at h1 h2
  have hu : (keyOf r).urlStart = (r.headers.flatMap (fun h => h.1 ++ h.2)).length := by
    simp only [keyOf, h1]; exact Nat.mod_eq_of_lt (by omega)
  have hm : (keyOf r).methodStart = (r.headers.flatMap (fun h => h.1 ++ h.2)).length + r.url.length := by
    simp only [keyOf, h1]; rw [List.length_append]; exact Nat.mod_eq_of_lt (by omega)
  have hp : (keyOf r).parts = r.headers.flatMap (fun h => h.1 ++ h.2) ++ r.url ++ r.method := by
    simp only [keyOf, h1]
  refine ⟨rfl, rfl, hu, hm, hp, ?_, ?_, ?_⟩
  · rw [hp, hm, ← List.length_append, List.drop_left]
  · rw [hp, hm, hu, slice, ← List.length_append, List.take_left, List.drop_left]
  · rw [joined, ← h2, sorted, ← List.map_mergeSort (r := fun a b => decide
      (slice (addHeaders r.headers ([], [])).1 a.1 a.2 ≤ slice (addHeaders r.headers ([], [])).1 b.1 b.2))
      (fun a _ b _ => rfl)]
    simp only [keyOf]
    apply List.map_congr_left
    intro s hs
    rw [(List.mergeSort_perm _ _).mem_iff] at hs
    simp only [slice, List.append_assoc]
    rw [List.take_append_of_le_length (h3 s hs)]

theorem zip_all_eq {α β : Type} [BEq β] [LawfulBEq β] (f g : α → β) (l l' : List α) (h : l.length = l'.length) :
    (l.zip l').all (fun s => f s.1 == g s.2) = true ↔ l.map f = l'.map g := by
  induction l generalizing l' with
  | nil => cases l' <;> simp_all
  | cons a l ih =>
    cases l' with
    | nil => simp at h
    | cons b l' =>
      simp only [List.length_cons, Nat.add_right_cancel_iff] at h
      simp only [List.zip_cons_cons, List.all_cons, Bool.and_eq_true, beq_iff_eq, List.map_cons, List.cons.injEq,
        ih l' h]

theorem sorted_length (l : List Bytes) : (sorted l).length = l.length := (List.mergeSort_perm l _).length_eq

/-! ## Histories -/

section
variable {K R : Type} [DecidableEq K]

theorem run_append (h : List (Event K R)) (e : Event K R) : run (h ++ [e]) = step (run h) e := by simp [run]

/-- Caller `c` asked for `k` (merging or not) at some point of `h`. -/
def Started (h : List (Event K R)) (c : Nat) (k : K) (m : Bool) : Prop :=
  ∃ h1 h2, h = h1 ++ .start c k m :: h2 ∧ (run h1).status c = .idle

/-- At the end of `h`, the request of `l` is in flight. -/
def Fetching (h : List (Event K R)) (l : Nat) (k : K) (m : Bool) : Prop :=
  Started h l k m ∧ if m then ∃ x, (run h).status l = .running x else (run h).status l = .direct

/-- The answer `r` that caller `c` has at the end of `h` was given to some `l` by the subgraph after `c` asked, and
`l` asked for the same; if `c` does not take part in merging, `l` is `c`. -/
def Answered (h : List (Event K R)) (c : Nat) (r : R) : Prop :=
  ∃ k m l h1 h2 h3, h = h1 ++ .start c k m :: (h2 ++ .respond l r :: h3) ∧ (run h1).status c = .idle ∧
    Fetching (h1 ++ .start c k m :: h2) l k m ∧ (m = false → l = c)

theorem Started.mono {h : List (Event K R)} {c k m} (hs : Started h c k m) (e) : Started (h ++ [e]) c k m := by
  obtain ⟨h1, h2, rfl, hi⟩ := hs
  exact ⟨h1, h2 ++ [e], by simp, hi⟩

theorem Answered.mono {h : List (Event K R)} {c} {r : R} (hs : Answered h c r) (e) : Answered (h ++ [e]) c r := by
  obtain ⟨k, m, l, h1, h2, h3, rfl, hi, hf⟩ := hs
  exact ⟨k, m, l, h1, h2, h3 ++ [e], by simp, hi, hf⟩

theorem Started.answered {h : List (Event K R)} {c k m} {r : R} {l} (hs : Started h c k m) (hf : Fetching h l k m)
    (hm : m = false → l = c) : Answered (h ++ [.respond l r]) c r := by
  obtain ⟨h1, h2, rfl, hi⟩ := hs
  exact ⟨k, m, l, h1, h2, [], by simp, hi, hf, hm⟩

def cellOf : Status R → Option Nat
  | .waiting x => some x
  | .running x => some x
  | .completing x _ => some x
  | _ => none

structure Inv (ck : Nat → Option K) (h : List (Event K R)) (s : State K R) : Prop where
  mapped : ∀ k x, s.inflight k = some x → x < s.nextCell ∧ ck x = some k ∧ (s.cells x).value = none ∧
    ∀ c r, s.status c ≠ .completing x r
  lt : ∀ c x, cellOf (s.status c) = some x → x < s.nextCell ∧ s.key c = ck x
  running : ∀ c x, s.status c = .running x → s.cells x = ⟨none, some c⟩ ∧ ∃ k, s.key c = some k ∧ s.inflight k = some x
  completing : ∀ c x r, s.status c = .completing x r → s.cells x = ⟨none, some c⟩
  holder : ∀ c x, x < s.nextCell → (s.cells x).holder = some c →
    s.status c = .running x ∨ ∃ r, s.status c = .completing x r
  merging : ∀ c x, cellOf (s.status c) = some x → ∃ k, s.key c = some k ∧ Started h c k true
  direct : ∀ c, s.status c = .direct → ∃ k, s.key c = some k ∧ Started h c k false
  value : ∀ c x r, cellOf (s.status c) = some x → (s.cells x).value = some r → Answered h c r
  pending : ∀ c x l r, cellOf (s.status c) = some x → s.status l = .completing x r → Answered h c r
  done : ∀ c r, s.status c = .done r → Answered h c r
  ok : ∀ c, s.status c ≠ .panicked
  shared : ∀ c x, cellOf (s.status c) = some x → (s.cells x).value = none → (s.cells x).holder = none →
    ∃ k, s.key c = some k ∧ s.inflight k = some x

theorem Inv.mono {ck : Nat → Option K} {h : List (Event K R)} {s : State K R} (i : Inv ck h s) (e) :
    Inv ck (h ++ [e]) s where
  mapped := i.mapped
  lt := i.lt
  running := i.running
  completing := i.completing
  holder := i.holder
  merging c x h := by obtain ⟨k, a, b⟩ := i.merging c x h; exact ⟨k, a, b.mono e⟩
  direct c h := by obtain ⟨k, a, b⟩ := i.direct c h; exact ⟨k, a, b.mono e⟩
  value c x r h h' := (i.value c x r h h').mono e
  pending c x l r h h' := (i.pending c x l r h h').mono e
  done c r h := (i.done c r h).mono e
  ok := i.ok
  shared := i.shared

set_option maxHeartbeats 4000000 in
theorem inv_step {ck : Nat → Option K} {h : List (Event K R)} (i : Inv ck h (run h)) (e : Event K R) :
    ∃ ck : Nat → Option K, Inv ck (h ++ [e]) (run (h ++ [e])) := by
  have i' := i.mono e
  have hrun := run_append h e
  rw [hrun]
  have hst : ∀ c k m, e = .start c k m → (run h).status c = .idle → Started (h ++ [e]) c k m := by
    rintro c k m rfl hi
    exact ⟨h, [], by simp, hi⟩
  have hans : ∀ l r, e = .respond l r → ∀ c k m, Started h c k m → Started h l k m →
      (m = true → ∃ x, (run h).status l = .running x) → (m = false → (run h).status l = .direct) →
      (m = false → l = c) → Answered (h ++ [e]) c r := by
    rintro l r rfl c k m h1 h2 h3 h4 h5
    refine h1.answered ⟨h2, ?_⟩ h5
    cases m
    · exact h4 rfl
    · exact h3 rfl
  generalize run h = s at *
  obtain ⟨a1, a2, a3, a4, a5, a6, a7, a8, a9, a10, a11, a12⟩ := i'
  have a6' := i.merging
  have a7' := i.direct
  clear i hrun
  cases e with
  | start c k m =>
    simp only [step]
    split
    · rename_i hidle
      have hst := hst c k m rfl hidle
      split
      · rename_i hm
        subst hm
        split
        · rename_i x hx
          refine ⟨ck, ?_⟩
          constructor <;> grind [upd, cellOf]
        · rename_i hx
          refine ⟨upd ck s.nextCell (some k), ?_⟩
          constructor <;> grind [upd, cellOf]
      · refine ⟨ck, ?_⟩
        constructor <;> grind [upd, cellOf]
    · exact ⟨ck, by constructor <;> assumption⟩
  | acquire c =>
    refine ⟨ck, ?_⟩
    simp only [step]
    split
    · rename_i x hw
      split
      · rename_i hcell
        have hmap : ∃ k, s.key c = some k ∧ s.inflight k = some x := by grind [cellOf]
        constructor <;> grind [upd, cellOf]
      · constructor <;> assumption
    · constructor <;> assumption
  | respond c r =>
    refine ⟨ck, ?_⟩
    have hans := hans c r rfl
    simp only [step]
    split
    · constructor <;> grind [upd, cellOf]
    · split
      · constructor <;> grind [upd, cellOf]
      · constructor <;> assumption
    · constructor <;> assumption
  | complete c =>
    refine ⟨ck, ?_⟩
    simp only [step, unwrapCell]
    split
    · constructor <;> grind [upd, cellOf]
    · constructor <;> assumption
  | wake c =>
    refine ⟨ck, ?_⟩
    simp only [step]
    split
    · split
      · constructor <;> grind [upd, cellOf, unwrapCell]
      · constructor <;> assumption
    · constructor <;> assumption
  | cancel c =>
    refine ⟨ck, ?_⟩
    simp only [step]
    split
    · constructor <;> grind [upd, cellOf]
    · constructor <;> grind [upd, cellOf]
    · constructor <;> grind [upd, cellOf]
    · constructor <;> assumption

theorem inv_run (h : List (Event K R)) : ∃ ck : Nat → Option K, Inv ck h (run h) := by
  have key : ∀ (h₂ h₁ : List (Event K R)), (∃ ck : Nat → Option K, Inv ck h₁ (run h₁)) →
      ∃ ck : Nat → Option K, Inv ck (h₁ ++ h₂) (run (h₁ ++ h₂)) := by
    intro h₂
    induction h₂ with
    | nil => intro h₁ hi; simpa using hi
    | cons e h₂ ih =>
      rintro h₁ ⟨ck, hi⟩
      have := ih (h₁ ++ [e]) (inv_step hi e)
      simpa using this
  exact key h [] ⟨fun _ => none, by constructor <;> simp [run, init, cellOf]⟩

end
end Verif.InFlight
