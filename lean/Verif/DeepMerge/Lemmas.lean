import Verif.DeepMerge.Spec
import Verif.DefaultMerge.Lemmas
import Verif.OpText.SortLemmas
/-!
# Lemmas about merging
-/
namespace Verif.DeepMerge

open Verif.DefaultMerge (Key)
open Verif.NullProp
open Verif.OpChecks (sortBy sortBy_perm)

variable {ps ps' qs : List Data} {vs ws : List Val} {ts us : List Tree} {L L' M : List Id}

/-- Only objects among `L` differ. -/
structure Same (ps ps' : List Data) (L : List Id) : Prop where
  obj : ∀ id, id ∉ L → getObj ps' id = getObj ps id
  list : ∀ id, getList ps' id = getList ps id
  inacc : ∀ id, getInacc ps' id = getInacc ps id

theorem Same.refl : Same ps ps L := ⟨fun _ _ => rfl, fun _ => rfl, fun _ => rfl⟩

theorem Same.trans (h : Same ps ps' L) (h' : Same ps' qs L) : Same ps qs L :=
  ⟨fun id hi => (h'.obj id hi).trans (h.obj id hi), fun id => (h'.list id).trans (h.list id), fun id => (h'.inacc id).trans (h.inacc id)⟩

theorem Same.mono (h : Same ps ps' L) (hs : ∀ id ∈ L, id ∈ M) : Same ps ps' M :=
  ⟨fun id hi => h.obj id fun hc => hi (hs id hc), h.list, h.inacc⟩

theorem Reps.frame (h : Reps ps vs ts L) (hs : Same ps ps' M) (hd : ∀ id ∈ L, id ∉ M) : Reps ps' vs ts L := by
  induction h with
  | nil => exact .nil
  | null _ ih => exact .null (ih hd)
  | scalar hv _ ih => exact .scalar hv (ih hd)
  | list h1 _ _ ih1 ih2 =>
    exact .list ((hs.list _).trans h1) (ih1 fun id hi => hd id (by simp [hi])) (ih2 fun id hi => hd id (by simp [hi]))
  | obj h1 h2 _ _ ih1 ih2 =>
    exact .obj ((hs.obj _ (hd _ (by simp))).trans h1) h2 (ih1 fun id hi => hd id (by simp [hi])) (ih2 fun id hi => hd id (by simp [hi]))
  | hidden h1 _ _ ih1 ih2 =>
    exact .hidden ((hs.inacc _).trans h1) (ih1 fun id hi => hd id (by simp [hi])) (ih2 fun id hi => hd id (by simp [hi]))

theorem Reps.uncons {v : Val} {t : Tree} (h : Reps ps (v :: vs) (t :: ts) L) : ∃ L1 L2, L = L1 ++ L2 ∧ Reps ps [v] [t] L1 ∧ Reps ps vs ts L2 := by
  cases h with
  | null h => exact ⟨[], _, rfl, .null .nil, h⟩
  | scalar hv h => exact ⟨[], _, rfl, .scalar hv .nil, h⟩
  | @list id ws _ us _ L L' h1 h2 h3 => exact ⟨L ++ [], L', by simp, .list h1 h2 .nil, h3⟩
  | @obj id fs _ _ L L' h1 h2 h3 h4 => exact ⟨id :: (L ++ []), L', by simp, .obj h1 h2 h3 .nil, h4⟩
  | @hidden id w _ u _ L L' h1 h2 h3 => exact ⟨L ++ [], L', by simp, .hidden h1 h2 .nil, h3⟩

theorem Reps.cons {v : Val} {t : Tree} (h : Reps ps [v] [t] L) (h' : Reps ps vs ts L') : Reps ps (v :: vs) (t :: ts) (L ++ L') := by
  cases h with
  | null h => cases h; exact .null h'
  | scalar hv h => cases h; exact .scalar hv h'
  | list h1 h2 h3 => cases h3; rw [List.append_nil]; exact .list h1 h2 h'
  | obj h1 h2 h3 h4 => cases h4; rw [List.append_nil]; exact .obj h1 h2 h3 h'
  | hidden h1 h2 h3 => cases h3; rw [List.append_nil]; exact .hidden h1 h2 h'

theorem Reps.append (h : Reps ps vs ts L) (h' : Reps ps ws us L') : Reps ps (vs ++ ws) (ts ++ us) (L ++ L') := by
  induction h with
  | nil => exact h'
  | null _ ih => exact .null ih
  | scalar hv _ ih => exact .scalar hv ih
  | list h1 h2 _ _ ih => rw [List.append_assoc]; exact .list h1 h2 ih
  | obj h1 h2 h3 _ _ ih =>
    simp only [List.cons_append, List.append_assoc]
    exact .obj h1 h2 h3 ih
  | hidden h1 h2 _ _ ih => rw [List.append_assoc]; exact .hidden h1 h2 ih

theorem Reps.length (h : Reps ps vs ts L) : vs.length = ts.length := by
  induction h <;> simp_all

/-- Pairs in another order. -/
theorem Reps.perm {X Y : List (Fld × Tree)} (hp : X.Perm Y) {L : List Id} (h : Reps ps (X.map (·.1.value)) (X.map Prod.snd) L) :
    ∃ L', L'.Perm L ∧ Reps ps (Y.map (·.1.value)) (Y.map Prod.snd) L' := by
  induction hp generalizing L with
  | nil => exact ⟨L, .refl _, h⟩
  | cons x _ ih =>
    obtain ⟨L1, L2, rfl, h1, h2⟩ := h.uncons
    obtain ⟨L', hL, h'⟩ := ih h2
    exact ⟨L1 ++ L', hL.append_left _, h1.cons h'⟩
  | swap x y l =>
    obtain ⟨L1, L2, rfl, h1, h2⟩ := h.uncons
    obtain ⟨L3, L4, rfl, h3, h4⟩ := h2.uncons
    refine ⟨L3 ++ (L1 ++ L4), ?_, h3.cons (h1.cons h4)⟩
    rw [← List.append_assoc, ← List.append_assoc]
    exact List.perm_append_comm.append_right _
  | trans _ _ ih1 ih2 =>
    obtain ⟨L1, p1, h1⟩ := ih1 h
    obtain ⟨L2, p2, h2⟩ := ih2 h1
    exact ⟨L2, p2.trans p1, h2⟩

theorem getObj_set_self {id : Id} {F G : List Fld} (h : getObj ps id = some G) : getObj (setObj ps id F) id = some F := by
  unfold getObj at h ⊢
  unfold setObj
  rw [List.getElem?_modify_eq]
  cases hd : ps[id.part]? with
  | none => rw [hd] at h; cases h
  | some d =>
    rw [hd] at h
    simp only [Option.bind_some, Option.map_some] at h ⊢
    exact List.getElem?_set_self (List.getElem?_eq_some_iff.1 h).1

theorem set_same {id : Id} {F : List Fld} : Same ps (setObj ps id F) [id] := by
  refine ⟨fun i hi => ?_, fun i => ?_, fun i => ?_⟩
  · unfold getObj setObj
    rw [List.getElem?_modify]
    simp only [List.mem_singleton] at hi
    split
    · next hp =>
      cases ps[i.part]? with
      | none => rfl
      | some d =>
        simp only [Option.map_some, Option.bind_some]
        refine List.getElem?_set_ne fun hc => hi ?_
        cases i; cases id; simp_all
    · simp
  · unfold getList setObj
    rw [List.getElem?_modify]
    split
    · cases ps[i.part]? <;> rfl
    · simp
  · unfold getInacc setObj
    rw [List.getElem?_modify]
    split
    · cases ps[i.part]? <;> rfl
    · simp

end Verif.DeepMerge
