import Verif.AutoDetect.Spec
import Verif.Injection.ArgLemmas

/-!
# Detected injections give values of the types of their inputs
-/

namespace Verif.AutoDetect

open Verif.OpChecks (sortBy sortBy_perm)
open Verif.Views (Out Item Data Val Obj Json Inj Sel FieldSel Strict HasPath pushKeyValues create createFields createField
  createValue union forward inject meaning readPath spine endOf entriesOf entryOf keyLe hasPath_union inOrder)
open Verif.Injection

variable {S : Schema} {leaf : Def → Json → Prop} {subgraph : Nat}

/-! ## Wrappings -/

theorem lenient_refl : ∀ w : Wrap, w.lenient w = true
  | .named r => by cases r <;> rfl
  | .list r w => by cases r <;> simp [Wrap.lenient, lenient_refl w]

theorem lenient_of {w w' : Wrap} (h : w = w' ∨ nonNull w = w') : w.lenient w' = true := by
  rcases h with rfl | rfl
  · exact lenient_refl w
  · cases w with
    | named r => cases r <;> rfl
    | list r w => cases r <;> simp [nonNull, Wrap.lenient, lenient_refl w]

/-- What an input that a field can be injected into is. -/
theorem canInject_ok {field input : Ty} {batch : Bool} (h : canInject field input batch = true) :
    (∃ w, (batch = false ∧ input.wrap = w ∨ batch = true ∧ ∃ r, input.wrap = .list r w) ∧ w.lenient field.wrap = true) ∧
    (field.definition.isLeaf = true → input.definition = field.definition) ∧
    (field.definition.isLeaf = false → ∃ id, input.definition = .input id) := by
  rw [canInject, Bool.and_eq_true] at h
  obtain ⟨h1, h2⟩ := h
  refine ⟨?_, ?_, ?_⟩
  · split at h2
    · cases h2
    · rename_i w hw
      refine ⟨w, ?_, lenient_of (by simpa using h2)⟩
      cases batch with
      | false => exact .inl ⟨rfl, by simpa using hw⟩
      | true =>
        refine .inr ⟨rfl, ?_⟩
        rw [if_pos rfl] at hw
        cases hi : input.wrap with
        | named => rw [hi] at hw; cases hw
        | list r w' => rw [hi] at hw; cases hw; exact ⟨r, rfl⟩
  · intro hl
    revert h1 hl
    cases field.definition <;> simp [Def.isLeaf] <;> exact fun h => h.symm
  · intro hl
    revert h1 hl
    cases field.definition <;> simp [Def.isLeaf] <;> cases input.definition <;> simp [isInput]

/-- An input object for each object of the response. -/
theorem lenient_object {d : Def} {id : Nat} (hd : d.isComposite = true) {K : List (Item Data) → Obj → Out Json} : ∀ {w w' : Wrap},
    w.lenient w' = true →
    ∀ {reqs : List (Item Data)} {v : Val} {j : Json}, (∀ r o j, ObjOk S leaf d reqs o → K reqs o = .ok j →
      Admits S leaf subgraph (.input id) (.named r) j) → ValOk S leaf d w' reqs v →
      forward (K reqs) v = .ok j → Admits S leaf subgraph (.input id) w j
  | w, w', hw, reqs, v, j, hK, hv, hf => by
    rcases hv.elim hf with ⟨rfl, hn⟩ | ⟨r, w1, vs, rfl, hvs, hl⟩ | ⟨r, rfl, hl, hj⟩ | ⟨r, o, rfl, hc, ho, hko⟩
    · refine .null _ _ ?_
      revert hw hn
      cases w <;> cases w' <;> simp [Wrap.lenient, Wrap.isNonNull]
      · intro h1 h2
        subst h2
        simpa using h1
      · intro h1 _ h2
        subst h2
        simpa using h1
    · cases w with
      | named => cases hw
      | list r' w2 =>
        rw [Wrap.lenient, Bool.and_eq_true] at hw
        obtain ⟨js, rfl, hjs⟩ := forward_list_ok hl
        refine .list _ _ _ _ fun x hx => ?_
        obtain ⟨vx, hvx, hfx⟩ := hjs x hx
        exact lenient_object hd hw.2 hK (hvs vx hvx) hfx
    · rw [leaf_not_composite hl] at hd
      cases hd
    · cases w with
      | named r' => exact hK r' o j ho hko
      | list => cases hw

/-! ## Objects -/

/-- The fields give the entries, and need nothing but the key. -/
def Real (fields : List (Nat × FieldSel)) (kvs : List (Nat × Inj)) (key : List (Item Unit)) : Prop :=
  ∀ fs0, ∃ fs, createFields fs0 fields = .ok (fs, kvs) ∧ ∀ p, HasPath p fs → HasPath p fs0 ∨ HasPath p key

/-- The object is of the type. -/
def ObjGood (S : Schema) (leaf : Def → Json → Prop) (subgraph : Nat) (d : Def) (fields : List (Nat × FieldSel)) (id : Nat) :
    Prop :=
  ∀ path r reqs o j, ObjOk S leaf d reqs o → endOf (nameOf S) (.object path fields) reqs o = .ok j →
    Admits S leaf subgraph (.input id) (.named r) j

theorem objGood_of (hS : S.Ok leaf) {d : Def} {id : Nat} {fields : List (Nat × FieldSel)} (h1 : S.oneOf id = false)
    (hk : ∀ i ∈ S.inputFields id, (S.input i).internal = none ∨ (S.input i).internal = some subgraph)
    (hsub : (fields.map (·.1)).Sublist (S.inputFields id))
    (hreq : ∀ i ∈ S.inputFields id, (S.input i).default = none → (S.input i).ty.wrap.isNonNull = true → i ∈ fields.map (·.1))
    (hg : ∀ b ∈ fields, FieldGood S leaf subgraph d false b) : ObjGood S leaf subgraph d fields id := by
  intro path r reqs o j ho hj
  rw [endOf] at hj
  obtain ⟨es, hes, rfl⟩ := Views.map_ok.1 hj
  have hperm := sortBy_perm (fun a b : (Option Nat × Nat) × Out (List (String × Json)) => keyLe a.1 b.1)
    (entriesOf (nameOf S) fields reqs o)
  obtain ⟨l, rfl, hl1, hl2⟩ := inOrder_pairs (fun k => nameOf S k.2)
    (Q := fun k j => Admits S leaf subgraph (S.input k.2).ty.definition (S.input k.2).ty.wrap j) hes (by
    intro x hx e he
    rw [hperm.mem_iff, entriesOf_eq_map] at hx
    obtain ⟨f, hf, rfl⟩ := List.mem_map.1 hx
    rw [entryOf_key]
    obtain ⟨j, h, h', _⟩ := hg f hf reqs o ho e he
    exact ⟨j, h, h'⟩)
  have hknown : known S subgraph id = S.inputFields id := by
    rw [known, List.filter_eq_self]
    intro i hi
    simpa using hk i hi
  have hkeys : (l.map (fun p => p.1.2)).Perm (fields.map (·.1)) := by
    have hk := (hperm.map (·.1)).map (·.2)
    rw [← hl1, List.map_map, entriesOf_eq_map, List.map_map, List.map_map] at hk
    refine hk.trans ?_
    have : fields.map (((fun x : Option Nat × Nat => x.2) ∘
        (fun x : (Option Nat × Nat) × Out (List (String × Json)) => x.1)) ∘
        fun f => entryOf (nameOf S) f reqs o) = fields.map (·.1) := by
      apply List.map_congr_left
      intro f _
      exact entryOf_key _ _ _ f
    rw [this]
  have hm : (l.map fun p => (p.1.2, p.2)).map (·.1) = l.map (fun p => p.1.2) := by
    rw [List.map_map]
    rfl
  have := admits_object (subgraph := subgraph) hS id r (l.map fun p => (p.1.2, p.2)) (by
      rw [hm]
      exact hkeys.nodup_iff.2 (hsub.nodup (hS.ids id))) (by
      intro p hp
      rw [hknown]
      refine hsub.subset (hkeys.mem_iff.1 ?_)
      rw [← hm]
      exact List.mem_map.2 ⟨p, hp, rfl⟩) (by
      intro p hp
      obtain ⟨q, hq, rfl⟩ := List.mem_map.1 hp
      exact hl2 q hq) (by
      intro i hi hd hn
      rw [hknown] at hi
      rw [hm]
      exact hkeys.mem_iff.2 (hreq i hi hd hn)) (by
      intro h
      rw [h1] at h
      cases h)
  rw [List.map_map] at this
  exact this

/-! ## One input -/

theorem subInjections_eq : ∀ key : List (Item Unit), subInjections S key = key.map (subInjection S)
  | [] => rfl
  | i :: is => by rw [subInjections, subInjections_eq is]; rfl

/-- What is detected for the selections of the fields of the key is an object of the type. -/
def SubsGood (S : Schema) (leaf : Def → Json → Prop) (subgraph : Nat) (key : List (Item Unit)) : Prop :=
  ∀ item ∈ key, item.sub ≠ [] → ∀ id inj, S.oneOf id = false → subInjection S item id = .ok (some inj) →
    ∃ fields kvs, inj = .object (pushKeyValues kvs) ∧ Real fields kvs item.sub ∧
      ObjGood S leaf subgraph (S.fieldTy item.id).definition fields id

theorem keyOk_mem {d : Def} : ∀ {key : List (Item Unit)}, KeyOk S d key → ∀ i ∈ key, ItemOk S d i
  | [], _, i, hi => by cases hi
  | x :: xs, h, i, hi => by
    rw [KeyOk] at h
    rcases List.mem_cons.1 hi with rfl | hi
    · exact h.1
    · exact keyOk_mem h.2 i hi

/-- Reading a field of an object. -/
theorem read_val {d : Def} {g : Nat} {K : List (Item Data) → Obj → Out Json} {reqs : List (Item Data)} {o : Obj} {j : Json}
    (ho : ObjOk S leaf d reqs o) (h : readPath [g] K reqs o = .ok j) :
    ∃ reqs' v, ValOk S leaf (S.fieldTy g).definition (S.fieldTy g).wrap reqs' v ∧ forward (K reqs') v = .ok j := by
  rw [readPath] at h
  split at h
  · cases h
  · rename_i i hi
    split at h
    · cases h
    · rename_i v hv
      have hid : i.id = g := by simpa using List.find?_some hi
      obtain ⟨_, _, _, typed⟩ := ho
      have hval := typed i (List.mem_of_find?_eq_some hi) v hv
      rw [hid] at hval
      exact ⟨i.sub, v, hval, h⟩

theorem forward_parents {d : Def} {batch : Bool} {K : Obj → Out Json} {reqs : List (Item Data)} {v : Val} {j : Json}
    (hd : d.isComposite = true)
    (hv : ValOk S leaf (sourceOf d batch).definition (sourceOf d batch).wrap reqs v) (h : forward K v = .ok j) :
    (batch = false ∧ ∃ o, ObjOk S leaf d reqs o ∧ K o = .ok j) ∨
    (batch = true ∧ ∃ js, j = .list js ∧ ∀ x ∈ js, ∃ o, ObjOk S leaf d reqs o ∧ K o = .ok x) := by
  have one : ∀ v j, ValOk S leaf d (.named true) reqs v → forward K v = .ok j → ∃ o, ObjOk S leaf d reqs o ∧ K o = .ok j := by
    intro v j hv h
    rcases hv.elim h with ⟨_, hn⟩ | ⟨_, _, _, hw, _⟩ | ⟨_, _, hl, _⟩ | ⟨_, o, _, _, ho, hko⟩
    · cases hn
    · cases hw
    · rw [leaf_not_composite hl] at hd; cases hd
    · exact ⟨o, ho, hko⟩
  cases batch with
  | false => exact .inl ⟨rfl, one v j hv h⟩
  | true =>
    refine .inr ⟨rfl, ?_⟩
    rcases hv.elim h with ⟨_, hn⟩ | ⟨_, _, vs, hw, hvs, hl⟩ | ⟨_, hw, _⟩ | ⟨_, _, hw, _⟩
    · cases hn
    · cases hw
      obtain ⟨js, rfl, hjs⟩ := forward_list_ok hl
      refine ⟨js, rfl, fun x hx => ?_⟩
      obtain ⟨vx, hvx, hfx⟩ := hjs x hx
      exact one vx x (hvs vx hvx) hfx
    · cases hw
    · cases hw

/-- Where the field of the key for an input is. -/
theorem find_pos {S : Schema} {inputs : List Nat} {key : List (Item Unit)} {batch : Bool} {input pos : Nat}
    (h : (List.range key.length).find? (matching S inputs key batch input) = some pos) :
    ∃ item, key[pos]? = some item ∧ canInject (S.fieldTy item.id) (S.input input).ty batch = true ∧
      (S.fieldName item.id = (S.input input).name ∨
        ((∀ i ∈ inputs, i ≠ input → sameTy (tyNonNull (S.input i).ty) (tyNonNull (S.input input).ty) = false) ∧
         ∀ other item', key[other]? = some item' → other ≠ pos → sameTy (S.fieldTy item'.id) (S.fieldTy item.id) = false)) := by
  have hm := List.find?_some h
  rw [matching] at hm
  split at hm
  · cases hm
  · rename_i item hitem
    rw [Bool.and_eq_true, Bool.or_eq_true_iff, Bool.and_eq_true] at hm
    refine ⟨item, hitem, hm.1, ?_⟩
    rcases hm.2 with h' | ⟨h1, h2⟩
    · exact .inl (by simpa using h')
    · refine .inr ⟨?_, ?_⟩
      · intro i hi hne
        have := List.all_eq_true.1 h1 i hi
        simpa [hne] using this
      · intro other item' ho hne
        have hlt : other < key.length := by
          rcases Nat.lt_or_ge other key.length with h' | h'
          · exact h'
          · rw [List.getElem?_eq_none h'] at ho; cases ho
        have := List.all_eq_true.1 h2 other (List.mem_range.2 hlt)
        rw [ho] at this
        simpa [hne] using this

theorem mapping_ok {S : Schema} {inputs : List Nat} {key : List (Item Unit)} {batch : Bool} {i : Nat} {pos : Option Nat} {inj : Inj}
    (h : mapping S inputs key (subInjections S key) batch i = .ok (some (pos, inj))) :
    (pos = none ∧ ∃ j, inj = .default j ∧ (S.input i).default = some j) ∨
    ∃ p item, pos = some p ∧ key[p]? = some item ∧ canInject (S.fieldTy item.id) (S.input i).ty batch = true ∧
      (List.range key.length).find? (matching S inputs key batch i) = some p ∧
      ((item.sub = [] ∧ inj = .select item.id .identity) ∨
       (item.sub ≠ [] ∧ ∃ id next, (S.input i).ty.definition = .input id ∧ subInjection S item id = .ok (some next) ∧
          inj = .select item.id next)) := by
  rw [mapping] at h
  split at h
  · split at h
    · rename_i j hj
      cases h
      exact .inl ⟨rfl, j, rfl, hj⟩
    · cases h
  · rename_i p hp
    obtain ⟨item, hitem, hcan, _⟩ := find_pos hp
    split at h
    · rename_i item' sub hitem' hsub
      rw [hitem] at hitem'
      cases hitem'
      rw [subInjections_eq, List.getElem?_map, hitem] at hsub
      cases hsub
      refine .inr ⟨p, item, ?_⟩
      split at h
      · rename_i hemp
        cases h
        exact ⟨rfl, hitem, hcan, hp, .inl ⟨by simpa using hemp, rfl⟩⟩
      · rename_i hemp
        split at h
        · rename_i id hid
          obtain ⟨o, ho, heq⟩ := Views.map_ok.1 h
          cases o with
          | none => cases heq
          | some next =>
            cases heq
            exact ⟨rfl, hitem, hcan, hp, .inr ⟨by simpa using hemp, id, next, hid, ho, rfl⟩⟩
        · cases h
    · cases h

/-- The selection that stands for an injection. -/
theorem mapping_good (hS : S.Ok leaf) {d : Def} (hd : d.isComposite = true) {inputs : List Nat} {key : List (Item Unit)}
    {batch : Bool} {i : Nat} {pos : Option Nat} {inj : Inj}
    (h : mapping S inputs key (subInjections S key) batch i = .ok (some (pos, inj)))
    (hkey : KeyOk S d key) (hsubs : SubsGood S leaf subgraph key)
    (hplain : isOneOf S i = true → ∀ item ∈ key, item.sub = []) :
    (∃ j, inj = .default j ∧ (S.input i).default = some j) ∨
    ∃ item s fs, item ∈ key ∧ create s = .ok (fs, inj) ∧ (∀ q, HasPath q fs → HasPath q key) ∧
      First S d (spine s) ∧ Good S leaf subgraph (sourceOf d batch) i (S.input i).ty.wrap s ∧
      ((S.fieldTy item.id).wrap.isNonNull = true → NeverNull S leaf (sourceOf d batch) s) := by
  rcases mapping_ok h with ⟨_, j, h1, h2⟩ | ⟨p, item, rfl, hitem, hcan, _, hinj⟩
  · exact .inl ⟨j, h1, h2⟩
  · have hmem : item ∈ key := List.mem_of_getElem? hitem
    have hok := keyOk_mem hkey item hmem
    obtain ⟨⟨w, hw, hlen⟩, hcl, hcc⟩ := canInject_ok hcan
    -- the selection and what it reads at the end of its field
    have main : ∀ s : Sel, spine s = [item.id] →
        (∀ reqs' v j, ValOk S leaf (S.fieldTy item.id).definition (S.fieldTy item.id).wrap reqs' v →
          forward (endOf (nameOf S) s reqs') v = .ok j →
            Admits S leaf subgraph (S.input i).ty.definition w j ∧
            ((S.fieldTy item.id).wrap.isNonNull = true → j ≠ .null)) →
        First S d (spine s) ∧ Good S leaf subgraph (sourceOf d batch) i (S.input i).ty.wrap s ∧
        ((S.fieldTy item.id).wrap.isNonNull = true → NeverNull S leaf (sourceOf d batch) s) := by
      intro s hs hend
      refine ⟨?_, ?_, ?_⟩
      · rw [hs]
        intro f rest hf
        cases hf
        obtain ⟨id, u, sub⟩ := item
        rw [ItemOk] at hok
        exact hok.1
      · intro reqs v j hv hj
        rw [meaning, hs] at hj
        rcases forward_parents hd hv hj with ⟨hb, o, ho, hko⟩ | ⟨hb, js, rfl, hjs⟩
        · obtain ⟨reqs', v', hv', hj'⟩ := read_val ho hko
          rcases hw with ⟨_, rfl⟩ | ⟨hb', _⟩
          · exact (hend reqs' v' j hv' hj').1
          · rw [hb] at hb'; cases hb'
        · rcases hw with ⟨hb', _⟩ | ⟨_, r, hr⟩
          · rw [hb] at hb'; cases hb'
          · rw [hr]
            refine .list _ _ _ _ fun x hx => ?_
            obtain ⟨o, ho, hko⟩ := hjs x hx
            obtain ⟨reqs', v', hv', hj'⟩ := read_val ho hko
            exact (hend reqs' v' x hv' hj').1
      · intro hnn reqs v j hv hj
        rw [meaning, hs] at hj
        rcases forward_parents hd hv hj with ⟨hb, o, ho, hko⟩ | ⟨hb, js, rfl, hjs⟩
        · obtain ⟨reqs', v', hv', hj'⟩ := read_val ho hko
          exact (hend reqs' v' j hv' hj').2 hnn
        · intro h; cases h
    refine .inr ?_
    rcases hinj with ⟨hemp, rfl⟩ | ⟨hne, id, next, hid, hnext, rfl⟩
    · refine ⟨item, .path item.id [], [.mk item.id () []], hmem, rfl, ?_, main _ rfl ?_⟩
      · intro q hq
        cases q with
        | nil => trivial
        | cons f q =>
          obtain ⟨it, hit, rfl, hq⟩ := hq
          rw [List.mem_singleton.1 hit] at hq ⊢
          refine ⟨item, hmem, rfl, ?_⟩
          cases q with
          | nil => trivial
          | cons f q =>
            obtain ⟨it', hit', _⟩ := hq
            cases hit'
      · have hleaf : (S.fieldTy item.id).definition.isLeaf = true := by
          obtain ⟨id, u, sub⟩ := item
          rw [ItemOk] at hok
          exact hok.2.1 hemp
        intro reqs' v j hv hj
        refine ⟨?_, fun hnn => ?_⟩
        · rw [hcl hleaf]
          exact lenient_admits hleaf hlen hv hj
        · exact nonNull_forward hS.leaf hv hnn hj (fun _ hc => by rw [leaf_not_composite hleaf] at hc; cases hc)
    · have hone : S.oneOf id = false := by
        cases ho : S.oneOf id with
        | false => rfl
        | true =>
          exact absurd (hplain (by rw [isOneOf, hid]; exact ho) item hmem) hne
      obtain ⟨fields, kvs, rfl, hreal, hgood⟩ := hsubs item hmem hne id next hone hnext
      obtain ⟨fs, hfs, hpath⟩ := hreal []
      have hcomp : (S.fieldTy item.id).definition.isComposite = true := by
        obtain ⟨id, u, sub⟩ := item
        rw [ItemOk] at hok
        exact hok.2.2.1 hne
      refine ⟨item, .object [item.id] fields, [.mk item.id () fs], hmem, ?_, ?_, main _ rfl ?_⟩
      · rw [create, hfs]
        rfl
      · intro q hq
        cases q with
        | nil => trivial
        | cons f q =>
          obtain ⟨it, hit, rfl, hq⟩ := hq
          rw [List.mem_singleton.1 hit] at hq ⊢
          refine ⟨item, hmem, rfl, ?_⟩
          rcases hpath q hq with h' | h'
          · cases q with
            | nil => trivial
            | cons f q =>
              obtain ⟨it', hit', _⟩ := h'
              cases hit'
          · exact h'
      · intro reqs' v j hv hj
        refine ⟨?_, fun hnn => ?_⟩
        · rw [hid]
          exact lenient_object hcomp hlen (fun r o j ho hko => hgood [item.id] r reqs' o j ho hko) hv hj
        · exact nonNull_forward hS.leaf hv hnn hj (fun _ _ o _ => endOf_ne_null _ _ _ _)

/-! ## All inputs -/

theorem mapAll_ok {S : Schema} {inputs : List Nat} {key : List (Item Unit)} {subs : List (Nat → Out (Option Inj))} {batch : Bool} :
    ∀ {is found : List Nat} {kvs : List (Nat × Inj)}, mapAll S inputs key subs batch is = .ok (some (found, kvs)) →
    (kvs.map (·.1)).Sublist is ∧
    (∀ i ∈ is, (S.input i).default = none → (S.input i).ty.wrap.isNonNull = true → i ∈ kvs.map (·.1)) ∧
    (∀ kv ∈ kvs, (mapping S inputs key subs batch kv.1 = .ok none ∧ ∃ j, kv.2 = .default j ∧ (S.input kv.1).default = some j) ∨
      ∃ pos, mapping S inputs key subs batch kv.1 = .ok (some (pos, kv.2))) ∧
    (∀ p ∈ found, ∃ kv ∈ kvs, mapping S inputs key subs batch kv.1 = .ok (some (some p, kv.2)))
  | [], found, kvs, h => by
    cases h
    simp
  | i :: is, found, kvs, h => by
    rw [mapAll] at h
    obtain ⟨m, hm, h⟩ := bind_ok.1 h
    cases m with
    | some m =>
      obtain ⟨pos, inj⟩ := m
      obtain ⟨o, ho, heq⟩ := Views.map_ok.1 h
      cases o with
      | none => cases heq
      | some rest =>
        obtain ⟨found', kvs'⟩ := rest
        cases heq
        obtain ⟨h1, h2, h3, h4⟩ := mapAll_ok ho
        refine ⟨by simpa using h1, ?_, ?_, ?_⟩
        · intro x hx hd hn
          rcases List.mem_cons.1 hx with rfl | hx
          · exact List.mem_cons_self
          · exact List.mem_cons_of_mem _ (h2 x hx hd hn)
        · intro kv hkv
          rcases List.mem_cons.1 hkv with rfl | hkv
          · exact .inr ⟨pos, hm⟩
          · exact h3 kv hkv
        · intro p hp
          rcases List.mem_append.1 hp with hp | hp
          · cases pos with
            | none => cases hp
            | some q =>
              have : p = q := by simpa using hp
              subst this
              exact ⟨(i, inj), List.mem_cons_self, hm⟩
          · obtain ⟨kv, hkv, h'⟩ := h4 p hp
            exact ⟨kv, List.mem_cons_of_mem _ hkv, h'⟩
    | none =>
      simp only at h
      split at h
      · rename_i j hj
        obtain ⟨o, ho, heq⟩ := Views.map_ok.1 h
        cases o with
        | none => cases heq
        | some rest =>
          obtain ⟨found', kvs'⟩ := rest
          cases heq
          obtain ⟨h1, h2, h3, h4⟩ := mapAll_ok ho
          refine ⟨by simpa using h1, ?_, ?_, ?_⟩
          · intro x hx hd hn
            rcases List.mem_cons.1 hx with rfl | hx
            · exact List.mem_cons_self
            · exact List.mem_cons_of_mem _ (h2 x hx hd hn)
          · intro kv hkv
            rcases List.mem_cons.1 hkv with rfl | hkv
            · exact .inl ⟨hm, j, rfl, hj⟩
            · exact h3 kv hkv
          · intro p hp
            obtain ⟨kv, hkv, h'⟩ := h4 p hp
            exact ⟨kv, List.mem_cons_of_mem _ hkv, h'⟩
      · rename_i hd'
        split at h
        · cases h
        · rename_i hn'
          obtain ⟨h1, h2, h3, h4⟩ := mapAll_ok h
          refine ⟨h1.cons _, ?_, h3, h4⟩
          intro x hx hd hn
          rcases List.mem_cons.1 hx with rfl | hx
          · exact absurd hn hn'
          · exact h2 x hx hd hn

theorem mapKey_ok {S : Schema} {inputs : List Nat} {key : List (Item Unit)} {subs : List (Nat → Out (Option Inj))} {batch : Bool}
    {kvs : List (Nat × Inj)} (h : mapKey S inputs key subs batch = .ok (some kvs)) :
    key.length < 64 ∧ ∃ found, mapAll S inputs key subs batch inputs = .ok (some (found, kvs)) ∧ ∀ p < key.length, p ∈ found := by
  rw [mapKey] at h
  split at h
  · cases h
  · rename_i hlen
    obtain ⟨o, ho, heq⟩ := Views.map_ok.1 h
    cases o with
    | none => cases heq
    | some rest =>
      obtain ⟨found, kvs'⟩ := rest
      simp only at heq
      split at heq
      · rename_i hall
        cases heq
        refine ⟨by omega, found, ho, fun p hp => ?_⟩
        have := List.all_eq_true.1 hall p (List.mem_range.2 hp)
        simpa using this
      · cases heq

theorem createFields_cons {key : List (Item Unit)} {i : Nat} {f : FieldSel} {r : List (Item Unit)} {inj : Inj}
    (hf : createValue f = .ok (r, inj)) (hr : ∀ q, HasPath q r → HasPath q key) {fields : List (Nat × FieldSel)}
    {kvs : List (Nat × Inj)} (h : Real fields kvs key) : Real ((i, f) :: fields) ((i, inj) :: kvs) key := by
  intro fs0
  obtain ⟨fs, hfs, hp⟩ := h (union fs0 r)
  refine ⟨fs, ?_, ?_⟩
  · rw [createFields, createField, hf]
    simp only [Out.map, Out.bind]
    rw [hfs]
  · intro p hpp
    rcases hp p hpp with h' | h'
    · rcases (hasPath_union _ _ p).1 h' with h'' | h''
      · exact .inl h''
      · exact .inr (hr p h'')
    · exact .inr h'

/-- An object for the fields of the key. -/
theorem mapKey_good (hS : S.Ok leaf) (hP : Plain S subgraph) {d : Def} (hd : d.isComposite = true) {key : List (Item Unit)}
    {id : Nat} {kvs : List (Nat × Inj)} (h : mapKey S (S.inputFields id) key (subInjections S key) false = .ok (some kvs))
    (hkey : KeyOk S d key) (hsubs : SubsGood S leaf subgraph key) (hone : S.oneOf id = false) :
    ∃ fields, Real fields kvs key ∧ ObjGood S leaf subgraph d fields id := by
  obtain ⟨_, found, hm, _⟩ := mapKey_ok h
  obtain ⟨m1, m2, m3, _⟩ := mapAll_ok hm
  have : ∀ l : List (Nat × Inj), (∀ kv ∈ l, kv ∈ kvs) → ∃ fields, Real fields l key ∧ fields.map (·.1) = l.map (·.1) ∧
      ∀ b ∈ fields, FieldGood S leaf subgraph d false b := by
    intro l
    induction l with
    | nil =>
      intro _
      exact ⟨[], fun fs0 => ⟨fs0, rfl, fun p hp => .inl hp⟩, rfl, by simp⟩
    | cons kv l ih =>
      intro hl
      obtain ⟨i, inj⟩ := kv
      obtain ⟨fields, hr, hf, hg⟩ := ih (fun kv hkv => hl kv (List.mem_cons_of_mem _ hkv))
      have hmem := hl _ List.mem_cons_self
      have hi : i ∈ S.inputFields id := m1.subset (List.mem_map.2 ⟨_, hmem, rfl⟩)
      have hdefault : ∀ j, inj = .default j → (S.input i).default = some j →
          ∃ fields, Real fields ((i, inj) :: l) key ∧ fields.map (·.1) = ((i, inj) :: l).map (·.1) ∧
            ∀ b ∈ fields, FieldGood S leaf subgraph d false b := by
        rintro j rfl hj
        refine ⟨(i, .default j) :: fields, createFields_cons (r := []) rfl (fun q hq => ?_) hr, by simp [hf], ?_⟩
        · cases q with
          | nil => trivial
          | cons f q =>
            obtain ⟨it, hit, _⟩ := hq
            cases hit
        · intro b hb
          rcases List.mem_cons.1 hb with rfl | hb
          · intro reqs o ho e he
            rw [entryOf] at he
            cases he
            exact ⟨j, rfl, hS.defaults subgraph i j hj, fun h => by cases h⟩
          · exact hg b hb
      rcases m3 _ hmem with ⟨_, j, h1, h2⟩ | ⟨pos, hpos⟩
      · exact hdefault j h1 h2
      · rcases mapping_good (subgraph := subgraph) hS hd hpos hkey hsubs (fun ho => by
          rw [hP.fields id i hi] at ho; cases ho) with ⟨j, h1, h2⟩ | ⟨item, s, fs, _, hc, hp, hfirst, hgood, _⟩
        · exact hdefault j h1 h2
        · refine ⟨(i, .value s) :: fields, createFields_cons (r := fs) (by rw [createValue]; exact hc) hp hr, by simp [hf], ?_⟩
          intro b hb
          rcases List.mem_cons.1 hb with rfl | hb
          · exact value_good (source := sourceOf d false) rfl hd hgood hfirst (fun h => by cases h)
          · exact hg b hb
  obtain ⟨fields, hr, hf, hg⟩ := this kvs (fun _ h => h)
  refine ⟨fields, hr, objGood_of hS hone (hP.known id) (by rw [hf]; exact m1) ?_ hg⟩
  intro i hi hdn hn
  rw [hf]
  exact m2 i hi hdn hn

mutual

theorem subsGood (hS : S.Ok leaf) (hP : Plain S subgraph) : ∀ (key : List (Item Unit)) (d : Def), KeyOk S d key →
    SubsGood S leaf subgraph key
  | [], _, _ => fun item hi => (by cases hi)
  | i :: is, d, hk => by
    rw [KeyOk] at hk
    have h1 := itemGood hS hP i d hk.1
    have h2 := subsGood hS hP is d hk.2
    intro item hi
    rcases List.mem_cons.1 hi with h | h
    · rw [h]
      exact h1
    · exact h2 item h

theorem itemGood (hS : S.Ok leaf) (hP : Plain S subgraph) : ∀ (item : Item Unit) (d : Def), ItemOk S d item →
    item.sub ≠ [] → ∀ id inj, S.oneOf id = false → subInjection S item id = .ok (some inj) →
    ∃ fields kvs, inj = .object (pushKeyValues kvs) ∧ Real fields kvs item.sub ∧
      ObjGood S leaf subgraph (S.fieldTy item.id).definition fields id
  | .mk fid _ sub, d, hok, hne => by
    rw [ItemOk] at hok
    have ih := subsGood hS hP sub _ hok.2.2.2
    intro id inj hone h
    rw [subInjection] at h
    obtain ⟨o, ho, heq⟩ := Views.map_ok.1 h
    cases o with
    | none => cases heq
    | some kvs =>
      cases heq
      obtain ⟨fields, h1, h2⟩ := mapKey_good (subgraph := subgraph) hS hP (hok.2.2.1 hne) ho hok.2.2.2 ih hone
      exact ⟨fields, kvs, rfl, h1, h2⟩

end

end Verif.AutoDetect
