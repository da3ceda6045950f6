import Verif.AutoDetect.ArenaLemmas

/-!
# What is found
-/

namespace Verif.AutoDetect

open Verif.OpChecks (sortBy_perm)
open Verif.Views (Out Item Data Val Obj Json Inj Sel FieldSel Strict HasPath pushKeyValues create createFields forward inject
  meaning endOf)
open Verif.Injection

variable {S : Schema} {leaf : Def → Json → Prop} {subgraph : Nat} {batch : Bool} {key : List (Item Unit)} {args : List Nat}

/-! ## The paths that are read -/

theorem mem_readsAll {p : List Nat} : ∀ {kvs : List (Nat × Inj)}, p ∈ readsAll kvs ↔ ∃ kv ∈ kvs, p ∈ reads kv.2
  | [] => by simp [readsAll]
  | (i, inj) :: kvs => by
    rw [readsAll, readsEntry, List.mem_append, mem_readsAll]
    simp

theorem mem_argsRead {p : List Nat} : ∀ {l : List (Nat × Arg)}, p ∈ argsRead l ↔ ∃ a ∈ l, p ∈ argReads a.2
  | [] => by simp [argsRead]
  | (i, a) :: l => by
    rw [argsRead, fieldReads, List.mem_append, mem_argsRead]
    simp

theorem mem_leaves {p : List Nat} : ∀ {key : List (Item Unit)}, p ∈ leaves key ↔ ∃ i ∈ key, p ∈ leavesOf i
  | [] => by simp [leaves]
  | i :: is => by
    rw [leaves, List.mem_append, mem_leaves]
    simp

theorem leavesOf_sub {item : Item Unit} (h : item.sub ≠ []) : leavesOf item = (leaves item.sub).map (item.id :: ·) := by
  obtain ⟨id, u, sub⟩ := item
  cases sub with
  | nil => exact absurd rfl h
  | cons => rfl

theorem leavesOf_leaf {item : Item Unit} (h : item.sub = []) : leavesOf item = [[item.id]] := by
  obtain ⟨id, u, sub⟩ := item
  cases sub with
  | nil => rfl
  | cons => cases h

/-- What is detected for the selections of the fields of the key takes all of them. -/
def SubReads (S : Schema) (key : List (Item Unit)) : Prop :=
  ∀ item ∈ key, item.sub ≠ [] → ∀ id inj, subInjection S item id = .ok (some inj) →
    ∀ p, p ∈ reads inj ↔ p ∈ leaves item.sub

theorem mapping_reads {inputs : List Nat} (hsubs : SubReads S key) {i : Nat} {pos : Option Nat} {inj : Inj}
    (h : mapping S inputs key (subInjections S key) batch i = .ok (some (pos, inj))) (p : List Nat) :
    p ∈ reads inj ↔ ∃ q item, pos = some q ∧ key[q]? = some item ∧ p ∈ leavesOf item := by
  rcases mapping_ok h with ⟨rfl, j, rfl, _⟩ | ⟨q, item, rfl, hitem, _, _, hinj⟩
  · simp [reads]
  · have hmem := List.mem_of_getElem? hitem
    have hiff : p ∈ reads inj ↔ p ∈ leavesOf item := by
      rcases hinj with ⟨hemp, rfl⟩ | ⟨hne, id, next, _, hnext, rfl⟩
      · rw [leavesOf_leaf hemp]
        simp [reads]
      · rw [leavesOf_sub hne, reads, List.mem_map, List.mem_map]
        constructor
        · rintro ⟨x, hx, rfl⟩
          exact ⟨x, (hsubs item hmem hne id next hnext x).1 hx, rfl⟩
        · rintro ⟨x, hx, rfl⟩
          exact ⟨x, (hsubs item hmem hne id next hnext x).2 hx, rfl⟩
    rw [hiff]
    constructor
    · intro h'
      exact ⟨q, item, rfl, hitem, h'⟩
    · rintro ⟨q', item', hq, hi, h'⟩
      cases hq
      rw [hitem] at hi
      cases hi
      exact h'

theorem mapKey_reads {inputs : List Nat} (hsubs : SubReads S key) {kvs : List (Nat × Inj)}
    (h : mapKey S inputs key (subInjections S key) batch = .ok (some kvs)) (p : List Nat) :
    p ∈ readsAll kvs ↔ p ∈ leaves key := by
  obtain ⟨_, found, hm, hall⟩ := mapKey_ok h
  obtain ⟨_, _, m3, m4⟩ := mapAll_ok hm
  rw [mem_readsAll, mem_leaves]
  constructor
  · rintro ⟨kv, hkv, hp⟩
    rcases m3 kv hkv with ⟨_, j, hj, _⟩ | ⟨pos, hpos⟩
    · rw [hj] at hp
      simp [reads] at hp
    · obtain ⟨q, item, _, hi, h'⟩ := (mapping_reads hsubs hpos p).1 hp
      exact ⟨item, List.mem_of_getElem? hi, h'⟩
  · rintro ⟨item, hi, hp⟩
    obtain ⟨q, hq, hqi⟩ := List.mem_iff_getElem.1 hi
    obtain ⟨kv, hkv, hpos⟩ := m4 q (hall q hq)
    exact ⟨kv, hkv, (mapping_reads hsubs hpos p).2 ⟨q, item, rfl, by rw [List.getElem?_eq_getElem hq, hqi], hp⟩⟩

theorem object_reads {kvs : List (Nat × Inj)} (p : List Nat) : p ∈ reads (.object (pushKeyValues kvs)) ↔ p ∈ readsAll kvs := by
  rw [reads, mem_readsAll, mem_readsAll, pushKeyValues]
  simp only [(sortBy_perm _ kvs).mem_iff]

mutual

theorem subReads : ∀ key : List (Item Unit), SubReads S key
  | [] => fun item hi => (by cases hi)
  | i :: is => by
    have h1 := itemReads i
    have h2 := subReads is
    intro item hi
    rcases List.mem_cons.1 hi with h | h
    · rw [h]
      exact h1
    · exact h2 item h

theorem itemReads : ∀ item : Item Unit, item.sub ≠ [] → ∀ id inj, subInjection S item id = .ok (some inj) →
    ∀ p, p ∈ reads inj ↔ p ∈ leaves item.sub
  | .mk fid _ sub => by
    have ih := subReads sub
    intro _ id inj h p
    rw [subInjection] at h
    obtain ⟨o, ho, heq⟩ := Views.map_ok.1 h
    cases o with
    | none => cases heq
    | some kvs =>
      cases heq
      rw [object_reads]
      exact mapKey_reads ih ho p

end

theorem objectInjection_ok {inputs : List Nat} {inj : Inj} (h : objectInjection S key inputs = .ok (some inj)) :
    ∃ kvs, mapKey S inputs key (subInjections S key) false = .ok (some kvs) ∧ inj = .object (pushKeyValues kvs) := by
  rw [objectInjection] at h
  obtain ⟨o, ho, heq⟩ := Views.map_ok.1 h
  cases o with
  | none => cases heq
  | some kvs =>
    cases heq
    exact ⟨kvs, ho, rfl⟩

theorem objectInjection_reads {inputs : List Nat} {inj : Inj} (h : objectInjection S key inputs = .ok (some inj)) (p : List Nat) :
    p ∈ reads inj ↔ p ∈ leaves key := by
  obtain ⟨kvs, hm, rfl⟩ := objectInjection_ok h
  rw [object_reads]
  exact mapKey_reads (subReads key) hm p

theorem oneOfValues_ok {item : Item Unit} {inputs : List Nat} : ∀ {is : List Nat} {values : List (Nat × Inj)},
    oneOfValues S batch item inputs is = .ok (some values) →
    (∀ v ∈ values, v.1 ∈ is ∧ ∃ pos, mapping S inputs [item] (subInjections S [item]) batch v.1 = .ok (some (pos, v.2))) ∧
    ∀ i ∈ is, (S.input i).ty.wrap.isNonNull = true → i ∈ values.map (·.1)
  | [], values, h => by
    cases h
    simp
  | i :: is, values, h => by
    rw [oneOfValues] at h
    obtain ⟨m, hm, h⟩ := bind_ok.1 h
    cases m with
    | some m =>
      obtain ⟨pos, inj⟩ := m
      obtain ⟨o, ho, heq⟩ := Views.map_ok.1 h
      cases o with
      | none => cases heq
      | some rest =>
        cases heq
        obtain ⟨h1, h2⟩ := oneOfValues_ok ho
        refine ⟨?_, ?_⟩
        · intro v hv
          rcases List.mem_cons.1 hv with rfl | hv
          · exact ⟨List.mem_cons_self, pos, hm⟩
          · exact ⟨List.mem_cons_of_mem _ (h1 v hv).1, (h1 v hv).2⟩
        · intro x hx hn
          rcases List.mem_cons.1 hx with rfl | hx
          · exact List.mem_cons_self
          · exact List.mem_cons_of_mem _ (h2 x hx hn)
    | none =>
      simp only at h
      split at h
      · cases h
      · rename_i hn'
        obtain ⟨h1, h2⟩ := oneOfValues_ok h
        refine ⟨fun v hv => ⟨List.mem_cons_of_mem _ (h1 v hv).1, (h1 v hv).2⟩, ?_⟩
        intro x hx hn
        rcases List.mem_cons.1 hx with rfl | hx
        · exact absurd hn hn'
        · exact h2 x hx hn

theorem oneOfSingle_ok {item : Item Unit} {inputs : List Nat} {i : Nat} {inj : Inj}
    (h : oneOfSingle S batch item inputs = .ok (some (i, inj))) :
    i ∈ inputs ∧ ∃ pos, mapping S inputs [item] (subInjections S [item]) batch i = .ok (some (pos, inj)) := by
  rw [oneOfSingle] at h
  obtain ⟨o, ho, heq⟩ := Views.map_ok.1 h
  cases o with
  | none => cases heq
  | some values =>
    simp only at heq
    split at heq
    · cases heq
    · rename_i out hout
      split at heq
      · cases heq
      · cases heq
        exact (oneOfValues_ok ho).1 _ (List.mem_of_getLast? hout)

theorem found_reads (hone : ∀ id, S.oneOf id = true → ∀ i ∈ S.inputFields id, (S.input i).default = none)
    {l : List (Nat × Arg)} (h : Found S batch key args l) (p : List Nat) : p ∈ argsRead l ↔ p ∈ leaves key := by
  cases h with
  | direct kvs _ hm =>
    rw [← mapKey_reads (subReads key) hm p, mem_argsRead, mem_readsAll]
    constructor
    · rintro ⟨a, ha, hp⟩
      obtain ⟨kv, hkv, rfl⟩ := List.mem_map.1 ha
      exact ⟨kv, hkv, hp⟩
    · rintro ⟨kv, hkv, hp⟩
      exact ⟨_, List.mem_map.2 ⟨kv, hkv, rfl⟩, hp⟩
  | object t id inj _ _ _ _ _ _ ho =>
    rw [argsRead, fieldReads, argReads, argsRead, List.append_nil]
    exact objectInjection_reads ho p
  | single t id item i inj _ _ _ ho _ hkey hs =>
    rw [argsRead, fieldReads, argReads, argsRead, argsRead, fieldReads, argsRead, argReads, List.append_nil, List.append_nil]
    obtain ⟨hi, pos, hpos⟩ := oneOfSingle_ok hs
    subst hkey
    rw [mapping_reads (subReads [item]) hpos p]
    rcases mapping_ok hpos with ⟨_, j, _, hj⟩ | ⟨q, item', rfl, hitem, _⟩
    · rw [hone id ho i hi] at hj
      cases hj
    · have hq : q = 0 := by
        cases q with
        | zero => rfl
        | succ q => simp at hitem
      subst hq
      rw [leaves, leaves, List.append_nil]
      constructor
      · rintro ⟨q', item'', hq', hi', hp⟩
        cases hq'
        simp at hi'
        rw [hi']
        exact hp
      · intro hp
        exact ⟨0, item, rfl, rfl, hp⟩
  | field t id i id' inj _ _ _ _ _ _ _ _ _ ho =>
    rw [argsRead, fieldReads, argReads, argsRead, argsRead, fieldReads, argsRead, argReads, List.append_nil, List.append_nil]
    exact objectInjection_reads ho p

/-! ## Values -/

/-- The value for the argument or field `t` is of its type. -/
def Fills (S : Schema) (leaf : Def → Json → Prop) (subgraph : Nat) (d : Def) (batch : Bool) (key : List (Item Unit)) (t : Nat)
    (inj : Inj) (nonNull : Bool) : Prop :=
  ∀ reqs parents, Strict reqs → (∀ p, HasPath p key → HasPath p reqs) → Parents S leaf d reqs batch parents →
    ∀ j, forward (inject (fun i => (S.input i).name) inj reqs) parents = .ok j →
      Admits S leaf subgraph (S.input t).ty.definition (S.input t).ty.wrap j ∧ (nonNull = true → j ≠ .null)

theorem depth_ok {w : Wrap} (h : depth w = batch.toNat) : (batch = false ∧ ∃ r, w = .named r) ∨ (batch = true ∧ ∃ r r', w = .list r (.named r')) := by
  cases batch with
  | false =>
    cases w with
    | named r => exact .inl ⟨rfl, r, rfl⟩
    | list r w => simp [depth] at h
  | true =>
    cases w with
    | named r => simp [depth] at h
    | list r w =>
      cases w with
      | named r' => exact .inr ⟨rfl, r, r', rfl⟩
      | list r' w => simp [depth] at h

theorem object_fills (hS : S.Ok leaf) (hP : Plain S subgraph) {d : Def} (hd : d.isComposite = true) (hkey : KeyOk S d key)
    {t id : Nat} {inj : Inj} (hid : (S.input t).ty.definition = .input id) (hone : S.oneOf id = false)
    (hdepth : depth (S.input t).ty.wrap = batch.toNat) (h : objectInjection S key (S.inputFields id) = .ok (some inj)) :
    Fills S leaf subgraph d batch key t inj true := by
  obtain ⟨kvs, hm, rfl⟩ := objectInjection_ok h
  obtain ⟨fields, hreal, hgood⟩ := mapKey_good (subgraph := subgraph) hS hP hd hm hkey (subsGood hS hP key d hkey) hone
  obtain ⟨fs, hfs, hpath⟩ := hreal []
  intro reqs parents hs hcov hp j hj
  have hc : create (.object [] fields) = .ok (fs, .object (pushKeyValues kvs)) := by
    rw [create, hfs]
    rfl
  rw [forward_inject hc hs (fun p hp => by
    rcases hpath p hp with h' | h'
    · cases p with
      | nil => trivial
      | cons f p =>
        obtain ⟨it, hit, _⟩ := h'
        cases hit
    · exact hcov p h')] at hj
  rw [hid]
  rcases depth_ok hdepth with ⟨hb, r, hr⟩ | ⟨hb, r, r', hr⟩
  · rw [hr]
    rcases forward_parents hd hp.val hj with ⟨_, o, ho, hko⟩ | ⟨hb', _⟩
    · exact ⟨hgood [] r reqs o j ho hko, fun _ hj => endOf_ne_null _ _ _ _ (hj ▸ hko)⟩
    · rw [hb] at hb'; cases hb'
  · rw [hr]
    rcases forward_parents hd hp.val hj with ⟨hb', _⟩ | ⟨_, js, rfl, hjs⟩
    · rw [hb] at hb'; cases hb'
    · refine ⟨.list _ _ _ _ fun x hx => ?_, fun _ h => by cases h⟩
      obtain ⟨o, ho, hko⟩ := hjs x hx
      exact hgood [] r' reqs o x ho hko

theorem mapping_fills (hS : S.Ok leaf) (hP : Plain S subgraph) {d : Def} (hd : d.isComposite = true) (hkey : KeyOk S d key)
    {inputs : List Nat} {i : Nat} {pos : Option Nat} {inj : Inj}
    (h : mapping S inputs key (subInjections S key) batch i = .ok (some (pos, inj)))
    (hplain : isOneOf S i = true → ∀ item ∈ key, item.sub = []) :
    (∃ j, inj = .default j ∧ (S.input i).default = some j) ∨
    ((∀ j, inj ≠ .default j) ∧ Fills S leaf subgraph d batch key i inj false ∧
      ∃ item ∈ key, (S.fieldTy item.id).wrap.isNonNull = true → Fills S leaf subgraph d batch key i inj true) := by
  rcases mapping_ok h with ⟨_, h'⟩ | ⟨q, _, rfl, _, _, _, hinj⟩
  · exact .inl h'
  have hnd : ∀ j, inj ≠ .default j := by
    rintro j rfl
    rcases hinj with ⟨_, hx⟩ | ⟨_, _, _, _, _, hx⟩ <;> cases hx
  rcases mapping_good (subgraph := subgraph) hS hd h hkey (subsGood hS hP key d hkey) hplain with
    h' | ⟨item, s, fs, hmem, hc, hpath, _, hgood, hnn⟩
  · exact .inl h'
  · refine .inr ⟨hnd, ?_, item, hmem, ?_⟩
    · intro reqs parents hs hcov hp j hj
      rw [forward_inject hc hs (fun p hp => hcov p (hpath p hp))] at hj
      exact ⟨hgood reqs parents j hp.val hj, fun h => by cases h⟩
    · intro hn reqs parents hs hcov hp j hj
      rw [forward_inject hc hs (fun p hp => hcov p (hpath p hp))] at hj
      exact ⟨hgood reqs parents j hp.val hj, fun _ => hnn hn reqs parents j hp.val hj⟩

/-- Arguments that a field may be called with. -/
def Callable (S : Schema) (leaf : Def → Json → Prop) (subgraph : Nat) (d : Def) (batch : Bool) (key : List (Item Unit))
    (args : List Nat) (l : List (Nat × Arg)) : Prop :=
  ∀ reqs parents, Strict reqs → (∀ p, HasPath p key → HasPath p reqs) → Parents S leaf d reqs batch parents →
    ∀ es, arguments S reqs parents l = .ok es → ArgumentsOk S leaf subgraph args es

theorem callable_one {d : Def} {t : Nat} {arg : Arg} (ht : t ∈ args) (hon : Only S args t) (hlen : args.length ≤ 64)
    (h : ∀ reqs parents, Strict reqs → (∀ p, HasPath p key → HasPath p reqs) → Parents S leaf d reqs batch parents →
      ∀ j, topValue S reqs parents arg = .ok j → Admits S leaf subgraph (S.input t).ty.definition (S.input t).ty.wrap j) :
    Callable S leaf subgraph d batch key args [(t, arg)] := by
  intro reqs parents hs hcov hp es hes
  rw [arguments] at hes
  obtain ⟨j, hj, hes⟩ := bind_ok.1 hes
  cases hes
  refine ⟨[(t, j)], rfl, by simp, ?_, ?_⟩
  · intro p hp'
    rw [List.mem_singleton.1 hp']
    exact ⟨ht, h reqs parents hs hcov hp j hj⟩
  · intro i hi _ hn
    rw [hon hlen i hi hn]
    simp

/-- A `@oneOf` object with one field. -/
theorem oneOf_value (hS : S.Ok leaf) (hP : Plain S subgraph) {d : Def} {t id i : Nat} {inj : Inj}
    (hid : (S.input t).ty.definition = .input id) (hl : (S.input t).ty.wrap.isList = false)
    (hreq : ∀ x ∈ S.inputFields id, (S.input x).default = none → (S.input x).ty.wrap.isNonNull = true → x = i)
    (hi : i ∈ S.inputFields id) (hf : Fills S leaf subgraph d batch key i inj true) {reqs : List (Item Data)} {parents : Val}
    (hs : Strict reqs) (hcov : ∀ p, HasPath p key → HasPath p reqs) (hp : Parents S leaf d reqs batch parents) {j : Json}
    (hj : topValue S reqs parents (.object [(i, .value inj)]) = .ok j) :
    Admits S leaf subgraph (S.input t).ty.definition (S.input t).ty.wrap j := by
  rw [topValue, argValue, argEntries, argEntry, argEntries, argValue] at hj
  · obtain ⟨es, hes, rfl⟩ := Views.map_ok.1 hj
    obtain ⟨e1, he1, hes⟩ := bind_ok.1 hes
    obtain ⟨x, hx, rfl⟩ := Views.map_ok.1 he1
    cases hes
    obtain ⟨h1, h2⟩ := hf reqs parents hs hcov hp x hx
    have hwn : ∃ r, (S.input t).ty.wrap = .named r := by
      cases hw : (S.input t).ty.wrap with
      | named r => exact ⟨r, rfl⟩
      | list => rw [hw] at hl; cases hl
    obtain ⟨r, hr⟩ := hwn
    rw [hr, hid]
    have hik : i ∈ known S subgraph id := by
      rw [known, List.mem_filter]
      exact ⟨hi, by simpa using hP.known id i hi⟩
    have := admits_object (subgraph := subgraph) hS id r [(i, x)] (by simp) (by
      intro p hp'
      rw [List.mem_singleton.1 hp']
      exact hik) (by
      intro p hp'
      rw [List.mem_singleton.1 hp']
      exact h1) (by
      intro y hy hd hn
      rw [hreq y (List.mem_filter.1 hy).1 hd hn]
      simp) (fun _ => ⟨(i, x), rfl, h2 rfl⟩)
    exact this
  · intro j h; cases h

theorem found_callable (hS : S.Ok leaf) (hP : Plain S subgraph) {d : Def} (hd : d.isComposite = true) (hkey : KeyOk S d key)
    (hnodup : args.Nodup) (hlen : args.length ≤ 64) (hok : OneOfKey S key args)
    {l : List (Nat × Arg)} (h : Found S batch key args l) : Callable S leaf subgraph d batch key args l := by
  cases h with
  | direct kvs _ hm =>
    obtain ⟨_, found, hm, _⟩ := mapKey_ok hm
    obtain ⟨m1, m2, m3, _⟩ := mapAll_ok hm
    intro reqs parents hs hcov hp es hes
    obtain ⟨l, rfl, l1, l2⟩ := arguments_ok hes
    have hmap : l.map (·.1) = kvs.map (·.1) := by
      rw [l1, List.map_map]
      rfl
    refine ⟨l, rfl, by rw [hmap]; exact m1.nodup hnodup, ?_, ?_⟩
    · intro p hp'
      obtain ⟨a, ha, ha1, haj⟩ := l2 p hp'
      obtain ⟨⟨i, inj⟩, hkv, rfl⟩ := List.mem_map.1 ha
      simp only at ha1 haj
      rw [← ha1]
      have hi : i ∈ args := m1.subset (List.mem_map.2 ⟨_, hkv, rfl⟩)
      refine ⟨hi, ?_⟩
      have hdefault : ∀ j, inj = .default j → (S.input i).default = some j →
          Admits S leaf subgraph (S.input i).ty.definition (S.input i).ty.wrap p.2 := by
        rintro j rfl hj
        rw [topValue] at haj
        cases haj
        exact hS.defaults subgraph i _ hj
      rcases m3 _ hkv with ⟨_, j, h1, h2⟩ | ⟨pos, hpos⟩
      · exact hdefault j h1 h2
      · rcases mapping_fills (subgraph := subgraph) hS hP hd hkey hpos (fun ho => (hok i hi ho).1) with
          ⟨j, h1, h2⟩ | ⟨hnd, hf, _⟩
        · exact hdefault j h1 h2
        · have : topValue S reqs parents (.value inj) = argValue S reqs parents (.value inj) := by
            rw [topValue]
            intro j hj
            cases hj
            exact hnd j rfl
          rw [this, argValue] at haj
          exact (hf reqs parents hs hcov hp p.2 haj).1
    · intro i hi hdn hn
      rw [hmap]
      exact m2 i hi hdn hn
  | object t id inj ht hon hid hone _ hdepth ho =>
    refine callable_one ht hon hlen ?_
    intro reqs parents hs hcov hp j hj
    obtain ⟨kvs, _, rfl⟩ := objectInjection_ok ho
    rw [topValue, argValue] at hj
    · exact (object_fills hS hP hd hkey hid hone hdepth ho reqs parents hs hcov hp j hj).1
    · intro j h; cases h
  | single t id item i inj ht hon hid hone hl hk ho =>
    subst hk
    obtain ⟨hi, pos, hpos⟩ := oneOfSingle_ok ho
    have hto : isOneOf S t = true := by rw [isOneOf, hid]; exact hone
    refine callable_one ht hon hlen ?_
    intro reqs parents hs hcov hp j hj
    rcases mapping_fills (subgraph := subgraph) hS hP hd hkey hpos (fun _ => (hok t ht hto).1) with
      ⟨j, _, h2⟩ | ⟨_, _, item', hmem, hf⟩
    · rw [hS.oneOf id hone i hi] at h2
      cases h2
    · rw [List.mem_singleton.1 hmem] at hf
      exact oneOf_value hS hP hid hl (fun x hx _ hn => by rw [hP.oneOf id hone x hx] at hn; cases hn) hi
        (hf ((hok t ht hto).2 item rfl)) hs hcov hp hj
  | field t id i id' inj ht hon hid hone hl _ hi hid' hdepth ho =>
    refine callable_one ht hon hlen ?_
    intro reqs parents hs hcov hp j hj
    have hone' : S.oneOf id' = false := by
      have := hP.fields id i hi
      rw [isOneOf, hid'] at this
      exact this
    exact oneOf_value hS hP hid hl (fun x hx _ hn => by rw [hP.oneOf id hone x hx] at hn; cases hn) hi
      (object_fills hS hP hd hkey hid' hone' hdepth ho) hs hcov hp hj

end Verif.AutoDetect
