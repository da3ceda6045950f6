import Verif.OpChecks.UsageLemmas
/-!
# Property C32: usage statistics
-/
namespace Verif.OpChecks
open Verif.CheckTypes Verif.Common

theorem count_inst (k : Name × Name) (l : List (Name × Name)) :
    @List.count _ instBEqOfDecidableEq k l = @List.count _ instBEqProd k l := by
  unfold List.count
  congr 1
  funext x
  show decide (x = k) = (x == k)
  rw [Bool.eq_iff_iff, decide_eq_true_iff]
  exact beq_iff_eq.symm

/-! ## C32: usage statistics -/

/-- The recorded number of uses of a field. -/
def fieldCount (d : SDoc) (u : Usage) (ty field : Name) : Option Nat :=
  ((Schema.ofDoc d).findField ty field).bind u.fields.get

/-- The recorded number of uses of an argument. -/
def argCount (d : SDoc) (u : Usage) (ty field arg : Name) : Option Nat :=
  ((Schema.ofDoc d).findArgument (ty, field, arg)).bind u.args.get

/-- The recorded number of times an argument was left out. -/
def leftOutCount (d : SDoc) (u : Usage) (ty field arg : Name) : Option Nat :=
  ((Schema.ofDoc d).findArgument (ty, field, arg)).bind u.leftOut.get

/-- C32. Aggregation ends whenever the operations have an expansion, i.e. have no fragment cycle. -/
theorem C32_terminates {d : SDoc} (hv : d.Valid) {ops : Recorded} (hok : RecordedOk d ops) :
    ∃ u, Result d ops u := by
  obtain ⟨pl, N, _, _, h3⟩ := aggregateAll_spec hv ops hok
  exact ⟨_, N, fun fuel hN => h3 fuel hN _⟩

/-- C32. The count of a field is the number of its selections, through any nesting of named and inline
fragments, weighted by the executions; a field has a count exactly if it is selected. MISSING for the
full property: the sum is taken modulo `2 ^ 64`, and an operation that selects a field twice counts
twice per execution; for the other coordinates see the theorems below. -/
theorem C32_field_counts_partial {d : SDoc} (hv : d.Valid) {ops : Recorded} (hok : RecordedOk d ops) {u : Usage}
    (hr : Result d ops u) {ty field : Name} (hdef : (d.fieldDef ty field).isSome) :
    fieldCount d u ty field =
      if used ops (· == .field ty field) then some (total ops (· == .field ty field) % 2 ^ 64) else none := by
  obtain ⟨pl, h1, h2, rfl⟩ := result_spec hv hok hr
  obtain ⟨fd, hfd⟩ := Option.isSome_iff_exists.1 hdef
  obtain ⟨i, hi, hfe⟩ := findField_def hv hfd
  obtain ⟨_, _, _, hname⟩ := fieldDef_some hfd
  unfold fieldCount
  rw [hi, Option.bind_some, (runAll_proj _ _).1]
  refine count_of_match h1 (fun p hp => (h2 p hp).1) fun e he => ?_
  have := (h2 e he).2.fields i _ hfe
  simpa [fieldEntry, hname, List.count] using this

/-- C32. The same for the arguments of object types. MISSING: as for fields, and the arguments of
interface fields, which are never counted (`C32_interface_argument_not_counted`). -/
theorem C32_argument_counts_partial {d : SDoc} (hv : d.Valid) {ops : Recorded} (hok : RecordedOk d ops) {u : Usage}
    (hr : Result d ops u) {ty field arg : Name} (hdef : (d.argDef ty field arg).isSome) :
    argCount d u ty field arg =
      if d.isObject ty && used ops (· == .arg ty field arg) then
        some (total ops (· == .arg ty field arg) % 2 ^ 64) else none := by
  obtain ⟨pl, h1, h2, rfl⟩ := result_spec hv hok hr
  obtain ⟨ad, had⟩ := Option.isSome_iff_exists.1 hdef
  unfold argCount
  cases ho : d.isObject ty with
  | false => rw [findArgument_undef hv (Or.inr ho)]; rfl
  | true =>
    obtain ⟨i, hi, hae⟩ := findArgument_def hv had ho
    obtain ⟨_, _, _, hname⟩ := argDef_some had
    rw [hi, Option.bind_some, (runAll_proj _ _).2.1, Bool.true_and]
    refine count_of_match h1 (fun p hp => (h2 p hp).1) fun e he => ?_
    have := (h2 e he).2.args i _ hae
    simpa [argEntry, hname, List.count] using this

/-- C32. The count of an enum value is the number of arguments of object types whose value it is plus the
number of variables whose default it is. MISSING: values inside lists (`C32_enum_in_list_not_counted`)
and arguments of interface fields. -/
theorem C32_enum_counts_partial {d : SDoc} (hv : d.Valid) {ops : Recorded} (hok : RecordedOk d ops) {u : Usage}
    (hr : Result d ops u) (enum value : Name) :
    u.enums.get (enum, value) =
      if used ops (countsEnum d (enum, value)) then some (total ops (countsEnum d (enum, value)) % 2 ^ 64)
      else none := by
  obtain ⟨pl, h1, h2, rfl⟩ := result_spec hv hok hr
  rw [(runAll_proj _ _).2.2.1]
  exact count_of_match h1 (fun p hp => (h2 p hp).1) fun e he => (count_inst _ _).trans ((h2 e he).2.enums _)

/-- C32. The count of a type condition is the number of inline fragments with it, *not* weighted by the
executions. MISSING: the weight (`C32_conditions_not_weighted`), and named fragments
(`C32_named_fragment_condition_not_counted`). -/
theorem C32_condition_counts_partial {d : SDoc} (hv : d.Valid) {ops : Recorded} (hok : RecordedOk d ops) {u : Usage}
    (hr : Result d ops u) (ty on : Name) :
    u.conds.get (ty, on) =
      if used ops (· == .inlineOn ty on) then
        some ((ops.map fun o => o.2.2.countP (· == .inlineOn ty on)).sum % 2 ^ 64) else none := by
  obtain ⟨pl, h1, h2, rfl⟩ := result_spec hv hok hr
  rw [(runAll_proj _ _).2.2.2.2]
  have h1' : (pl.map fun p => ((1 : Nat), p.2.1, p.2.2)).map (fun p => (p.1, p.2.2)) =
      (ops.map fun o => ((1 : Nat), o.2.1, o.2.2)).map (fun o => (o.1, o.2.2)) := by
    have := congrArg (List.map fun p : Nat × List Use => ((1 : Nat), p.2)) h1
    rw [List.map_map, List.map_map] at this
    rw [List.map_map, List.map_map]
    exact this
  have key := count_of_match (K := Name × Name) (ks := condsOf) (k := (ty, on)) (p := (· == .inlineOn ty on)) h1'
    (by
      intro p hp
      obtain ⟨x, _, rfl⟩ := List.mem_map.1 hp
      exact (by decide : 1 < 2 ^ 64))
    (by
      intro e he
      obtain ⟨x, hx, rfl⟩ := List.mem_map.1 he
      exact (count_inst _ _).trans ((h2 x hx).2.conds (ty, on)))
  have e1 : used (ops.map fun o => ((1 : Nat), o.2.1, o.2.2)) (· == .inlineOn ty on) =
      used ops (· == .inlineOn ty on) := by
    unfold used; rw [List.any_map]; rfl
  have e2 : total (ops.map fun o => ((1 : Nat), o.2.1, o.2.2)) (· == .inlineOn ty on) =
      (ops.map fun o => o.2.2.countP (· == .inlineOn ty on)).sum := by
    unfold total; rw [List.map_map]; congr 1; apply List.map_congr_left; intro o _; simp [Function.comp]
  rw [e1, e2] at key
  rw [List.map_map, List.map_map] at key
  rw [List.map_map]
  exact key

/-- C32. An argument recorded as left out is a required argument with a default that some operation
leaves out. -/
theorem C32_left_out_sound {d : SDoc} (hv : d.Valid) {ops : Recorded} (hok : RecordedOk d ops) {u : Usage}
    (hr : Result d ops u) {ty field arg : Name} (h : (leftOutCount d u ty field arg).isSome) :
    used ops (· == .leftOut ty field arg) = true := by
  obtain ⟨pl, h1, h2, rfl⟩ := result_spec hv hok hr
  unfold leftOutCount at h
  cases hi : (Schema.ofDoc d).findArgument (ty, field, arg) with
  | none => rw [hi] at h; cases h
  | some i =>
    rw [hi, Option.bind_some, (runAll_proj _ _).2.2.2.1] at h
    obtain ⟨a, ha, hk⟩ := findArgument_some hi
    simp only [Arg.key, Prod.mk.injEq] at hk
    rw [(total_pl h1 _).2]
    simp only [Bool.not_eq_true', ← Bool.not_eq_true, List.all_eq_true, decide_eq_true_eq]
    intro hall
    rw [get_multi] at h
    · have : ((pl.map fun p => (p.1, p.2.1)).map fun e => (e.1, leftOutOf e.2)).all
          (fun e => decide (e.2.count i = 0)) = true := by
        rw [List.map_map, List.all_map, List.all_eq_true]
        intro e he
        have := (h2 e he).2.leftOutLe i a ha
        have h0 := hall e he
        rw [hk.1, hk.2.1, hk.2.2] at this
        simp only [Function.comp, decide_eq_true_eq]
        unfold List.count at this ⊢
        omega
      rw [if_pos this] at h
      cases h
    · intro e he
      rw [List.map_map] at he
      obtain ⟨x, hx, rfl⟩ := List.mem_map.1 he
      exact (h2 x hx).1

/-- C32. The counts of the arguments left out are right when no argument of another field hides them.
MISSING: all other fields (`C32_left_out_hidden`). -/
theorem C32_left_out_partial {d : SDoc} (hv : d.Valid) {ops : Recorded} (hok : RecordedOk d ops) {u : Usage}
    (hr : Result d ops u) {ty field arg : Name} (hdef : (d.argDef ty field arg).isSome) (ho : d.isObject ty = true)
    (hu : Unhidden (Schema.ofDoc d) ty field) :
    leftOutCount d u ty field arg =
      if used ops (· == .leftOut ty field arg) then some (total ops (· == .leftOut ty field arg) % 2 ^ 64)
      else none := by
  obtain ⟨pl, h1, h2, rfl⟩ := result_spec hv hok hr
  obtain ⟨ad, had⟩ := Option.isSome_iff_exists.1 hdef
  unfold leftOutCount
  obtain ⟨i, hi, hae⟩ := findArgument_def hv had ho
  obtain ⟨_, _, _, hname⟩ := argDef_some had
  rw [hi, Option.bind_some, (runAll_proj _ _).2.2.2.1]
  refine count_of_match h1 (fun p hp => (h2 p hp).1) fun e he => ?_
  have := (h2 e he).2.leftOutEq i _ hae hu
  simpa [argEntry, hname, List.count] using this

theorem get_retain {K : Type} [DecidableEq K] (m : Counts K) (hm : (m.map (·.1)).Nodup) (t : Nat) (k : K) :
    (m.retain t).get k = (m.get k).filter fun c => decide (t ≤ c) := by
  unfold Counts.retain Counts.get
  induction m with
  | nil => rfl
  | cons e rest ih =>
    rw [List.map_cons, List.nodup_cons] at hm
    rw [List.filter_cons]
    by_cases he : e.1 = k
    · have hnone : ∀ t, (rest.filter fun e => decide (t ≤ e.2)).find? (fun e => decide (e.1 = k)) = none := by
        intro t
        rw [List.find?_eq_none]
        intro x hx
        have hx' := (List.mem_filter.1 hx).1
        simp only [decide_eq_true_eq]
        intro hk
        exact hm.1 (List.mem_map.2 ⟨x, hx', hk.trans he.symm⟩)
      by_cases ht : t ≤ e.2
      · simp [ht, he, Option.filter]
      · simp only [ht, decide_false, Bool.false_eq_true, if_false]
        rw [hnone]
        simp [he, ht, Option.filter]
    · have := ih hm.2
      by_cases ht : t ≤ e.2
      · simpa [ht, he] using this
      · simpa [ht, he] using this

theorem mem_bump {K : Type} [DecidableEq K] {k x : K} {inc : Nat} : ∀ {m : Counts K},
    x ∈ (m.bump k inc).map (·.1) ↔ x = k ∨ x ∈ m.map (·.1)
  | [] => by simp [Counts.bump]
  | e :: rest => by
    unfold Counts.bump
    split
    · rename_i he
      simp [he]
    · have := mem_bump (k := k) (x := x) (inc := inc) (m := rest)
      simp only [List.map_cons, List.mem_cons, this]
      constructor
      · rintro (h | h | h) <;> simp [h]
      · rintro (h | h | h) <;> simp [h]

theorem nodup_bump {K : Type} [DecidableEq K] {k : K} {inc : Nat} : ∀ {m : Counts K},
    (m.map (·.1)).Nodup → ((m.bump k inc).map (·.1)).Nodup
  | [], _ => by simp [Counts.bump]
  | e :: rest, h => by
    rw [List.map_cons, List.nodup_cons] at h
    unfold Counts.bump
    split
    · rename_i he
      rw [List.map_cons, List.nodup_cons]
      exact ⟨by rw [← he]; exact h.1, h.2⟩
    · rename_i he
      rw [List.map_cons, List.nodup_cons]
      exact ⟨fun hm => (mem_bump.1 hm).elim he h.1, nodup_bump h.2⟩

theorem keys_multi {K : Type} [DecidableEq K] (l : List (Nat × List K)) : ∀ m : Counts K, (m.map (·.1)).Nodup →
    ((multi l m).map (·.1)).Nodup ∧ ∀ x, x ∈ (multi l m).map (·.1) ↔ x ∈ m.map (·.1) ∨ ∃ e ∈ l, x ∈ e.2 := by
  have hb : ∀ (ks : List K) (inc : Nat) (m : Counts K), (m.map (·.1)).Nodup →
      ((bumpAll m ks inc).map (·.1)).Nodup ∧ ∀ x, x ∈ (bumpAll m ks inc).map (·.1) ↔ x ∈ m.map (·.1) ∨ x ∈ ks := by
    intro ks inc
    induction ks with
    | nil => intro m h; exact ⟨h, by simp [bumpAll]⟩
    | cons k t ih =>
      intro m h
      obtain ⟨h1, h2⟩ := ih (m.bump k inc) (nodup_bump h)
      refine ⟨h1, fun x => ?_⟩
      have := h2 x
      rw [mem_bump] at this
      show x ∈ (bumpAll (m.bump k inc) t inc).map (·.1) ↔ _
      rw [this, List.mem_cons]
      constructor
      · rintro ((h | h) | h) <;> simp [h]
      · rintro (h | h | h) <;> simp [h]
  induction l with
  | nil => intro m h; exact ⟨h, by simp [multi]⟩
  | cons e t ih =>
    intro m h
    obtain ⟨h1, h2⟩ := hb e.2 e.1 m h
    obtain ⟨h3, h4⟩ := ih _ h1
    refine ⟨h3, fun x => ?_⟩
    show x ∈ (multi t (bumpAll m e.2 e.1)).map (·.1) ↔ _
    rw [h4, h2]
    simp only [List.mem_cons, exists_eq_or_imp, or_assoc]

/-- C32. The request count threshold keeps of every coordinate exactly the count that reaches it. -/
theorem C32_threshold {d : SDoc} (hv : d.Valid) {ops : Recorded} (hok : RecordedOk d ops) {u : Usage}
    (hr : Result d ops u) (t : Nat) :
    (∀ k, (u.threshold t).fields.get k = (u.fields.get k).filter fun c => decide (t ≤ c)) ∧
    (∀ k, (u.threshold t).args.get k = (u.args.get k).filter fun c => decide (t ≤ c)) ∧
    (∀ k, (u.threshold t).enums.get k = (u.enums.get k).filter fun c => decide (t ≤ c)) ∧
    (∀ k, (u.threshold t).leftOut.get k = (u.leftOut.get k).filter fun c => decide (t ≤ c)) ∧
    (∀ k, (u.threshold t).conds.get k = (u.conds.get k).filter fun c => decide (t ≤ c)) := by
  obtain ⟨pl, _, _, rfl⟩ := result_spec hv hok hr
  obtain ⟨h1, h2, h3, h4, h5⟩ := runAll_proj (pl.map fun p => (p.1, p.2.1)) Usage.init
  have nd : ∀ {K : Type} [DecidableEq K] (l : List (Nat × List K)) (m : Counts K), m = multi l [] →
      (m.map (·.1)).Nodup := by
    intro K _ l m hm
    rw [hm]
    exact (keys_multi l [] (by simp)).1
  exact ⟨fun k => get_retain _ (nd _ _ h1) t k, fun k => get_retain _ (nd _ _ h2) t k,
    fun k => get_retain _ (nd _ _ h3) t k, fun k => get_retain _ (nd _ _ h4) t k,
    fun k => get_retain _ (nd _ _ h5) t k⟩

/-! ## What is not counted -/

/-- The witnesses: `Query` (0) has a field `0` with an optional argument `0` and a field `1` with a
required argument `1` that has a default; the interface `5` has a field with an argument. -/
def exDoc : SDoc :=
  ⟨[⟨0, .object, [], [⟨0, 9, .named true, [⟨0, 9, .named true, false⟩]⟩,
      ⟨1, 9, .named true, [⟨1, 9, .named false, true⟩]⟩,
      ⟨2, 5, .named true, []⟩]⟩,
    ⟨5, .interface, [], [⟨3, 9, .named true, [⟨4, 8, .named true, false⟩]⟩]⟩,
    ⟨6, .object, [5], [⟨3, 9, .named true, [⟨4, 8, .list true (.named true), false⟩]⟩]⟩], 0, 100, 101⟩

theorem exDoc_valid : exDoc.Valid := by
  constructor <;> decide

/-- `{ f1 }`: the argument is left out. -/
def leaveOut : Doc := ⟨[], .query, [], .field 1 [] .nil .nil⟩

theorem leaveOut_uses : Uses exDoc leaveOut [.field 0 1, .leftOut 0 1 1] := by
  refine ⟨_, ?_, rfl⟩
  exact Expands.field (us := []) (vs := []) (by decide +kernel : exDoc.fieldDef 0 1 = some ⟨1, 9, .named true, [⟨1, 9, .named false, true⟩]⟩)
    Expands.nil Expands.nil


/-- One operation executed `n` times. -/
theorem recorded_one {d : SDoc} {n : Nat} {q : Doc} {us : List Use} (hn : n < 2 ^ 64) (hu : Uses d q us)
    (hf : (q.fragments.map (·.1)).Nodup) : RecordedOk d [(n, q, us)] := by
  intro o ho
  rw [List.mem_singleton] at ho
  subst ho
  exact ⟨hn, hu, hf⟩

/-- C32 is false for arguments left out: `{ f1 }` leaves out the argument of `f1`, but because an argument of
an earlier field of the type comes first in the table, nothing is recorded. -/
theorem C32_left_out_hidden : ∃ (d : SDoc) (ops : Recorded) (u : Usage), d.Valid ∧ RecordedOk d ops ∧ Result d ops u ∧
    used ops (· == .leftOut 0 1 1) = true ∧ leftOutCount d u 0 1 1 = none :=
  ⟨exDoc, [(3, leaveOut, [.field 0 1, .leftOut 0 1 1])], ⟨3, [(1, 3)], [], [], [], []⟩, exDoc_valid,
    recorded_one (by decide) leaveOut_uses (by decide), result_of 5 (by decide +kernel), by decide, by decide +kernel⟩

/-- `{ f2 { f3(a4: V) } }` on an interface. -/
def onInterface : Doc := ⟨[], .query, [], .field 2 [] (.field 3 [⟨4, .enum 7⟩] .nil .nil) .nil⟩

theorem onInterface_uses :
    Uses exDoc onInterface [.field 0 2, .field 5 3, .arg 5 3 4, .enumValue 5 3 4 8 7] := by
  refine ⟨_, ?_, rfl⟩
  exact Expands.field (us := [.field 5 3, .arg 5 3 4, .enumValue 5 3 4 8 7]) (vs := [])
    (by decide +kernel : exDoc.fieldDef 0 2 = some ⟨2, 5, .named true, []⟩)
    (Expands.field (us := []) (vs := [])
      (by decide +kernel : exDoc.fieldDef 5 3 = some ⟨3, 9, .named true, [⟨4, 8, .named true, false⟩]⟩)
      Expands.nil Expands.nil)
    Expands.nil

/-- C32 is false for arguments of interface fields: they and the enum values they carry are not counted. -/
theorem C32_interface_argument_not_counted : ∃ (d : SDoc) (ops : Recorded) (u : Usage), d.Valid ∧ RecordedOk d ops ∧
    Result d ops u ∧ used ops (· == .arg 5 3 4) = true ∧ used ops (· == .enumValue 5 3 4 8 7) = true ∧
    (d.argDef 5 3 4).isSome = true ∧ argCount d u 5 3 4 = none ∧ u.enums.get (8, 7) = none :=
  ⟨exDoc, [(1, onInterface, [.field 0 2, .field 5 3, .arg 5 3 4, .enumValue 5 3 4 8 7])],
    ⟨1, [(2, 1), (3, 1)], [], [], [], []⟩, exDoc_valid,
    recorded_one (by decide) onInterface_uses (by decide), result_of 5 (by decide +kernel), by decide, by decide,
    by decide +kernel, by decide +kernel, by decide +kernel⟩

/-- `{ f2 { ... on T6 { f3(a4: [V]) } } }`. -/
def enumInList : Doc :=
  ⟨[], .query, [], .field 2 [] (.inline (some 6) (.field 3 [⟨4, .enumList [7]⟩] .nil .nil) .nil) .nil⟩

theorem enumInList_uses :
    Uses exDoc enumInList [.field 0 2, .inlineOn 5 6, .field 6 3, .arg 6 3 4, .enumItem 6 3 4 8 7] := by
  refine ⟨_, ?_, rfl⟩
  exact Expands.field (us := [.inlineOn 5 6, .field 6 3, .arg 6 3 4, .enumItem 6 3 4 8 7]) (vs := [])
    (by decide +kernel : exDoc.fieldDef 0 2 = some ⟨2, 5, .named true, []⟩)
    (Expands.inlineOn (us := [.field 6 3, .arg 6 3 4, .enumItem 6 3 4 8 7]) (vs := [])
      (Expands.field (us := []) (vs := [])
        (by decide +kernel : exDoc.fieldDef 6 3 = some ⟨3, 9, .named true, [⟨4, 8, .list true (.named true), false⟩]⟩)
        Expands.nil Expands.nil)
      Expands.nil)
    Expands.nil

/-- C32 is false for enum values inside lists, and for the weight of type conditions: the operation is
executed 1000 times. -/
theorem C32_enum_in_list_not_counted : ∃ (d : SDoc) (ops : Recorded) (u : Usage), d.Valid ∧ RecordedOk d ops ∧
    Result d ops u ∧ used ops (· == .enumItem 6 3 4 8 7) = true ∧ u.enums.get (8, 7) = none ∧
    total ops (· == .inlineOn 5 6) = 1000 ∧ u.conds.get (5, 6) = some 1 :=
  ⟨exDoc, [(1000, enumInList, [.field 0 2, .inlineOn 5 6, .field 6 3, .arg 6 3 4, .enumItem 6 3 4 8 7])],
    ⟨1000, [(2, 1000), (4, 1000)], [(2, 1000)], [], [], [((5, 6), 1)]⟩, exDoc_valid,
    recorded_one (by decide) enumInList_uses (by decide), result_of 5 (by decide +kernel), by decide, by decide +kernel,
    by decide +kernel, by decide +kernel⟩

/-- `fragment F on T6 { f3 }  { f2 { ...F } }`. -/
def viaFragment : Doc :=
  ⟨[(50, 6, .field 3 [] .nil .nil)], .query, [], .field 2 [] (.spread 50 .nil) .nil⟩

theorem viaFragment_uses : Uses exDoc viaFragment [.field 0 2, .spreadOn 5 6, .field 6 3] := by
  refine ⟨_, ?_, rfl⟩
  exact Expands.field (us := [.spreadOn 5 6, .field 6 3]) (vs := [])
    (by decide +kernel : exDoc.fieldDef 0 2 = some ⟨2, 5, .named true, []⟩)
    (Expands.spread (us := [.field 6 3]) (vs := []) List.mem_cons_self
      (Expands.field (us := []) (vs := [])
        (by decide +kernel : exDoc.fieldDef 6 3 = some ⟨3, 9, .named true, [⟨4, 8, .list true (.named true), false⟩]⟩)
        Expands.nil Expands.nil)
      Expands.nil)
    Expands.nil

/-- C32 is false for the type condition of a named fragment: it is not recorded. -/
theorem C32_named_fragment_condition_not_counted : ∃ (d : SDoc) (ops : Recorded) (u : Usage), d.Valid ∧
    RecordedOk d ops ∧ Result d ops u ∧ used ops (· == .spreadOn 5 6) = true ∧ u.conds.get (5, 6) = none ∧
    fieldCount d u 6 3 = some 4 :=
  ⟨exDoc, [(4, viaFragment, [.field 0 2, .spreadOn 5 6, .field 6 3])],
    ⟨4, [(2, 4), (4, 4)], [], [], [], []⟩, exDoc_valid,
    recorded_one (by decide) viaFragment_uses (by decide), result_of 5 (by decide +kernel), by decide, by decide +kernel,
    by decide +kernel⟩

/-- `fragment F on T0 { ...F }  { ...F }`. -/
def cyclic : Doc := ⟨[(50, 0, .spread 50 .nil)], .query, [], .spread 50 .nil⟩

/-- C32. A recorded operation with a fragment cycle exhausts every stack. -/
theorem C32_cycle_overflows_stack (fuel inc : Nat) (u : Usage) :
    aggregateAll fuel (Schema.ofDoc exDoc) [(inc, cyclic)] u = none := by
  have hset : ∀ sid, sid = 0 ∨ sid = 1 → (Operation.ofDoc cyclic).selectionSet sid = [.spread 50] := by
    rintro sid (rfl | rfl) <;> decide +kernel
  have hfrag : (Operation.ofDoc cyclic).fragments = [(50, 0, 0)] := by decide +kernel
  have key : ∀ (fuel sid : Nat), sid = 0 ∨ sid = 1 → ∀ ty u,
      aggInner (Operation.ofDoc cyclic) (Schema.ofDoc exDoc) fuel sid ty u = none := by
    intro fuel
    induction fuel with
    | zero => intros; rfl
    | succ n ih =>
      intro sid hs ty u
      unfold aggInner
      rw [hset sid hs]
      unfold aggItems
      rw [hfrag]
      simp only [List.find?_cons, decide_true]
      rw [ih 0 (Or.inl rfl)]
  unfold aggregateAll aggregate
  rw [key fuel _ (Or.inr (by decide +kernel))]

end Verif.OpChecks
