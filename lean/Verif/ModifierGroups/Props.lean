import Verif.ModifierGroups.Calls
/-!
# C46: grouping authorization rules preserves the rules
-/
namespace Verif.ModifierGroups

/-! ## Independent description -/

/-- The ids of a range. -/
def Rng.ids (r : Rng) : List Nat := List.range' r.start (r.stop - r.start)

/-- What an extension gets: each of its elements with the name of the directive under which the
element is listed. -/
def received (c : Call) : List (Nat × Nat × Rec) :=
  c.names.flatMap fun d => ((c.elements.take d.mods.stop).drop d.mods.start).map fun r => (c.ext, d.name, r)

/-- A record with the extension and the name of its directive. -/
def tagged (schema : Nat → Dir) (r : Rec) : Nat × Nat × Rec :=
  match r.rule with
  | .extension d _ => ((schema d).ext, (schema d).name, r)
  | .executable _ => (0, 0, r)

def IsExt (r : Rec) : Prop := ∃ d t, r.rule = .extension d t
def IsNative (r : Rec) : Prop := ∃ d, r.rule = .executable d

theorem tile_ids {rs : List Rng} {a b : Nat} (h : Tile rs a b) :
    rs.flatMap Rng.ids = List.range' a (b - a) := by
  induction rs generalizing a with
  | nil => simp only [Tile] at h; subst h; simp
  | cons r t ih =>
    obtain ⟨h1, h2, h3⟩ := h
    have := h3.le
    rw [List.flatMap_cons, ih h3, Rng.ids, h1]
    rw [show b - a = (r.stop - a) + (b - r.stop) by omega, List.range'_append_1.symm]
    rw [show a + (r.stop - a) = r.stop by omega]

theorem flatMap_congr {α β : Type} {l : List α} {f g : α → List β} (h : ∀ a ∈ l, f a = g a) :
    l.flatMap f = l.flatMap g := by
  induction l with
  | nil => rfl
  | cons x t ih => rw [List.flatMap_cons, List.flatMap_cons, h x (by simp), ih (fun a ha => h a (by simp [ha]))]

/-- The groups built from any sorted list of records: the native range holds exactly the native
records; by id, each extension record is in exactly one extension group and exactly one directive
group, both of its own extension and name; each directive group is in exactly one extension group; two
groups never share an extension, nor a name within an extension. -/
theorem C46_groups {schema : Nat → Dir} {rank : Nat → Nat} (hr : ∀ a b, rank a = rank b → a = b)
    {l out : List Rec} (hs : SortOf schema rank out l) :
    ∃ g, build schema out = some g ∧
      g.native.start = 0 ∧
      (∀ i r, out[i]? = some r → (i < g.native.stop ↔ IsNative r)) ∧ g.native.stop ≤ out.length ∧
      g.byDir.flatMap (·.mods.ids) = List.range' g.native.stop (out.length - g.native.stop) ∧
      g.byExt.flatMap (·.mods.ids) = List.range' g.native.stop (out.length - g.native.stop) ∧
      g.byExt.flatMap (·.dirs.ids) = List.range' 0 g.byDir.length ∧
      (∀ e ∈ g.byExt, ((g.byDir.take e.dirs.stop).drop e.dirs.start).flatMap (·.mods.ids) = e.mods.ids) ∧
      (∀ e ∈ g.byExt, ∀ i ∈ e.mods.ids, ∃ d t b f, out[i]? = some ⟨.extension d t, b, f⟩ ∧ (schema d).ext = e.ext) ∧
      (∀ e ∈ g.byDir, ∀ i ∈ e.mods.ids, ∃ d t b f, out[i]? = some ⟨.extension d t, b, f⟩ ∧ (schema d).name = e.name) ∧
      (g.byExt.map (·.ext)).Nodup ∧
      (∀ e ∈ g.byExt, (((g.byDir.take e.dirs.stop).drop e.dirs.start).map (·.name)).Nodup) := by
  obtain ⟨n, e, rfl, hn, he⟩ := sorted_split hs.2
  obtain ⟨byExt, byDir, hb, hg, -⟩ := build_good hr hs.2 hn he
  refine ⟨_, hb, rfl, ?_, by simp, ?_, ?_, ?_, ?_, ?_, ?_, ?_, ?_⟩
  · intro i r hi
    constructor
    · intro h
      rw [List.getElem?_append_left h] at hi
      exact hn r (List.mem_of_getElem? hi)
    · rintro ⟨d, hd⟩
      apply Classical.byContradiction
      intro h
      rw [List.getElem?_append_right (by simpa using h)] at hi
      obtain ⟨d', t, ht⟩ := he r (List.mem_of_getElem? hi)
      rw [ht] at hd; cases hd
  · rw [← tile_ids hg.tdir, List.flatMap_map]
  · rw [← tile_ids hg.temod, List.flatMap_map]
  · show List.flatMap _ byExt = List.range' 0 byDir.length
    have := tile_ids hg.tedir
    rw [List.flatMap_map, Nat.sub_zero] at this
    exact this
  · intro x hx
    have := tile_ids (hg.tin x hx)
    rw [List.flatMap_map] at this
    exact this
  · intro x hx i hi
    rw [Rng.ids, List.mem_range'_1] at hi
    obtain ⟨d, h1, h2⟩ := hg.ext x hx i (by omega) (by omega)
    simp only [dirAt, Option.bind_eq_some_iff] at h1
    obtain ⟨⟨rule, b, f⟩, h3, h4⟩ := h1
    cases rule with
    | executable d => simp [dirOf] at h4
    | extension d t =>
      simp only [dirOf, Option.some.injEq] at h4
      exact ⟨d, t, b, f, h3, by rw [h4]; exact h2⟩
  · intro x hx i hi
    rw [Rng.ids, List.mem_range'_1] at hi
    obtain ⟨d, h1, h2⟩ := hg.name x hx i (by omega) (by omega)
    simp only [dirAt, Option.bind_eq_some_iff] at h1
    obtain ⟨⟨rule, b, f⟩, h3, h4⟩ := h1
    cases rule with
    | executable d => simp [dirOf] at h4
    | extension d t =>
      simp only [dirOf, Option.some.injEq] at h4
      exact ⟨d, t, b, f, h3, by rw [h4]; exact h2⟩
  · exact hg.exts.imp (fun h => Nat.ne_of_lt h)
  · intro x hx
    exact (hg.names x hx).imp (fun h e => by rw [e] at h; exact Nat.lt_irrefl _ h)

theorem received_callOf {schema : Nat → Dir} {rank : Nat → Nat} {out : List Rec} {b : Nat}
    {byExt : List EGroup} {byDir : List DGroup} (hg : Good schema rank out b byExt byDir)
    (he' : ∀ r ∈ out, ∃ d t, r.rule = .extension d t) (hlen : out.length < 2 ^ 32) :
    ∀ e ∈ byExt, received (callOf out byDir e) =
        ((out.take e.mods.stop).drop e.mods.start).map (tagged schema) := by
  intro e hmem
  have hm := hg.temod.mem (List.mem_map_of_mem (f := (·.mods)) hmem)
  have ht := hg.tin e hmem
  unfold received callOf
  refine tile_slices e rfl ht (Nat.le_refl _) (Nat.le_refl _) hm.2.2 hlen
    (tagged schema) (fun d r => (e.ext, d.name, r)) ?_ ?_
  · clear hlen
    intro d hd i h1 h2 r hri
    have hd' : d ∈ byDir := List.mem_of_mem_take (List.mem_of_mem_drop hd)
    have hrange := ht.mem (List.mem_map_of_mem (f := (·.mods)) hd)
    obtain ⟨x, hx1, hx2⟩ := hg.ext e hmem i (by omega) (by omega)
    obtain ⟨y, hy1, hy2⟩ := hg.name d hd' i h1 h2
    rw [hx1] at hy1
    cases hy1
    simp only [dirAt, hri, Option.bind_some, dirOf] at hx1
    obtain ⟨dd, t, ht⟩ := he' r (List.mem_of_getElem? hri)
    simp only [ht, Option.some.injEq] at hx1
    simp only [tagged, ht, hx1, hx2, hy2]
  · intro d
    cases d
    rfl

/-- An operation with no `@skip`/`@include`: the calls made hand over the records, each exactly once
and to its extension under its directive name, in sorted order; an extension is called at most once and
no element is sent outside of a named range. -/
theorem C46_delivered_partial {schema : Nat → Dir} {rank : Nat → Nat}
    (hr : ∀ a b, rank a = rank b → a = b) {l out : List Rec} (hs : SortOf schema rank out l)
    (he : ∀ r ∈ l, IsExt r) (h32 : l.length < 2 ^ 32) :
    ∃ g cs, build schema out = some g ∧ evaluate g out = some ([], cs) ∧
      cs.flatMap received = out.map (tagged schema) ∧
      (cs.flatMap received).Perm (l.map (tagged schema)) ∧
      cs.flatMap (·.elements) = out ∧
      (cs.map (·.ext)).Nodup ∧ (∀ c ∈ cs, (c.names.map (·.name)).Nodup) ∧ ∀ c ∈ cs, c.elements ≠ [] := by
  have he' : ∀ r ∈ out, ∃ d t, r.rule = .extension d t := fun r hr => he r (hs.1.mem_iff.1 hr)
  have hlen : out.length < 2 ^ 32 := by rw [hs.1.length_eq]; exact h32
  obtain ⟨byExt, byDir, hb, hg, hnil⟩ := build_good (n := []) hr hs.2 (by simp) he'
  simp only [List.nil_append] at hb hg hnil
  have hcalls := calls_good (nat := ⟨0, 0⟩) hg he'
  have hrec : (byExt.map (callOf out byDir)).flatMap received = out.map (tagged schema) := by
    rw [List.flatMap_map]
    have key := received_callOf hg he' hlen
    rw [flatMap_congr key, ← List.map_flatMap]
    have := tile_join hg.temod (Nat.le_refl out.length)
    rw [List.flatMap_map] at this
    rw [this]; simp
  refine ⟨_, byExt.map (callOf out byDir), hb, ?_, hrec, ?_, ?_, ?_, ?_, ?_⟩
  · simp only [evaluate, List.length_nil]
    rw [slice_some (by simp) (by simp)]
    simp only [List.take_zero, List.drop_zero, Option.bind_some, List.any_nil, Bool.false_eq_true, if_false]
    cases hbe : byExt with
    | nil => simp
    | cons x t => rw [hbe] at hcalls; simp [hcalls]
  · rw [hrec]; exact hs.1.map _
  · rw [List.flatMap_map]
    have := tile_join hg.temod (Nat.le_refl out.length)
    rw [List.flatMap_map] at this
    simp only [callOf]
    rw [this]; simp
  · rw [List.map_map]
    exact hg.exts.imp (fun h => Nat.ne_of_lt h)
  · intro c hc
    obtain ⟨e, hmem, rfl⟩ := List.mem_map.1 hc
    clear hlen h32
    have hsh : ((·.name) ∘ shift e : DGroup → Nat) = (·.name) := by funext d; cases d; rfl
    simp only [callOf, List.map_map, hsh]
    exact (hg.names e hmem).imp (fun h e => by rw [e] at h; exact Nat.lt_irrefl _ h)
  · intro c hc
    obtain ⟨e, hmem, rfl⟩ := List.mem_map.1 hc
    have hm := hg.temod.mem (List.mem_map_of_mem (f := (·.mods)) hmem)
    clear hlen h32
    simp only [callOf]
    intro h0
    have := congrArg List.length h0
    simp at this
    omega

/-- A denial of element `ix` by an extension hits the record that was element `ix` of its call; an
index past the end panics. -/
theorem C46_denied {schema : Nat → Dir} {rank : Nat → Nat} (hr : ∀ a b, rank a = rank b → a = b)
    {l out : List Rec} (hs : SortOf schema rank out l) (he : ∀ r ∈ l, IsExt r) :
    ∃ (g : Groups) (cs : List Call), build schema out = some g ∧ evaluate g out = some ([], cs) ∧
      cs.length = g.byExt.length ∧ ∀ (k : Nat) (c : Call) (e : EGroup), cs[k]? = some c → g.byExt[k]? = some e →
        c.ext = e.ext ∧ ∀ ix, denied out e.mods ix = c.elements[ix]? := by
  have he' : ∀ r ∈ out, ∃ d t, r.rule = .extension d t := fun r hr => he r (hs.1.mem_iff.1 hr)
  obtain ⟨byExt, byDir, hb, hg, hnil⟩ := build_good (n := []) hr hs.2 (by simp) he'
  simp only [List.nil_append] at hb hg hnil
  have hcalls := calls_good (nat := ⟨0, 0⟩) hg he'
  refine ⟨_, byExt.map (callOf out byDir), hb, ?_, by simp, ?_⟩
  · simp only [evaluate, List.length_nil]
    rw [slice_some (by simp) (by simp)]
    simp only [List.take_zero, List.drop_zero, Option.bind_some, List.any_nil, Bool.false_eq_true, if_false]
    cases hbe : byExt with
    | nil => simp
    | cons x t => rw [hbe] at hcalls; simp [hcalls]
  · intro k c e hc hek
    simp only at hek
    rw [List.getElem?_map, hek] at hc
    simp only [Option.map_some, Option.some.injEq] at hc
    subst hc
    refine ⟨rfl, ?_⟩
    intro ix
    simp only [denied, callOf, List.getElem?_drop, List.getElem?_take]

/-- Preparing an operation panics exactly when it has both an `@skip`/`@include` and an authorization
directive: the records handed to the extensions start with the native ones. -/
theorem C46_panics_iff {schema : Nat → Dir} {rank : Nat → Nat} (hr : ∀ a b, rank a = rank b → a = b)
    {l out : List Rec} (hs : SortOf schema rank out l) :
    ∃ g, build schema out = some g ∧
      (evaluate g out = none ↔ (∃ r ∈ l, IsNative r) ∧ ∃ r ∈ l, IsExt r) := by
  obtain ⟨n, e, rfl, hn, he⟩ := sorted_split hs.2
  obtain ⟨byExt, byDir, hb, hg, hnil⟩ := build_good hr hs.2 hn he
  refine ⟨_, hb, ?_⟩
  have hslice : slice (n ++ e) ⟨0, n.length⟩ = some n := by
    rw [slice_some (by simp) (by simp)]; simp
  have hany : n.any isExtension = false := by
    rw [List.any_eq_false]
    intro r hr
    obtain ⟨d, hd⟩ := hn r hr
    simp [isExtension, hd]
  simp only [evaluate, hslice, Option.bind_some, hany, Bool.false_eq_true, if_false]
  cases e with
  | nil =>
    have : byExt = [] := hnil.1 rfl
    subst this
    simp only [List.isEmpty_nil, if_true, reduceCtorEq, false_iff, not_and, not_exists]
    rintro - r hr ⟨d, t, ht⟩
    obtain ⟨d', hd'⟩ := hn r (by have := hs.1.mem_iff.2 hr; simpa using this)
    rw [ht] at hd'; cases hd'
  | cons x t =>
    have hne : byExt ≠ [] := fun h => by have := hnil.2 h; cases this
    have hie : byExt.isEmpty = false := by cases byExt <;> simp_all
    have hex : ∃ r ∈ l, IsExt r := ⟨x, hs.1.mem_iff.1 (by simp), he x (by simp)⟩
    simp only [hie, Bool.false_eq_true, if_false, hex, and_true, Option.map_eq_none_iff]
    cases n with
    | nil =>
      simp only [List.nil_append] at *
      rw [calls_good hg he]
      simp only [reduceCtorEq, false_iff, not_exists, not_and]
      rintro r hr ⟨d, hd⟩
      obtain ⟨d', t', ht⟩ := he r (hs.1.mem_iff.2 hr)
      rw [ht] at hd; cases hd
    | cons y u =>
      obtain ⟨d, hd⟩ := hn y (by simp)
      have h1 : ∃ r ∈ l, IsNative r := ⟨y, hs.1.mem_iff.1 (by simp), d, hd⟩
      simp only [h1, iff_true]
      have h2 := elements_of_native (l := y :: u ++ x :: t) (r := y) (by simp) hd
      unfold calls
      rw [h2]
      rfl

/-- All the inserts, in any order: each rule inserted has exactly one record (in the order in which
they were first inserted, after the native ones), listing exactly the fields inserted for it in order,
and marked for the root object iff the rule was inserted without a field. -/
theorem C46_accumulated (native : List Rec) (ins : List (Rule × Option Nat)) :
    ∃ a new, insertAll (start native) ins = some a ∧ a.recs = native ++ new ∧
      new.map (·.rule) = (ins.map (·.1)).eraseDups ∧ (new.map (·.rule)).Nodup ∧
      ∀ x ∈ new, x.fields = (ins.filter fun i => i.1 = x.rule).filterMap (·.2) ∧
        (x.impactsRoot = true ↔ (x.rule, none) ∈ ins) := by
  obtain ⟨a, h1, h2⟩ := insertAll_inv (native := native) (done := []) (ins := ins) (a := start native)
    ⟨by simp [start], by simp [start]⟩
  simp only [List.nil_append] at h2
  have hid : List.map (·.rule) (((ins.map (·.1)).eraseDups).map (want ins)) = (ins.map (·.1)).eraseDups := by
    rw [List.map_map]
    exact List.map_id'' (fun _ => rfl) _
  refine ⟨a, _, h1, h2.recs, hid, ?_, ?_⟩
  · rw [hid]; exact nodup_eraseDups _
  · intro x hx
    obtain ⟨r, hr, rfl⟩ := List.mem_map.1 hx
    refine ⟨?_, ?_⟩
    · simp only [want, List.filterMap_filter]
      congr 1
      funext x
      by_cases h : x.1 = r <;> simp [h]
    · simp [want]

/-- From the inserts to the extensions, for an operation with no `@skip`/`@include`: whatever the order
of the inserts, every (rule, fields) pair gets to its extension exactly once under its name. -/
theorem C46_rules_partial {schema : Nat → Dir} {rank : Nat → Nat}
    (hr : ∀ a b, rank a = rank b → a = b) (ins : List (Rule × Option Nat))
    (hi : ∀ i ∈ ins, ∃ d t, i.1 = .extension d t) (h32 : ins.length < 2 ^ 32) :
    ∃ a, insertAll (start []) ins = some a ∧ ∀ out, SortOf schema rank out a.recs →
      ∃ g cs, build schema out = some g ∧ evaluate g out = some ([], cs) ∧
        ((cs.flatMap received).map (·.2.2.rule)).Nodup ∧
        (∀ ext nm x, (ext, nm, x) ∈ cs.flatMap received ↔
          ∃ d t, x.rule = .extension d t ∧ (schema d).ext = ext ∧ (schema d).name = nm ∧
            (∃ f, (x.rule, f) ∈ ins) ∧
            x.fields = (ins.filter fun i => i.1 = x.rule).filterMap (·.2) ∧
            (x.impactsRoot = true ↔ (x.rule, none) ∈ ins)) := by
  obtain ⟨a, new, h1, h2, h3, h4, h5⟩ := C46_accumulated [] ins
  simp only [List.nil_append] at h2
  refine ⟨a, h1, ?_⟩
  rw [h2]
  intro out hs
  have hlen : new.length ≤ ins.length := by
    have := congrArg List.length h3
    simp only [List.length_map] at this
    rw [this]
    have h := eraseDups_length_le (ins.map (·.1))
    simpa using h
  have hmem : ∀ x, x ∈ new → ∃ f, (x.rule, f) ∈ ins := by
    intro x hx
    have : x.rule ∈ (ins.map (·.1)).eraseDups := by rw [← h3]; exact List.mem_map_of_mem hx
    rw [List.mem_eraseDups] at this
    obtain ⟨⟨r, f⟩, hy, he⟩ := List.mem_map.1 this
    exact ⟨f, by rw [← he]; exact hy⟩
  have hext : ∀ x ∈ new, IsExt x := by
    intro x hx
    obtain ⟨f, hf⟩ := hmem x hx
    exact hi _ hf
  obtain ⟨g, cs, g1, g2, g3, g4, -⟩ := C46_delivered_partial hr hs hext (by omega)
  refine ⟨g, cs, g1, g2, ?_, ?_⟩
  · have hp := g4.map (·.2.2.rule)
    rw [List.map_map] at hp
    rw [hp.nodup_iff]
    have : List.map ((·.2.2.rule) ∘ tagged schema) new = List.map (·.rule) new := by
      apply List.map_congr_left
      intro x hx
      obtain ⟨d, t, ht⟩ := hext x hx
      simp [tagged, ht]
    rw [this]; exact h4
  · intro ext nm x
    rw [g4.mem_iff, List.mem_map]
    constructor
    · rintro ⟨y, hy, he⟩
      obtain ⟨d, t, ht⟩ := hext y hy
      simp only [tagged, ht, Prod.mk.injEq] at he
      obtain ⟨e1, e2, rfl⟩ := he
      exact ⟨d, t, ht, e1, e2, hmem y hy, h5 y hy⟩
    · rintro ⟨d, t, ht, e1, e2, ⟨f, hf⟩, e3, e4⟩
      have : x.rule ∈ new.map (·.rule) := by
        rw [h3, List.mem_eraseDups]; exact List.mem_map_of_mem (f := (·.1)) hf
      obtain ⟨y, hy, hyr⟩ := List.mem_map.1 this
      have h6 := h5 y hy
      have : y = x := by
        obtain ⟨yr, yb, yf⟩ := y
        obtain ⟨xr, xb, xf⟩ := x
        simp only at hyr e3 e4 h6
        subst hyr
        rw [← e3] at h6
        simp only [Rec.mk.injEq, true_and]
        refine ⟨?_, h6.1⟩
        have := h6.2.trans e4.symm
        cases yb <;> cases xb <;> simp_all
      subst this
      exact ⟨y, hy, by simp [tagged, ht, e1, e2]⟩

/-! ## The hypotheses are met -/

/-- Directives 0 and 1 are `@a` and `@b` of extension 7, directive 2 is `@a` of extension 3. -/
def schemaEx : Nat → Dir
  | 0 => ⟨7, 10⟩ | 1 => ⟨7, 11⟩ | _ => ⟨3, 10⟩

def insEx : List (Rule × Option Nat) :=
  [(.extension 0 0, some 1), (.extension 1 0, some 1), (.extension 2 5, none), (.extension 0 0, some 4),
   (.extension 0 9, some 2)]

/-- The four rules, sorted. -/
def outEx : List Rec :=
  [⟨.extension 2 5, true, []⟩, ⟨.extension 0 9, false, [2]⟩, ⟨.extension 0 0, false, [1, 4]⟩,
   ⟨.extension 1 0, false, [1]⟩]

example : (insertAll (start []) insEx).map (·.recs) =
    some [⟨.extension 0 0, false, [1, 4]⟩, ⟨.extension 1 0, false, [1]⟩, ⟨.extension 2 5, true, []⟩,
      ⟨.extension 0 9, false, [2]⟩] := by decide

example : SortOf schemaEx id outEx [⟨.extension 0 0, false, [1, 4]⟩, ⟨.extension 1 0, false, [1]⟩,
    ⟨.extension 2 5, true, []⟩, ⟨.extension 0 9, false, [2]⟩] := by
  unfold SortOf; decide

example : build schemaEx outEx = some ⟨⟨0, 0⟩, [⟨3, ⟨0, 1⟩, ⟨0, 1⟩⟩, ⟨7, ⟨1, 3⟩, ⟨1, 4⟩⟩],
    [⟨10, ⟨0, 1⟩⟩, ⟨10, ⟨1, 3⟩⟩, ⟨11, ⟨3, 4⟩⟩]⟩ := by decide

example : ((build schemaEx outEx).bind fun g => evaluate g outEx).map (·.2) =
    some [⟨3, [⟨10, ⟨0, 1⟩⟩], [⟨.extension 2 5, true, []⟩]⟩,
      ⟨7, [⟨10, ⟨0, 2⟩⟩, ⟨11, ⟨2, 3⟩⟩], [⟨.extension 0 9, false, [2]⟩, ⟨.extension 0 0, false, [1, 4]⟩,
        ⟨.extension 1 0, false, [1]⟩]⟩] := by decide

/-- **The claim is false**: `{ a @skip(if: $v) b }` with an authorization directive on `b` panics. -/
theorem C46_false : ((build schemaEx [⟨.executable 0, false, [0]⟩, ⟨.extension 0 0, false, [1]⟩]).bind fun g =>
    evaluate g [⟨.executable 0, false, [0]⟩, ⟨.extension 0 0, false, [1]⟩]) = none := by decide

end Verif.ModifierGroups
