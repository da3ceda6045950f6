import Verif.Templates.Lemmas

/-!
# C88: arguments stay where templates put them
-/
namespace Verif.Templates

/-! ## Values -/

theorem written_unreserved {c : Char} (h : writtenChar c) : StoreUrls.Unreserved c := by
  rcases h with h | rfl | rfl | rfl
  · exact Or.inr (Or.inr (Or.inl h))
  · exact Or.inr (Or.inr (Or.inr (Or.inl rfl)))
  · exact Or.inr (Or.inr (Or.inr (Or.inr (Or.inl rfl))))
  · exact Or.inl (by decide)

theorem unreserved_small {c : Char} (h : StoreUrls.Unreserved c) : c ≠ '%' ∧ c.toNat < 128 := by
  have ez : 'z'.toNat = 122 := rfl
  have eZ : 'Z'.toNat = 90 := rfl
  have e9 : '9'.toNat = 57 := rfl
  have ea : 'a'.toNat = 97 := rfl
  have eA : 'A'.toNat = 65 := rfl
  have e0 : '0'.toNat = 48 := rfl
  have ep : '%'.toNat = 37 := rfl
  unfold StoreUrls.Unreserved at h
  rw [ea, ez, eA, eZ, e0, e9] at h
  rcases h with h | h | h | rfl | rfl | rfl | rfl
  · exact ⟨fun e => by rw [e, ep] at h; omega, by omega⟩
  · exact ⟨fun e => by rw [e, ep] at h; omega, by omega⟩
  · exact ⟨fun e => by rw [e, ep] at h; omega, by omega⟩
  all_goals exact ⟨by decide, by decide⟩

theorem urlText_plain : ∀ t : Str, (∀ c ∈ t, StoreUrls.Unreserved c) → urlText t = t.map Char.toNat
  | [], _ => rfl
  | c :: t, h => by
    have ih := urlText_plain t (fun x hx => h x (List.mem_cons_of_mem _ hx))
    obtain ⟨h1, h2⟩ := unreserved_small (h c List.mem_cons_self)
    unfold urlText at ih ⊢
    rw [StoreUrls.unescape_char h1, StoreUrls.points.eq_def]
    simp only
    rw [if_pos h2, ih]
    rfl

/-- What is written of a value in a JSON template is JSON of the value. -/
theorem C88_json (v : Json) (h : Fine v) : IsJson (escaped .json v) v := by
  have : escaped .json v = toJson v := by
    cases v with
    | null => rw [toJson]; rfl
    | bool b => rw [toJson]; rfl
    | num t => rw [toJson]; rfl
    | str s => rfl
    | arr l => rfl
    | obj l => rfl
  rw [this]
  exact isJson_toJson h

/-- What is written of a value in a URL template has no character with a meaning in URLs, and is read as the string, or as JSON of the value. -/
theorem C88_url (v : Json) (h : Fine v) : IsUrl (escaped .url v) v := by
  have plain : ∀ t : Str, (∀ c ∈ t, StoreUrls.Unreserved c) → toJson v = t → escaped .url v = t → (∀ s, v ≠ .str s) → IsUrl (escaped .url v) v := by
    intro t ht e1 e2 hv
    rw [e2]
    exact ⟨fun c hc => Or.inl (ht c hc), t, urlText_plain t ht, Or.inr ⟨hv, e1 ▸ isJson_toJson h⟩⟩
  have letters : ∀ t : Str, (∀ c ∈ t, 'a'.toNat ≤ c.toNat ∧ c.toNat ≤ 'z'.toNat) → ∀ c ∈ t, StoreUrls.Unreserved c := fun t ht c hc => Or.inl (ht c hc)
  have coded : (∀ s, v ≠ .str s) → escaped .url v = urlencode (toJson v) → IsUrl (escaped .url v) v := by
    intro hv e
    rw [e]
    exact ⟨urlencode_harmless _, _, urlText_urlencode _, Or.inr ⟨hv, isJson_toJson h⟩⟩
  cases v with
  | null => exact plain "null".toList (letters _ (by decide +kernel)) (by rw [toJson]) rfl (by intro s e; cases e)
  | bool b =>
    cases b with
    | true => exact plain "true".toList (letters _ (by decide +kernel)) (by rw [toJson]; rfl) rfl (by intro s e; cases e)
    | false => exact plain "false".toList (letters _ (by decide +kernel)) (by rw [toJson]; rfl) rfl (by intro s e; cases e)
  | num t =>
    have h' := h
    rw [Fine] at h'
    exact plain t (fun c hc => written_unreserved (h'.2 c hc)) (by rw [toJson]) rfl (by intro s e; cases e)
  | str s => exact ⟨urlencode_harmless _, s, urlText_urlencode s, Or.inl ⟨s, rfl, rfl⟩⟩
  | arr l => exact coded (by intro s e; cases e) rfl
  | obj l => exact coded (by intro s e; cases e) rfl

theorem is_escaped (e : Escaping) (v : Json) (h : Fine v) : Is e (escaped e v) v := by
  cases e with
  | json => exact C88_json v h
  | url => exact C88_url v h

/-! ## Names -/

theorem keys_plain : ∀ k : Str, '.' ∉ k → keys k = [k]
  | [], _ => rfl
  | c :: k, h => by
    rw [keys, if_neg (fun e => h (by rw [e]; exact List.mem_cons_self)), keys_plain k (fun hm => h (List.mem_cons_of_mem _ hm))]

theorem keys_append : ∀ (k t : Str), '.' ∉ k → keys (k ++ '.' :: t) = k :: keys t
  | [], t, _ => by rw [List.nil_append, keys, if_pos rfl]
  | c :: k, t, h => by
    rw [List.cons_append, keys, if_neg (fun e => h (by rw [e]; exact List.mem_cons_self)),
      keys_append k t (fun hm => h (List.mem_cons_of_mem _ hm))]

theorem keys_dotted : ∀ (k : Str) (ks : List Str), '.' ∉ k → (∀ x ∈ ks, '.' ∉ x) → keys (dotted k ks) = k :: ks
  | k, [], h, _ => keys_plain k h
  | k, k' :: ks, h, hs => by
    rw [dotted, keys_append k _ h, keys_dotted k' ks (hs k' List.mem_cons_self) (fun x hx => hs x (List.mem_cons_of_mem _ hx))]

theorem find_first {l : List (Str × Json)} {k : Str} {v : Json} :
    (l.find? (fun f => f.1 == k)).map (·.2) = some v ↔ ∃ before after, l = before ++ (k, v) :: after ∧ ∀ f ∈ before, f.1 ≠ k := by
  induction l with
  | nil => simp
  | cons f l ih =>
    obtain ⟨k', v'⟩ := f
    rw [List.find?_cons]
    by_cases hk : k' = k
    · have : ((k', v').1 == k) = true := by simp [hk]
      rw [this]
      constructor
      · intro e
        have e : v' = v := Option.some.inj e
        exact ⟨[], l, by rw [hk, e]; rfl, by intro f hf; cases hf⟩
      · rintro ⟨before, after, e, hb⟩
        cases before with
        | nil =>
          simp only [List.nil_append, List.cons.injEq, Prod.mk.injEq] at e
          rw [← e.1.2]
          rfl
        | cons b before =>
          simp only [List.cons_append, List.cons.injEq] at e
          exact absurd (by rw [← e.1]; exact hk) (hb b List.mem_cons_self)
    · have : ((k', v').1 == k) = false := by simp [hk]
      rw [this]
      simp only
      rw [ih]
      constructor
      · rintro ⟨before, after, e, hb⟩
        refine ⟨(k', v') :: before, after, by rw [e]; rfl, ?_⟩
        intro f hf
        rcases List.mem_cons.mp hf with rfl | hf
        · exact hk
        · exact hb f hf
      · rintro ⟨before, after, e, hb⟩
        cases before with
        | nil =>
          simp only [List.nil_append, List.cons.injEq, Prod.mk.injEq] at e
          exact absurd e.1.1 hk
        | cons b before =>
          simp only [List.cons_append, List.cons.injEq] at e
          exact ⟨before, after, e.2, fun f hf => hb f (List.mem_cons_of_mem _ hf)⟩

theorem child_iff {v w : Json} {k : Str} : child v k = some w ↔
    ∃ before after, v = .obj (before ++ (k, w) :: after) ∧ ∀ f ∈ before, f.1 ≠ k := by
  cases v with
  | obj l =>
    rw [child, find_first]
    constructor
    · rintro ⟨b, a, e, h⟩; exact ⟨b, a, by rw [e], h⟩
    · rintro ⟨b, a, e, h⟩; cases e; exact ⟨b, a, rfl, h⟩
  | _ =>
    constructor
    · intro h; cases h
    · rintro ⟨_, _, e, _⟩; cases e

theorem descend_iff : ∀ (ks : List Str) (v w : Json), descend v ks = some w ↔ At v ks w
  | [], v, w => by
    rw [descend]
    constructor
    · intro e; cases e; exact .here v
    · intro h; cases h; rfl
  | k :: ks, v, w => by
    rw [descend]
    cases hc : child v k with
    | none =>
      constructor
      · intro h; cases h
      · intro h
        cases h with
        | @field before after _ v' _ _ hb h =>
          have := (child_iff (v := .obj (before ++ (k, v') :: after)) (w := v') (k := k)).mpr ⟨before, after, rfl, hb⟩
          rw [hc] at this
          cases this
    | some u =>
      simp only
      rw [descend_iff ks u w]
      constructor
      · intro h
        obtain ⟨b, a, e, hb⟩ := child_iff.mp hc
        rw [e]
        exact .field hb h
      · intro h
        cases h with
        | @field before after _ v' _ _ hb h =>
          have := (child_iff (v := .obj (before ++ (k, v') :: after)) (w := v') (k := k)).mpr ⟨before, after, rfl, hb⟩
          rw [hc] at this
          cases this
          exact h

/-! ## Templates -/

theorem renderBlocks_append (e : Escaping) (stack : List Json) : ∀ (a b : List Block), renderBlocks e (a ++ b) stack = renderBlocks e a stack ++ renderBlocks e b stack
  | [], b => by rw [List.nil_append, renderBlocks, List.nil_append]
  | x :: a, b => by rw [List.cons_append, renderBlocks, renderBlocks, renderBlocks_append e stack a b, List.append_assoc]

theorem fine_sub {v w : Json} (h : Sub v w) : Fine v → Fine w := by
  have elems : ∀ (l : List Json), FineElems l → ∀ f ∈ l, Fine f := by
    intro l
    induction l with
    | nil => intro _ f hf; cases hf
    | cons x l ih =>
      intro h f hf
      rw [FineElems] at h
      rcases List.mem_cons.mp hf with rfl | hf
      · exact h.1
      · exact ih h.2 f hf
  have fields : ∀ (l : List (Str × Json)), FineFields l → ∀ f ∈ l, Fine f.2 := by
    intro l
    induction l with
    | nil => intro _ f hf; cases hf
    | cons x l ih =>
      obtain ⟨k, u⟩ := x
      intro h f hf
      rw [FineFields] at h
      rcases List.mem_cons.mp hf with rfl | hf
      · exact h.1
      · exact ih h.2 f hf
  induction h with
  | refl v => exact id
  | elem hm _ ih => intro hv; rw [Fine] at hv; exact ih (elems _ hv _ hm)
  | field hm _ ih => intro hv; rw [Fine] at hv; exact ih (fields _ hv _ hm)

theorem at_sub {v w : Json} {ks : List Str} (h : At v ks w) : Sub v w := by
  induction h with
  | here v => exact .refl v
  | @field before after k v w ks _ _ ih => exact .field (l := before ++ (k, v) :: after) (k := k) (v := v) (by simp) ih

theorem look_args (ks : List Str) (args : Json) (hk : ∀ k ∈ ks, '.' ∉ k) :
    look [.obj [("args".toList, args)]] (dotted "args".toList ks) = (descend args ks).map (fun v => (v, [.obj [("args".toList, args)]])) := by
  have hname : dotted "args".toList ks ≠ ['.'] := by
    cases ks with
    | nil => decide
    | cons k ks =>
      intro h
      have : ('a' :: ("rgs".toList ++ '.' :: dotted k ks)) = ['.'] := h
      cases this
  have hget : get (.obj [("args".toList, args)]) (dotted "args".toList ks) = descend args ks := by
    rw [get, if_neg hname, keys_dotted _ _ (by decide) hk, descend]
    have : child (.obj [("args".toList, args)]) "args".toList = some args := child_iff.mpr ⟨[], [], rfl, by simp⟩
    rw [this]
  rw [look, hget]
  cases descend args ks <;> rfl

/-- Where a tag names an argument, or a part of one, its value is written between what comes before and after; or nothing, if there is no such
value. -/
theorem C88_field (e : Escaping) (a b : List Block) (ks : List Str) (args : Json) (hk : ∀ k ∈ ks, '.' ∉ k) (hf : Fine args) :
    ∃ w, render e (a ++ .escaped (dotted "args".toList ks) :: b) args = render e a args ++ w ++ render e b args ∧
      ((∃ v, At args ks v ∧ Is e w v) ∨ ((∀ v, ¬ At args ks v) ∧ w = [])) := by
  unfold render
  rw [renderBlocks_append, renderBlocks]
  refine ⟨renderBlock e (.escaped (dotted "args".toList ks)) [.obj [("args".toList, args)]], by rw [List.append_assoc], ?_⟩
  rw [renderBlock, look_args ks args hk]
  cases hd : descend args ks with
  | none =>
    right
    refine ⟨?_, rfl⟩
    intro v hv
    rw [(descend_iff ks args v).mpr hv] at hd
    cases hd
  | some v =>
    left
    have hat := (descend_iff ks args v).mp hd
    exact ⟨v, hat, is_escaped e v (fine_sub (at_sub hat) hf)⟩

theorem sub_trans {u v w : Json} (h : Sub u v) (h' : Sub v w) : Sub u w := by
  induction h with
  | refl v => exact h'
  | elem hm _ ih => exact .elem hm (ih h')
  | field hm _ ih => exact .field hm (ih h')

theorem get_sub {v w : Json} {name : Str} (h : get v name = some w) : Sub v w := by
  unfold get at h
  split at h
  · cases h; exact .refl v
  · exact at_sub ((descend_iff _ _ _).mp h)

theorem look_sub {root : Json} {name : Str} : ∀ (stack : List Json), (∀ s ∈ stack, Sub root s) → ∀ {w : Json} {outer : List Json},
    look stack name = some (w, outer) → Sub root w ∧ ∀ s ∈ outer, Sub root s
  | [], _, _, _, h => by cases h
  | v :: stack, hs, w, outer, h => by
    rw [look] at h
    cases hg : get v name with
    | none =>
      rw [hg] at h
      exact look_sub stack (fun s hm => hs s (List.mem_cons_of_mem _ hm)) h
    | some u =>
      rw [hg] at h
      simp only [Option.some.injEq, Prod.mk.injEq] at h
      obtain ⟨rfl, rfl⟩ := h
      exact ⟨sub_trans (hs v List.mem_cons_self) (get_sub hg), hs⟩

theorem within_sub {root v : Json} {stack : List Json} (hv : Sub root v) (hs : ∀ s ∈ stack, Sub root s) : ∀ s ∈ within v stack, Sub root s := by
  intro s hm
  rcases List.mem_cons.mp (List.mem_of_mem_take hm) with rfl | hm
  · exact hv
  · exact hs s hm

/-- What a piece is: a text of a template, or what is written of a value in the arguments. -/
def Right (e : Escaping) (root : Json) (hasText : Str → Prop) (p : Piece) : Prop :=
  match p with
  | .text s => hasText s
  | .value w v => Sub root v ∧ Is e w v

def Made (e : Escaping) (root : Json) (hasText : Str → Prop) (out : Str) : Prop :=
  ∃ ps : List Piece, out = ps.flatMap Piece.str ∧ ∀ p ∈ ps, Right e root hasText p

theorem made_nil (e : Escaping) (root : Json) (T : Str → Prop) : Made e root T [] := ⟨[], rfl, by intro p hp; cases hp⟩

theorem made_append {e : Escaping} {root : Json} {T : Str → Prop} {a b : Str} (ha : Made e root T a) (hb : Made e root T b) : Made e root T (a ++ b) := by
  obtain ⟨ps, rfl, hp⟩ := ha
  obtain ⟨qs, rfl, hq⟩ := hb
  refine ⟨ps ++ qs, by rw [List.flatMap_append], ?_⟩
  intro p hm
  rcases List.mem_append.mp hm with hm | hm
  · exact hp p hm
  · exact hq p hm

theorem made_mono {e : Escaping} {root : Json} {T T' : Str → Prop} {a : Str} (h : ∀ s, T s → T' s) (ha : Made e root T a) : Made e root T' a := by
  obtain ⟨ps, e, hp⟩ := ha
  refine ⟨ps, e, ?_⟩
  intro p hm
  have := hp p hm
  cases p with
  | text s => exact h s this
  | value w v => exact this

mutual
theorem made_block (e : Escaping) (root : Json) (hf : Fine root) : ∀ (b : Block), Escaped b → ∀ stack, (∀ s ∈ stack, Sub root s) →
    Made e root (fun s => HasText s b) (renderBlock e b stack)
  | .text s, _, stack, _ => by
    rw [renderBlock]
    refine ⟨[.text s], by simp [Piece.str], ?_⟩
    intro p hp
    rw [List.mem_singleton] at hp
    rw [hp]
    show HasText s (.text s)
    rw [HasText]
  | .escaped name, _, stack, hs => by
    rw [renderBlock]
    cases hl : look stack name with
    | none => exact made_nil _ _ _
    | some r =>
      obtain ⟨v, outer⟩ := r
      have hv := (look_sub stack hs hl).1
      refine ⟨[.value (Templates.escaped e v) v], by simp [Piece.str], ?_⟩
      intro p hp
      rw [List.mem_singleton] at hp
      rw [hp]
      exact ⟨hv, is_escaped e v (fine_sub hv hf)⟩
  | .unescaped _, h, _, _ => by rw [Escaped] at h; exact h.elim
  | .section name bs, h, stack, hs => by
    rw [Escaped] at h
    have ih := made_blocks e root hf bs h
    have hT : ∀ s, HasTextAll s bs → HasText s (.section name bs) := by intro s hs; rw [HasText]; exact hs
    rw [renderBlock]
    cases hl : look stack name with
    | none => exact made_nil _ _ _
    | some r =>
      obtain ⟨v, outer⟩ := r
      obtain ⟨hv, ho⟩ := look_sub stack hs hl
      cases v with
      | arr l =>
        simp only
        have : ∀ l' : List Json, (∀ x ∈ l', Sub root x) → Made e root (fun s => HasTextAll s bs) (l'.flatMap (fun v => renderBlocks e bs (within v outer))) := by
          intro l'
          induction l' with
          | nil => intro _; exact made_nil _ _ _
          | cons x l' ihl =>
            intro hx
            rw [List.flatMap_cons]
            exact made_append (ih _ (within_sub (hx x List.mem_cons_self) ho)) (ihl (fun y hy => hx y (List.mem_cons_of_mem _ hy)))
        exact made_mono hT (this l (fun x hx => sub_trans hv (.elem hx (.refl x))))
      | obj l => exact made_mono hT (ih _ (within_sub hv ho))
      | null => exact made_mono hT (ih _ ho)
      | bool b => exact made_mono hT (ih _ ho)
      | num t => exact made_mono hT (ih _ ho)
      | str t => exact made_mono hT (ih _ ho)
theorem made_blocks (e : Escaping) (root : Json) (hf : Fine root) : ∀ (bs : List Block), EscapedAll bs → ∀ stack, (∀ s ∈ stack, Sub root s) →
    Made e root (fun s => HasTextAll s bs) (renderBlocks e bs stack)
  | [], _, _, _ => by rw [renderBlocks]; exact made_nil _ _ _
  | b :: bs, h, stack, hs => by
    rw [EscapedAll] at h
    rw [renderBlocks]
    exact made_append
      (made_mono (by intro s hs; rw [HasTextAll]; exact Or.inl hs) (made_block e root hf b h.1 stack hs))
      (made_mono (by intro s hs; rw [HasTextAll]; exact Or.inr hs) (made_blocks e root hf bs h.2 stack hs))
end

/-- What is rendered is made of texts of the template, and of what is written of values in the arguments: no argument writes anything else. -/
theorem C88_pieces (e : Escaping) (bs : List Block) (args : Json) (h : EscapedAll bs) (hf : Fine args) :
    ∃ ps : List Piece, render e bs args = ps.flatMap Piece.str ∧ ∀ p ∈ ps,
      match p with
      | .text s => HasTextAll s bs
      | .value w v => Sub (.obj [("args".toList, args)]) v ∧ Is e w v := by
  have hroot : Fine (.obj [("args".toList, args)]) := by rw [Fine, FineFields, FineFields]; exact ⟨hf, trivial⟩
  obtain ⟨ps, he, hp⟩ := made_blocks e (.obj [("args".toList, args)]) hroot bs h [.obj [("args".toList, args)]]
    (by intro s hs; rw [List.mem_singleton] at hs; rw [hs]; exact .refl _)
  exact ⟨ps, he, hp⟩

/-- The characters with a meaning in URLs are those of the texts of the template. -/
theorem C88_url_chars (bs : List Block) (args : Json) (h : EscapedAll bs) (hf : Fine args) (c : Char) (hc : c ∈ render .url bs args)
    (hm : ¬ Harmless c) : ∃ s, HasTextAll s bs ∧ c ∈ s := by
  obtain ⟨ps, he, hp⟩ := C88_pieces .url bs args h hf
  rw [he] at hc
  obtain ⟨p, hpm, hcp⟩ := List.mem_flatMap.mp hc
  have := hp p hpm
  cases p with
  | text s => exact ⟨s, this, hcp⟩
  | value w v => exact absurd (this.2.1 c hcp) hm

/-- A section named after a list writes each of its elements, in order, with the texts of the section around it. -/
theorem C88_elements (e : Escaping) (a b : Str) (ks : List Str) (args : Json) (l : List Json) (hk : ∀ k ∈ ks, '.' ∉ k) (hf : Fine args)
    (hat : At args ks (.arr l)) :
    ∃ ws : List Str, ws.length = l.length ∧ (∀ (i : Nat) (w : Str) (v : Json), ws[i]? = some w → l[i]? = some v → Is e w v) ∧
      render e [.section (dotted "args".toList ks) [.text a, .escaped ['.'], .text b]] args = ws.flatMap (fun w => a ++ (w ++ b)) := by
  have hl := look_args ks args hk
  rw [(descend_iff ks args _).mpr hat] at hl
  have hfl : ∀ v ∈ l, Fine v := fun v hv => fine_sub (sub_trans (at_sub hat) (.elem hv (.refl v))) hf
  refine ⟨l.map (Templates.escaped e), by rw [List.length_map], ?_, ?_⟩
  · intro i w v hw hv
    rw [List.getElem?_map, hv] at hw
    cases hw
    exact is_escaped e v (hfl v (List.mem_of_getElem? hv))
  · unfold render
    rw [renderBlocks, renderBlocks, renderBlock, hl]
    simp only [Option.map_some, List.append_nil]
    rw [List.flatMap_map]
    have : ∀ v : Json, renderBlocks e [.text a, .escaped ['.'], .text b] (within v [.obj [("args".toList, args)]]) = a ++ (Templates.escaped e v ++ b) := by
      intro v
      simp only [renderBlocks, renderBlock, within, List.take, look, get, if_true, List.append_nil]
    simp only [this]

/-- Nothing is written of a section whose name has no value. -/
theorem C88_section_none (e : Escaping) (bs : List Block) (ks : List Str) (args : Json) (hk : ∀ k ∈ ks, '.' ∉ k) (h : ∀ v, ¬ At args ks v) :
    render e [.section (dotted "args".toList ks) bs] args = [] := by
  have hl := look_args ks args hk
  have : descend args ks = none := by
    cases hd : descend args ks with
    | none => rfl
    | some v => exact absurd ((descend_iff ks args v).mp hd) (h v)
  rw [this] at hl
  unfold render
  rw [renderBlocks, renderBlocks, renderBlock, hl]
  rfl

/-! ## Cases -/

def str (s : String) : Json := .str s.toList
def fieldTag (s : String) : Block := .escaped s.toList
def txt (s : String) : Block := .text s.toList
def argsOf (l : List (String × Json)) : Json := .obj (l.map (fun f => (f.1.toList, f.2)))

theorem C88_json_case :
    String.ofList (render .json [txt "{\"a\":", fieldTag "args.in.x", txt "}"]
      (argsOf [("in", argsOf [("x", .arr [str "q\"\n", .num "1.5".toList, .null, .bool true])])])) =
      "{\"a\":[\"q\\\"\\n\",1.5,null,true]}" := by
  decide +kernel

theorem C88_url_case :
    String.ofList (render .url [txt "/users/", fieldTag "args.id", txt "?q=", fieldTag "args.q"] (argsOf [("id", str "../a b"), ("q", argsOf [("é", .null)])])) =
      "/users/..%2Fa%20b?q=%7B%22%C3%A9%22%3Anull%7D" := by
  decide +kernel

/-- The elements of a list, and a value from outside. -/
theorem C88_section_case :
    String.ofList (render .json [.section "args.ids".toList [txt "<", fieldTag ".", txt "|", fieldTag "args.n", txt ">"], .section "args.none".toList [txt "!"]]
      (argsOf [("ids", .arr [.num ['1'], .num ['2']]), ("n", str "k")])) = "<1|\"k\"><2|\"k\">" := by
  decide +kernel

theorem C88_met : Fine (argsOf [("in", argsOf [("x", .arr [str "q", .num "-1.5e30".toList, .null])])]) ∧
    EscapedAll [.section "args.ids".toList [txt "<", fieldTag "."], txt "x"] := by
  constructor
  · simp only [argsOf, List.map, Fine, FineFields, FineElems, str, and_true, true_and]
    unfold writtenChar
    decide +kernel
  · simp [EscapedAll, Escaped, txt, fieldTag]

/-- FALSE that an argument stays in its segment: `..` and `.` are not encoded, and are removed with the segment in front. -/
theorem C88_dots_false :
    (StoreUrls.setPath (render .url [txt "/users/", fieldTag "args.id", txt "/posts"] (argsOf [("id", str "..")]))).map String.ofList = ["posts"] ∧
    (StoreUrls.setPath (render .url [txt "/users/", fieldTag "args.id", txt "/posts"] (argsOf [("id", str ".")]))).map String.ofList = ["users", "posts"] ∧
    (StoreUrls.setPath (render .url [txt "/users/", fieldTag "args.id", txt "/posts"] (argsOf [("id", str "7")]))).map String.ofList = ["users", "7", "posts"] := by
  decide +kernel

/-- FALSE that a JSON template gives JSON: an argument which is absent leaves its place empty. -/
theorem C88_absent_false :
    render .json [txt "{\"a\":", fieldTag "args.x", txt "}"] (argsOf []) = "{\"a\":}".toList ∧ ∀ n, read n "{\"a\":}".toList = none := by
  refine ⟨by decide +kernel, ?_⟩
  intro n
  have hw : "{\"a\":}".toList = ['{', '"', 'a', '"', ':', '}'] := by decide
  rw [hw]
  match n with
  | 0 => rfl
  | 1 => rfl
  | 2 => rfl
  | n + 3 => rfl

/-- Tags which are not escaped write the text of strings as it is. -/
theorem C88_unescaped_case :
    String.ofList (render .url [txt "/a/", .unescaped "args.id".toList] (argsOf [("id", str "b?c=d")])) = "/a/b?c=d" := by
  decide +kernel

end Verif.Templates
