import Verif.Trie.KeysModel
import Verif.Trie.ScanProps
import Verif.Trie.LongestProps

/-!
# `fromkeys`, lower-casing tries, `Match` and `nbytes`: properties C152 to C155
-/

namespace Verif
namespace Trie

open TrieSpec

variable {κ τ ν S : Type}

theorem update_const_get [DecidableEq τ] (tok : κ → List τ) (ks : List κ) (d : ν) (t : Trie τ ν)
    (p : List τ) :
    (update tok t (ks.map (fun k => (k, d)))).root.get p =
      if p ∈ ks.map tok then some d else t.root.get p := by
  induction ks generalizing t with
  | nil => simp [update]
  | cons k ks ih =>
    change (update tok (setItem tok t k d) (ks.map (fun k => (k, d)))).root.get p = _
    rw [ih]
    have : (setItem tok t k d).root.get p = if p = tok k then some d else t.root.get p :=
      Node.get_put d t.root (tok k) p
    rw [this]
    simp only [List.map_cons, List.mem_cons]
    by_cases h1 : p ∈ ks.map tok <;> by_cases h2 : p = tok k <;> simp [h1, h2]

theorem fromKeysFull_inv [DecidableEq τ] [LinearOrder S] (base : κ → List τ) (low : τ → τ)
    (cmp : τ → S) (ks : List κ) (d : ν) (cs sort : Bool) :
    Inv (fromKeysFull base low cmp ks d cs sort).2 := by
  have h := inv_update (tokenizerOf base low (!cs)) (ks.map (fun k => (k, d)))
    (inv_new (τ := τ) (ν := ν))
  unfold fromKeysFull
  cases sort
  · exact h
  · exact inv_sortKeys cmp true h

theorem fromKeysFull_get [DecidableEq τ] [LinearOrder S] (base : κ → List τ) (low : τ → τ)
    (cmp : τ → S) (ks : List κ) (d : ν) (cs sort : Bool) (p : List τ) :
    (fromKeysFull base low cmp ks d cs sort).2.root.get p =
      if p ∈ ks.map (tokenizerOf base low (!cs)) then some d else none := by
  have h := inv_update (tokenizerOf base low (!cs)) (ks.map (fun k => (k, d)))
    (inv_new (τ := τ) (ν := ν))
  have hg := update_const_get (tokenizerOf base low (!cs)) ks d (new : Trie τ ν) p
  have hn : (new : Trie τ ν).root.get p = none := Node.get_empty p
  rw [hn] at hg
  rw [← hg]
  unfold fromKeysFull
  cases sort
  · rfl
  · exact Node.sort_get cmp true h.wf p

/-- What it means that two keys are the same for a trie: equal tokens, up to lower-casing each
token if the trie is not case-sensitive. -/
def SameKey (base : κ → List τ) (low : τ → τ) (caseSensitive : Bool) (k k' : κ) : Prop :=
  if caseSensitive then base k = base k'
  else List.Forall₂ (fun a b => low a = low b) (base k) (base k')

theorem sameKey_iff (base : κ → List τ) (low : τ → τ) (cs : Bool) (k k' : κ) :
    SameKey base low cs k k' ↔
      tokenizerOf base low (!cs) k = tokenizerOf base low (!cs) k' := by
  unfold SameKey tokenizerOf
  cases cs
  · simp only [Bool.false_eq_true, ↓reduceIte, Bool.not_false]
    generalize base k = a
    generalize base k' = b
    induction a generalizing b with
    | nil => cases b <;> simp
    | cons x a ih => cases b <;> simp [ih]
  · simp

/-- **C152.** A trie made by `fromkeys` contains a key exactly when it is one of the given keys (up
to the case if `case_sensitive=False`), whether it is sorted or not; every value is the default. -/
theorem C152_fromkeys_lookup [DecidableEq τ] [LinearOrder S] (base : κ → List τ) (low : τ → τ)
    (cmp : τ → S) (ks : List κ) (d : ν) (cs sort : Bool) (k : κ) :
    let r := fromKeysFull base low cmp ks d cs sort
    (contains r.1 r.2 k = true ↔ ∃ k' ∈ ks, SameKey base low cs k k') ∧
    ((∃ k' ∈ ks, SameKey base low cs k k') → getItem r.1 r.2 k = .ok d) ∧
    (¬ (∃ k' ∈ ks, SameKey base low cs k k') → getItem r.1 r.2 k = .error .keyError) := by
  have hr : (∃ k' ∈ ks, SameKey base low cs k k') ↔
      tokenizerOf base low (!cs) k ∈ ks.map (tokenizerOf base low (!cs)) := by
    simp only [sameKey_iff, List.mem_map, eq_comm]
  have hg := fromKeysFull_get base low cmp ks d cs sort (tokenizerOf base low (!cs) k)
  have h1 : (fromKeysFull base low cmp ks d cs sort).1 = tokenizerOf base low (!cs) := rfl
  simp only [contains_eq, getItem_eq, h1, hg, hr]
  by_cases h : tokenizerOf base low (!cs) k ∈ ks.map (tokenizerOf base low (!cs)) <;> simp [h]

/-- **C152.** `len` of a trie made by `fromkeys` is the number of different keys, unless one of them
has no tokens: then `len` raises `AssertionError`. -/
theorem C152_fromkeys_len [DecidableEq τ] [LinearOrder S] (base : κ → List τ) (low : τ → τ)
    (cmp : τ → S) (ks : List κ) (d : ν) (cs sort : Bool) :
    let r := fromKeysFull base low cmp ks d cs sort
    ((∀ k ∈ ks, base k ≠ []) →
      ∃ reps : List κ, len r.2 = .ok reps.length ∧ reps ⊆ ks ∧
        reps.Pairwise (fun a b => ¬ SameKey base low cs a b) ∧
        ∀ k ∈ ks, ∃ a ∈ reps, SameKey base low cs k a) ∧
    ((∃ k ∈ ks, base k = []) → len r.2 = .error .assertionError) := by
  intro r
  have hinv := fromKeysFull_inv base low cmp ks d cs sort
  have hget := fromKeysFull_get base low cmp ks d cs sort
  have hnil : ∀ k, tokenizerOf base low (!cs) k = [] ↔ base k = [] := by
    intro k
    unfold tokenizerOf
    cases cs <;> simp
  have hlen : r.2.length = (r.2.root.items.length : Int) +
      if r.2.root.val.isSome = true then 1 else 0 := hinv.len
  constructor
  · intro hne
    have hv : r.2.root.val = none := by
      have := hget []
      rw [Node.get_nil] at this
      rw [this, if_neg]
      intro hm
      obtain ⟨k, hk, he⟩ := List.mem_map.mp hm
      exact hne k hk ((hnil k).mp he)
    have hok : len r.2 = .ok r.2.root.items.length := by
      unfold len
      rw [hlen, hv]
      simp
    -- one representative for each stored token sequence
    have hrep : ∀ x ∈ r.2.root.items, ∃ k ∈ ks, tokenizerOf base low (!cs) k = x.1 := by
      rintro ⟨p, v⟩ hx
      obtain ⟨-, hp⟩ := (Node.mem_items hinv.wf p v).mp hx
      rw [hget] at hp
      split_ifs at hp with h
      exact List.mem_map.mp h
    rcases isEmpty_or_nonempty κ with hκ | hκ
    · have h0 : r.2.root.items = [] := by
        cases hi : r.2.root.items with
        | nil => rfl
        | cons x l => exact hκ.elim (hrep x (by rw [hi]; simp)).choose
      exact ⟨[], by rw [hok, h0]; rfl, by simp, by simp, fun k => hκ.elim k⟩
    choose! f hf using hrep
    refine ⟨r.2.root.items.map f, by rw [hok]; simp, ?_, ?_, ?_⟩
    · intro k hk
      obtain ⟨x, hx, rfl⟩ := List.mem_map.mp hk
      exact (hf x hx).1
    · have hnd := Node.nodup_items hinv.wf
      have hnd' : r.2.root.items.Pairwise (fun a b => a.1 ≠ b.1) := List.pairwise_map.mp hnd
      rw [List.pairwise_map]
      refine List.Pairwise.imp_of_mem ?_ hnd'
      intro a b ha hb hab hs
      rw [sameKey_iff, (hf a ha).2, (hf b hb).2] at hs
      exact hab hs
    · intro k hk
      have hp : tokenizerOf base low (!cs) k ≠ [] := fun h => hne k hk ((hnil k).mp h)
      have hm : (tokenizerOf base low (!cs) k, d) ∈ r.2.root.items :=
        (Node.mem_items hinv.wf _ _).mpr ⟨hp, by
          rw [hget, if_pos (List.mem_map_of_mem hk)]⟩
      refine ⟨f _, List.mem_map_of_mem hm, ?_⟩
      rw [sameKey_iff]
      exact (hf _ hm).2.symm
  · rintro ⟨k, hk, he⟩
    have hv : r.2.root.val = some d := by
      have := hget []
      rw [Node.get_nil] at this
      rw [this, if_pos]
      rw [← (hnil k).mpr he]
      exact List.mem_map_of_mem hk
    unfold len
    rw [hlen, hv]
    simp

/-- **C152.** With `sort=True` the items come in the order of the case-folded tokens. -/
theorem C152_fromkeys_sorted [DecidableEq τ] [LinearOrder S] (base : κ → List τ) (low : τ → τ)
    (cmp : τ → S) (hinj : Function.Injective cmp) (detok : List τ → κ) (ks : List κ) (d : ν)
    (cs : Bool) :
    ∃ l : List (List τ), items detok (fromKeysFull base low cmp ks d cs true).2 =
        l.map (fun p => (detok p, d)) ∧
      l.Pairwise (fun a b => List.Lex (fun x y => cmp x < cmp y) a b) ∧
      ∀ p, p ∈ l ↔ p ≠ [] ∧ ∃ k ∈ ks, p = tokenizerOf base low (!cs) k := by
  have hinv := fromKeysFull_inv base low cmp ks d cs true
  have hget := fromKeysFull_get base low cmp ks d cs true
  have h0 := inv_update (tokenizerOf base low (!cs)) (ks.map (fun k => (k, d)))
    (inv_new (τ := τ) (ν := ν))
  have hmem : ∀ p v, (p, v) ∈ (fromKeysFull base low cmp ks d cs true).2.root.items ↔
      p ≠ [] ∧ (∃ k ∈ ks, p = tokenizerOf base low (!cs) k) ∧ v = d := by
    intro p v
    rw [Node.mem_items hinv.wf, hget]
    simp only [List.mem_map, eq_comm (b := p)]
    by_cases h : ∃ k ∈ ks, p = tokenizerOf base low (!cs) k
    · simp only [h, if_true, Option.some.injEq, true_and, eq_comm (a := d)]
    · simp [h]
  refine ⟨(fromKeysFull base low cmp ks d cs true).2.root.items.map Prod.fst, ?_, ?_, ?_⟩
  · unfold items
    rw [List.map_map]
    refine List.map_congr_left ?_
    rintro ⟨p, v⟩ hx
    simp [((hmem p v).mp hx).2.2]
  · rw [List.pairwise_map]
    exact Node.items_lex hinv.wf (Node.sort_keySorted hinj h0.wf)
  · intro p
    constructor
    · intro h
      obtain ⟨⟨q, v⟩, hx, rfl⟩ := List.mem_map.mp h
      exact ⟨((hmem q v).mp hx).1, ((hmem q v).mp hx).2.1⟩
    · rintro ⟨h1, h2⟩
      exact List.mem_map.mpr ⟨(p, d), (hmem p d).mpr ⟨h1, h2, rfl⟩, rfl⟩

/-! ### Tries that lower-case -/

/-- **C153.** A lower-casing trie returns only lower-case text: all tokens of the output of
`translate` are fixed by lower-casing, those of the values and those of the untouched text alike. -/
theorem C153_translate_lower [DecidableEq τ] (base : κ → List τ) (low : τ → τ)
    (hlow : ∀ a, low (low a) = low a) (detok : List τ → κ) (t : Trie τ κ) (text : κ) :
    ∃ out, translate (tokenizerOf base low true) detok t text = .ok (detok out) ∧
      ∀ a ∈ out, low a = a := by
  obtain ⟨gs, ⟨h1, h2⟩, -⟩ := C61_translate (tokenizerOf base low true) detok t text
  refine ⟨_, h2, ?_⟩
  have htok : ∀ k, ∀ a ∈ tokenizerOf base low true k, low a = a := by
    intro k a ha
    obtain ⟨b, -, rfl⟩ := List.mem_map.mp ha
    exact hlow b
  have key : ∀ (ts : List τ) (gs : List (Seg τ κ)), LeftmostLongest t.root.get ts gs →
      (∀ a ∈ ts, low a = a) → ∀ a ∈ replaced (tokenizerOf base low true) gs, low a = a := by
    intro ts gs hl
    induction hl with
    | nil => intro _ a ha; simp [replaced] at ha
    | @hit w rest v segs k1 k2 k3 k4 ih =>
      intro h a ha
      rcases List.mem_append.mp ha with ha | ha
      · exact htok v a ha
      · exact ih (fun b hb => h b (by simp [hb])) a ha
    | @tok x rest segs k1 k2 ih =>
      intro h a ha
      rcases List.mem_cons.mp ha with rfl | ha
      · exact h a (by simp)
      · exact ih (fun b hb => h b (by simp [hb])) a ha
  exact key _ _ h1 (htok text)

/-- **C153.** Everything a lower-casing trie answers depends on its arguments only up to case. -/
theorem C153_case_blind [DecidableEq τ] (base : κ → List τ) (low : τ → τ) (detok : List τ → κ)
    (t : Trie τ κ) (x y : κ) (h : SameKey base low false x y) :
    let tok := tokenizerOf base low true
    translate tok detok t x = translate tok detok t y ∧
    (∀ ov, finditer tok detok t ov x = finditer tok detok t ov y) ∧
    (∀ ov, search tok detok t ov x = search tok detok t ov y) ∧
    findallLongest tok detok t x = findallLongest tok detok t y ∧
    getItem tok t x = getItem tok t y ∧ contains tok t x = contains tok t y := by
  have h : tokenizerOf base low true x = tokenizerOf base low true y :=
    (sameKey_iff base low false x y).mp h
  simp only [translate, search, findallLongest, finditer, getItem, contains, h, and_self,
    implies_true]

/-- **C153.** A lower-casing trie finds the same places as a case-sensitive trie with the lower-cased
keys finds in the lower-cased text. -/
theorem C153_lower_first [DecidableEq τ] (base : κ → List τ) (low : τ → τ) (lowText : κ → κ)
    (hl : ∀ k, base (lowText k) = (base k).map low) (detok : List τ → κ) (ps : List (κ × ν))
    (ov : Bool) (text : κ) :
    finditer (tokenizerOf base low true) detok (ofPairs (tokenizerOf base low true) ps) ov text =
      finditer base detok (ofPairs base (ps.map fun p => (lowText p.1, p.2))) ov
        (lowText text) := by
  have ht : ∀ k, tokenizerOf base low true k = base (lowText k) := by
    intro k
    rw [hl]
    rfl
  have hu : ∀ (ps : List (κ × ν)) (t : Trie τ ν), update (tokenizerOf base low true) t ps =
      update base t (ps.map fun p => (lowText p.1, p.2)) := by
    intro ps
    induction ps with
    | nil => intro t; rfl
    | cons p ps ih =>
      intro t
      change update (tokenizerOf base low true) (setItem (tokenizerOf base low true) t p.1 p.2) ps =
        update base (setItem base t (lowText p.1) p.2) (ps.map fun p => (lowText p.1, p.2))
      rw [ih]
      congr 1
      simp only [setItem, ht]
  unfold finditer ofPairs
  rw [hu, ht]

/-! ### `Match` -/

/-- What a match object should tell about a text: `start` and `end` delimit a stored, non-empty
key, and the group is its text. -/
structure Faithful (m : Map τ ν) (detok : List τ → κ) (tokens : List τ) (x : Match κ) : Prop where
  span : ∃ s e, x.start = .ok s ∧ x.stop = .ok e ∧ x.span = .ok (s, e) ∧ x.len = .ok (e - s) ∧
    s < e ∧ e ≤ tokens.length ∧ x.group = .ok (detok ((tokens.take e).drop s)) ∧
    m ((tokens.take e).drop s) ≠ none
  truth : x.truth = .ok true
  others : ∀ g : Int, g ≠ 0 → x.group g = .error .indexError ∧ x.getItem g = .error .indexError ∧
    x.start g = .error .indexError ∧ x.stop g = .error .indexError ∧
    x.span g = .error .indexError

theorem faithful_of {m : Map τ ν} {detok : List τ → κ} {pre w post : List τ} (hw : w ≠ [])
    (hm : m w ≠ none) :
    Faithful m detok (pre ++ w ++ post) ⟨(pre.length, (pre ++ w).length), detok w⟩ := by
  have hpos : 0 < w.length := List.length_pos_iff.mpr hw
  have hslice : ((pre ++ w ++ post).take (pre ++ w).length).drop pre.length = w := by
    rw [List.take_left, List.drop_left]
  have hlen : (Match.mk (pre.length, (pre ++ w).length) (detok w)).len =
      .ok ((pre ++ w).length - pre.length) := by
    have : ¬ (((pre ++ w).length : Int) - pre.length < 0) := by simp
    simp only [Match.len, this, if_false]
    congr 1
    simp
  refine ⟨⟨pre.length, (pre ++ w).length, rfl, rfl, rfl, hlen, by simp; omega, by simp, ?_, ?_⟩, ?_,
    ?_⟩
  · rw [hslice]; rfl
  · rw [hslice]; exact hm
  · unfold Match.truth
    rw [hlen]
    simp only [List.length_append, Nat.add_sub_cancel_left, Except.ok.injEq, bne_iff_ne]
    omega
  · intro g hg
    simp [Match.group, Match.getItem, Match.start, Match.stop, Match.span, hg]

/-- **C154.** Every object yielded by `finditer`, with overlaps or without, tells where and what it
has matched, and is true. -/
theorem C154_match_objects [DecidableEq τ] (tok : κ → List τ) (detok : List τ → κ) (t : Trie τ ν)
    (ov : Bool) (text : κ) :
    ∃ l, matches_ tok detok t ov text = .ok l ∧
      ∀ x ∈ l, Faithful t.root.get detok (tok text) x := by
  cases ov
  · obtain ⟨hits, h1, h2, -⟩ := C59_finditer_sound tok detok t text
    refine ⟨_, by unfold matches_; rw [h1], ?_⟩
    intro x hx
    simp only [List.map_map, List.mem_map, Function.comp_apply] at hx
    obtain ⟨⟨s, e, w⟩, hm, rfl⟩ := hx
    obtain ⟨a1, a2, pre, post, a3, rfl, rfl⟩ := h2 s e w hm
    rw [a3]
    refine faithful_of ?_ a2
    rintro rfl
    simp at a1
  · obtain ⟨hits, h1, h2, -⟩ := C60_finditer_overlapping tok detok t text
    refine ⟨_, by unfold matches_; rw [h1], ?_⟩
    intro x hx
    simp only [List.map_map, List.mem_map, Function.comp_apply] at hx
    obtain ⟨⟨s, e, w⟩, hm, rfl⟩ := hx
    obtain ⟨a1, a2, pre, post, a3, rfl, rfl⟩ := (h2 s e w).mp hm
    rw [a3]
    exact faithful_of a1 a2

/-- **C154.** `if trie.search(text):` is true exactly when a stored, non-empty key occurs in the
text: a match is never false. -/
theorem C154_search_truth [DecidableEq τ] (tok : κ → List τ) (detok : List τ → κ) (t : Trie τ ν)
    (ov : Bool) (text : κ) :
    ∃ r, searchMatch tok detok t ov text = .ok r ∧
      (r = none ↔ ∀ pre w post, tok text = pre ++ w ++ post → w ≠ [] → t.root.get w = none) ∧
      ∀ x, r = some x → x.truth = .ok true ∧ Faithful t.root.get detok (tok text) x := by
  obtain ⟨l, h1, h2⟩ := C154_match_objects tok detok t ov text
  refine ⟨l.head?, by unfold searchMatch; rw [h1], ?_, ?_⟩
  · have hs : search tok detok t ov text = .ok none ↔ l.head? = none := by
      unfold matches_ at h1
      unfold search
      cases hf : finditer tok detok t ov text with
      | error e => rw [hf] at h1; simp at h1
      | ok l' =>
        rw [hf] at h1
        simp only [Except.ok.injEq] at h1 ⊢
        rw [← h1]
        cases l' <;> simp
    rw [← hs]
    have main : (search tok detok t ov text = .ok none ∧
        ∀ pre w post, tok text = pre ++ w ++ post → w ≠ [] → t.root.get w = none) ∨
        (search tok detok t ov text ≠ .ok none ∧
        ∃ pre w post, tok text = pre ++ w ++ post ∧ w ≠ [] ∧ t.root.get w ≠ none) := by
      cases ov
      · rcases C62_search tok detok t text with h | ⟨pre, w, post, h, a, b, c, -⟩
        · exact Or.inl h
        · exact Or.inr ⟨by rw [h]; simp, pre, w, post, a, b, c⟩
      · rcases C62_search_overlapping tok detok t text with h | ⟨pre, w, post, h, a, b, c, -⟩
        · exact Or.inl h
        · exact Or.inr ⟨by rw [h]; simp, pre, w, post, a, b, c⟩
    rcases main with ⟨h, h'⟩ | ⟨h, pre, w, post, a, b, c⟩
    · exact ⟨fun _ => h', fun _ => h⟩
    · exact ⟨fun h'' => absurd h'' h, fun h'' => absurd (h'' pre w post a b) c⟩
  · intro x hx
    have hx : x ∈ l := List.mem_of_mem_head? (by rw [hx]; rfl)
    exact ⟨(h2 x hx).truth, h2 x hx⟩

/-- **C154.** With the default tokenizer `match.group()` is the slice of the text from
`match.start()` to `match.end()`, lower-cased if the trie lower-cases. -/
theorem C154_group_is_slice [DecidableEq τ] (low : τ → τ) (lowercase ov : Bool)
    (t : Trie τ ν) (text : List τ) :
    ∃ l, matches_ (tokenizerOf (fun w => w) low lowercase) id t ov text = .ok l ∧
      ∀ x ∈ l, ∃ s e, x.start = .ok s ∧ x.stop = .ok e ∧ s < e ∧ e ≤ text.length ∧
        x.group = .ok (if lowercase then ((text.take e).drop s).map low
          else (text.take e).drop s) := by
  obtain ⟨l, h1, h2⟩ := C154_match_objects (tokenizerOf (fun w => w) low lowercase) id t ov text
  refine ⟨l, h1, ?_⟩
  intro x hx
  obtain ⟨s, e, a1, a2, -, -, a3, a4, a5, -⟩ := (h2 x hx).span
  refine ⟨s, e, a1, a2, a3, ?_, ?_⟩
  · cases lowercase <;> simpa [tokenizerOf] using a4
  · rw [a5]
    cases lowercase <;> simp [tokenizerOf, List.map_take, List.map_drop]

/-! ### Examples: "lower-casing" is `n ↦ n % 10`, tokens are numbers -/

/-- `fromkeys` with a repeated and two equal-but-for-case keys, sorted. -/
example :
    let r := fromKeysFull (fun w : List Nat => w) (· % 10) (fun n => n) [[3], [12, 5], [2, 15], [3]]
      "x" false true
    len r.2 = .ok 2 ∧ contains r.1 r.2 [22, 25] = true ∧ contains r.1 r.2 [2] = false ∧
    items id r.2 = [([2, 5], "x"), ([3], "x")] := by
  refine ⟨?_, ?_, ?_, ?_⟩ <;>
    simp [fromKeysFull, tokenizerOf, setItem, contains, len, update, items, Node.items, itemsLoop,
      Node.put, Node.get, Node.walk, Node.val, Node.kids, new, Node.empty, Dict.set, Dict.get?,
      sortKeys, Node.sort, sortKids, sortDesc, List.insertionSort]

/-- An empty key makes `len` fail. -/
example : len (fromKeysFull (fun w : List Nat => w) (· % 10) (fun n => n) [[3], []] "x" true
    false).2 = .error .assertionError := by
  simp [fromKeysFull, tokenizerOf, setItem, len, update, Node.items, itemsLoop, Node.put, Node.get,
    Node.walk, Node.val, Node.kids, new, Node.empty, Dict.set]

/-- All of the output is lower-case, the replacement too. -/
example : translate (tokenizerOf (fun w : List Nat => w) (· % 10) true) id
    (ofPairs (tokenizerOf (fun w : List Nat => w) (· % 10) true) [([11, 2], [33, 44])])
    [15, 21, 12, 19] = .ok [5, 3, 4, 9] := by decide +kernel

/-- The two matches of a text. -/
example : matches_ (tokenizerOf (fun w : List Nat => w) (· % 10) true) id
    (ofPairs (tokenizerOf (fun w : List Nat => w) (· % 10) true) [([11, 2], 0), ([4], 0)]) false
    [15, 21, 12, 14] = .ok [⟨(1, 3), [1, 2]⟩, ⟨(3, 4), [4]⟩] := by decide +kernel

example : (Match.mk (1, 3) [1, 2]).len = .ok 2 ∧ (Match.mk (1, 3) [1, 2]).group 1 =
    .error .indexError := by decide

end Trie
end Verif
