import Verif.Regex.Witness
import Verif.Trie.WordsProps

/-!
# The pattern of `Trie.to_regex` on whole words: properties C184 and C185

`tests/test_find_replace_trie.py` (lines 46–80) compiles the pattern and runs `findall` over words
joined with spaces.
-/

namespace Verif
namespace RegexSpec

/-- `re.findall(pattern, text)` for a pattern without capturing groups whose matches are not
empty. -/
def findall (u : Classes) (r : RE) (text : List Char) : List (List Char) :=
  (finditer u r text).map fun p => (text.take p.2).drop p.1

end RegexSpec

namespace Regex

open RegexSpec
open TrieSpec (Call WholeWords)
open Trie (Node afterCalls new)

variable {κ ν : Type} (tok : κ → List Char) (detok : List Char → κ) (cs : List (Call κ ν))

theorem tame_literal {space : Char → Bool} {o : Opts} {keys : List Char → Prop}
    (hne : ∃ key, keys key) (hl : Literal space o keys) : Tame space o keys := by
  refine ⟨hne, ?_, ?_, ?_⟩
  · intro _ hf p x a b h3 _
    exact absurd ⟨hf, rfl⟩ (hl _ h3 '�' (by simp)).2
  · intro hf
    refine ⟨fun a x y b h3 h4 => ?_, fun a y b h3 h4 => ?_⟩
    · exact (hl _ h3 x (by simp)).1 ⟨hf, h4.1⟩
    · exact (hl _ h3 y (by simp)).1 ⟨hf, h4⟩
  · intro hf _
    refine ⟨fun p x y a b h3 _ h5 _ => ?_, fun p y a b c _ _ h3 h4 => ?_⟩
    · exact absurd ⟨hf, h5⟩ (hl _ h3 x (by simp)).1
    · exact (hl _ h3 y (by simp)).1 ⟨hf, h4⟩

/-- **C184.** The test's claim for every list of words: `re.findall` with the pattern over words
joined by a separator gives exactly the stored words, in the order of the text. -/
theorem C184_findall_words (htd : ∀ w, tok (detok w) = w) (u : Classes) (h1 : u.space ' ' = true)
    (h2 : u.space '�' = false) (o : Opts) (hb : o.boundary = false)
    (hne : ∃ key, (afterCalls tok detok new cs).root.get key ≠ none)
    (hl : Literal u.space o fun key => (afterCalls tok detok new cs).root.get key ≠ none) :
    ∃ pat r, toRegex u.space true o (afterCalls tok detok new cs).root = .ok pat ∧
      parse pat = some r ∧
      ∀ (sep : Char) (ws : List (List Char)),
        WholeWords (afterCalls tok detok new cs).root.get sep ws →
        RegexSpec.findall u r (List.intercalate [sep] ws) =
          ws.filter fun w => ((afterCalls tok detok new cs).root.get w).isSome := by
  by_cases he : (afterCalls tok detok new cs).root.get [] = none
  swap
  · have ht := tame_literal hne hl
    obtain ⟨pat, r, h3, h4, -⟩ := C96_fullmatch tok detok cs u h1 h2 o ht
    exact ⟨pat, r, h3, h4, fun sep ws hw => absurd hw.nonempty he⟩
  obtain ⟨pat, r, h3, h4, h5⟩ := C98_finditer tok detok cs u h1 h2 o hb hne he hl
  refine ⟨pat, r, h3, h4, ?_⟩
  intro sep ws hw
  have hinj : Function.Injective detok := fun a b h => by rw [← htd a, ← htd b, h]
  have htext := htd (List.intercalate [sep] ws)
  obtain ⟨hits, h6, h7⟩ := h5 (detok (List.intercalate [sep] ws))
  obtain ⟨hits', h8, h9, -⟩ := Trie.C59_finditer_sound tok detok (afterCalls tok detok new cs)
    (detok (List.intercalate [sep] ws))
  have hh : hits' = hits := by
    rw [h6] at h8
    injection h8 with h8
    refine (List.map_injective_iff.2 ?_ h8).symm
    rintro ⟨a, b, c⟩ ⟨a', b', c'⟩ h
    simp only [Prod.mk.injEq] at h
    rw [h.1, h.2.1, hinj h.2.2]
  subst hh
  have hf := Trie.C182_findall tok detok (afterCalls tok detok new cs) sep ws hw
    (detok (List.intercalate [sep] ws)) htext
  unfold Trie.findall at hf
  rw [h6] at hf
  injection hf with hf
  rw [List.map_map] at hf
  have hf' : hits'.map (fun h => h.2.2) =
      ws.filter fun w => ((afterCalls tok detok new cs).root.get w).isSome := by
    refine List.map_injective_iff.2 hinj ?_
    rw [← hf, List.map_map]
    rfl
  rw [htext] at h7 h9
  rw [← hf', RegexSpec.findall, h7, List.map_map]
  refine List.map_congr_left ?_
  rintro ⟨s, e, w⟩ hm
  obtain ⟨-, -, pre, post, e1, e2, e3⟩ := h9 s e w hm
  simp only [Function.comp_apply]
  rw [e1, ← e3, List.take_left, ← e2, List.drop_left]

/-! ### Patterns with word boundaries -/

section
variable {u : Classes} {r : RE} {text : List Char}

/-- `finditer` from a position on. -/
def itFrom (u : Classes) (r : RE) (text : List Char) (i : Nat) : List (Nat × Nat) :=
  finditerFrom u r text (text.length - i + 1) i

theorem itFrom_none {i : Nat} (hi : i < text.length) (h : matchAt u r text i = none) :
    itFrom u r text i = itFrom u r text (i + 1) := by
  rw [itFrom, finditerFrom, h, itFrom]
  simp only
  congr 1
  omega

theorem itFrom_end (h : matchAt u r text text.length = none) :
    itFrom u r text text.length = [] := by
  rw [itFrom, finditerFrom, h]
  simp [finditerFrom]

theorem itFrom_some {i j : Nat} (hi : i < j) (hj : j ≤ text.length)
    (h : matchAt u r text i = some j) :
    itFrom u r text i = (i, j) :: itFrom u r text j := by
  rw [itFrom, finditerFrom, h, itFrom]
  simp only [List.cons.injEq, true_and]
  congr 1
  omega

theorem itFrom_skip {i : Nat} (k : Nat) (hk : i + k ≤ text.length)
    (h : ∀ n, i ≤ n → n < i + k → matchAt u r text n = none) :
    itFrom u r text i = itFrom u r text (i + k) := by
  induction k with
  | zero => rfl
  | succ k ih =>
    rw [ih (by omega) fun n h3 h4 => h n h3 (by omega),
      itFrom_none (by omega) (h (i + k) (by omega) (by omega))]
    rfl

end

/-- The spans of the chosen words in a text of words joined by a separator, the first of which
starts at `pos`. -/
def wordSpans (chosen : List Char → Bool) : Nat → List (List Char) → List (Nat × Nat)
  | _, [] => []
  | pos, w :: ws => (if chosen w then [(pos, pos + w.length)] else []) ++
      wordSpans chosen (pos + w.length + 1) ws

theorem wordSpans_texts (chosen : List Char → Bool) (sep : Char) :
    ∀ (ws : List (List Char)) (pre : List Char),
      (wordSpans chosen pre.length ws).map (fun p =>
        ((pre ++ List.intercalate [sep] ws).take p.2).drop p.1) = ws.filter chosen := by
  intro ws
  induction ws with
  | nil => intro pre; rfl
  | cons w ws ih =>
    intro pre
    rw [wordSpans, List.map_append, List.filter_cons]
    have hrest : (wordSpans chosen (pre.length + w.length + 1) ws).map (fun p =>
        ((pre ++ List.intercalate [sep] (w :: ws)).take p.2).drop p.1) = ws.filter chosen := by
      cases ws with
      | nil => rfl
      | cons w' ws =>
        have e : pre ++ List.intercalate [sep] (w :: w' :: ws) =
            (pre ++ w ++ [sep]) ++ List.intercalate [sep] (w' :: ws) := by
          simp [List.intercalate, List.intersperse]
        rw [e, ← ih (pre ++ w ++ [sep])]
        congr 2
        simp
        omega
    rw [hrest]
    have hword : ∃ rest, pre ++ List.intercalate [sep] (w :: ws) = (pre ++ w) ++ rest := by
      cases ws with
      | nil => exact ⟨[], by simp [List.intercalate]⟩
      | cons w' ws => exact ⟨sep :: List.intercalate [sep] (w' :: ws),
          by simp [List.intercalate, List.intersperse]⟩
    obtain ⟨rest, hrest'⟩ := hword
    split_ifs with hc
    · simp only [List.map_cons, List.map_nil, List.singleton_append, List.cons.injEq, and_true]
      rw [hrest', ← List.length_append, List.take_left, List.drop_left]
    · rfl

/-- A text of words joined by a separator, seen from one of its words. -/
theorem itFrom_words {u : Classes} {r : RE} (chosen : List Char → Bool) (sep : Char)
    (P : List Char → Prop)     (hne : chosen [] = false)
    (text : List Char) (hall : ∀ pre w rest, text = pre ++ w ++ rest →
      (pre = [] ∨ ∃ p, pre = p ++ [sep]) → (rest = [] ∨ ∃ r, rest = sep :: r) → P w →
      (w ≠ [] → matchAt u r text pre.length =
        if chosen w then some (pre.length + w.length) else none) ∧
      (∀ n, pre.length < n → n < pre.length + w.length → matchAt u r text n = none) ∧
      matchAt u r text (pre.length + w.length) = none) :
    ∀ (ws : List (List Char)) (pre : List Char), ws ≠ [] → (∀ w ∈ ws, P w) →
      (pre = [] ∨ ∃ p, pre = p ++ [sep]) → text = pre ++ List.intercalate [sep] ws →
      itFrom u r text pre.length = wordSpans chosen pre.length ws := by
  intro ws
  induction ws with
  | nil => intro pre h; exact absurd rfl h
  | cons w ws ih =>
    intro pre _ hs hpre htext
    have hword : ∃ rest, (rest = [] ∨ ∃ r, rest = sep :: r) ∧ text = pre ++ w ++ rest ∧
        (ws = [] → rest = []) ∧ (ws ≠ [] → rest = sep :: List.intercalate [sep] ws) := by
      cases ws with
      | nil => exact ⟨[], Or.inl rfl, by rw [htext]; simp [List.intercalate], fun _ => rfl,
          fun h => absurd rfl h⟩
      | cons w' ws => exact ⟨sep :: List.intercalate [sep] (w' :: ws), Or.inr ⟨_, rfl⟩,
          by rw [htext]; simp [List.intercalate, List.intersperse], fun h => (by cases h), fun _ => rfl⟩
    obtain ⟨rest, hr1, hr2, hr3, hr4⟩ := hword
    obtain ⟨m1, m2, m3⟩ := hall pre w rest hr2 hpre hr1 (hs w (by simp))
    have hlen : text.length = pre.length + w.length + rest.length := by
      rw [hr2]; simp; omega
    have hfirst : itFrom u r text pre.length =
        (if chosen w then [(pre.length, pre.length + w.length)] else []) ++
          itFrom u r text (pre.length + w.length) := by
      by_cases hw : w = []
      · subst hw
        simp [hne]
      · have hpos := List.length_pos_of_ne_nil hw
        have m1 := m1 hw
        cases hc : chosen w with
        | true =>
          rw [hc, if_pos rfl] at m1
          rw [itFrom_some (by omega) (by omega) m1]
          rfl
        | false =>
          rw [hc] at m1
          simp only [Bool.false_eq_true, if_false, List.nil_append] at m1 ⊢
          refine itFrom_skip _ (by omega) ?_
          intro n h3 h4
          rcases Nat.eq_or_lt_of_le h3 with rfl | h5
          · exact m1
          · exact m2 n h5 h4
    rw [hfirst, wordSpans]
    congr 1
    by_cases hws : ws = []
    · rw [hr3 hws, List.length_nil, Nat.add_zero] at hlen
      rw [← hlen] at m3 ⊢
      rw [itFrom_end m3, hws]
      rfl
    · have hrest := hr4 hws
      have : rest.length = (List.intercalate [sep] ws).length + 1 := by rw [hrest]; simp
      rw [itFrom_none (by omega) m3]
      have := ih (pre ++ w ++ [sep]) hws (fun x hx => hs x (by simp [hx])) (Or.inr ⟨_, rfl⟩)
        (by rw [hr2, hrest]; simp)
      rw [show (pre ++ w ++ [sep]).length = pre.length + w.length + 1 by simp; omega] at this
      exact this

theorem wordAt_append {u : Classes} (a b : List Char) (i : Nat) :
    wordAt u (a ++ b) (a.length + i) = wordAt u b i := by
  unfold wordAt
  rw [List.getElem?_append_right (by omega)]
  congr 3
  omega

/-- **C185.** What `boundary=True` is for: when keys and words consist of word characters and the
separator is none, `re.findall` with the pattern gives exactly the stored words, also when a stored
key lies inside another word. -/
theorem C185_boundary_words (u : Classes) (h1 : u.space ' ' = true)
    (h2 : u.space '�' = false) (o : Opts) (hb : o.boundary = true)
    (hne : ∃ key, (afterCalls tok detok new cs).root.get key ≠ none)
    (he : (afterCalls tok detok new cs).root.get [] = none)
    (hk : ∀ key, (afterCalls tok detok new cs).root.get key ≠ none → ∀ c ∈ key, u.word c = true)
    (hl : Literal u.space o fun key => (afterCalls tok detok new cs).root.get key ≠ none) :
    ∃ pat r, toRegex u.space true o (afterCalls tok detok new cs).root = .ok pat ∧
      parse pat = some r ∧
      ∀ (sep : Char) (ws : List (List Char)), u.word sep = false →
        (∀ w ∈ ws, ∀ c ∈ w, u.word c = true) →
        RegexSpec.findall u r (List.intercalate [sep] ws) =
          ws.filter fun w => ((afterCalls tok detok new cs).root.get w).isSome := by
  have ht : Tame u.space o fun key => (afterCalls tok detok new cs).root.get key ≠ none :=
    tame_literal hne hl
  have hd : Distinct u.space o fun key => (afterCalls tok detok new cs).root.get key ≠ none := by
    refine ⟨?_, ?_⟩
    · intro hf p x a b h3 _
      exact absurd ⟨hf, rfl⟩ (hl _ h3 '�' (by simp)).2
    · intro hf p x y a b h3 _ h5 _
      exact absurd ⟨hf, h5⟩ (hl _ h3 x (by simp)).1
  obtain ⟨pat, r, hp, hr, hm⟩ := C97_match_is_longest tok detok cs u h1 h2 o ht hd
  refine ⟨pat, r, hp, hr, ?_⟩
  intro sep ws hsep hws
  generalize (afterCalls tok detok new cs).root.get = m at *
  have hit_iff' : ∀ text : List Char, ∀ i, i ≤ text.length → ∀ j,
      Hit u o (fun key => m key ≠ none) text i j ↔
      (∃ key, m key ≠ none ∧ key <+: text.drop i ∧ j = i + key.length) ∧
        boundary u text i = true ∧ boundary u text j = true := by
    intro text i hi j
    unfold Hit
    simp only [hb, forall_const]
    refine and_congr_left fun _ => exists_congr fun key => ?_
    exact and_congr_right fun h3 => reads_literal (hl key h3) hi
  have hsk : ∀ key, m key ≠ none → sep ∉ key := by
    intro key h3 h4
    have := hk key h3 sep h4
    rw [hsep] at this
    cases this
  have main : itFrom u r (List.intercalate [sep] ws) 0 =
      wordSpans (fun w => (m w).isSome) 0 ws := by
    by_cases hnil : ws = []
    · subst hnil
      have : matchAt u r ([] : List Char) 0 = none := by
        rw [(hm [] 0 (Nat.zero_le _)).2]
        intro j hj
        obtain ⟨⟨key, h3, h4, -⟩, -⟩ := (hit_iff' [] 0 (Nat.zero_le _) j).1 hj
        rw [List.drop_nil, List.prefix_nil] at h4
        exact h3 (h4 ▸ he)
      exact itFrom_end this
    refine itFrom_words (fun w => (m w).isSome) sep (fun w => ∀ c ∈ w, u.word c = true)
      (by simp [he]) (List.intercalate [sep] ws) ?_ ws [] hnil hws (Or.inl rfl) rfl
    generalize List.intercalate [sep] ws = text
    intro pre w rest htext hpre hrest hw
    have wIn : ∀ n, n < w.length → wordAt u text (pre.length + n) = true := by
      intro n hn
      rw [htext, List.append_assoc, wordAt_append]
      unfold wordAt
      rw [List.getElem?_append_left hn, List.getElem?_eq_getElem hn]
      exact hw _ (List.getElem_mem hn)
    have wEnd : wordAt u text (pre.length + w.length) = false := by
      rw [htext, ← List.length_append, show (pre ++ w).length = (pre ++ w).length + 0 from rfl,
        wordAt_append]
      rcases hrest with rfl | ⟨x, rfl⟩
      · rfl
      · simpa [wordAt] using hsep
    have wPre : (if pre.length = 0 then false else wordAt u text (pre.length - 1)) = false := by
      rcases hpre with rfl | ⟨x, rfl⟩
      · rfl
      · have e : text = x ++ (sep :: (w ++ rest)) := by rw [htext]; simp
        rw [if_neg (by simp), e, show (x ++ [sep]).length - 1 = x.length + 0 by simp, wordAt_append]
        simpa [wordAt] using hsep
    have hlen : text.length = pre.length + w.length + rest.length := by
      rw [htext]; simp; omega
    have bIn : ∀ n, 0 < n → n < w.length → boundary u text (pre.length + n) = false := by
      intro n h3 h4
      unfold boundary
      rw [if_neg (by omega), wIn n h4, show pre.length + n - 1 = pre.length + (n - 1) by omega,
        wIn (n - 1) (by omega)]
      rfl
    have noEnd : matchAt u r text (pre.length + w.length) = none := by
      rw [(hm text _ (by omega)).2]
      intro j hj
      obtain ⟨⟨key, h3, h4, -⟩, -⟩ := (hit_iff' text _ (by omega) j).1 hj
      rw [htext, ← List.length_append, List.drop_left] at h4
      have h5 := Trie.prefix_of_follows (a := []) (hsk key h3) hrest h4
      rw [List.prefix_nil] at h5
      exact h3 (h5 ▸ he)
    refine ⟨?_, ?_, noEnd⟩
    · intro hwne
      have hpos := List.length_pos_of_ne_nil hwne
      have bStart : boundary u text pre.length = true := by
        unfold boundary
        rw [wPre, show pre.length = pre.length + 0 from rfl, wIn 0 hpos]
        rfl
      have bEnd : boundary u text (pre.length + w.length) = true := by
        unfold boundary
        rw [wEnd, if_neg (by omega),
          show pre.length + w.length - 1 = pre.length + (w.length - 1) by omega,
          wIn _ (by omega)]
        rfl
      have hit : ∀ j, Hit u o (fun key => m key ≠ none) text pre.length j ↔
          m w ≠ none ∧ j = pre.length + w.length := by
        intro j
        rw [hit_iff' text _ (by omega)]
        constructor
        · rintro ⟨⟨key, h3, h4, rfl⟩, -, h5⟩
          rw [htext, List.append_assoc, List.drop_left] at h4
          have h6 := Trie.prefix_of_follows (hsk key h3) hrest h4
          have h7 := h6.length_le
          have hkpos : 0 < key.length := by
            refine List.length_pos_of_ne_nil ?_
            rintro rfl
            exact h3 he
          have h8 : key.length = w.length := by
            by_contra h9
            rw [bIn key.length hkpos (by omega)] at h5
            cases h5
          have h9 := h6.eq_of_length h8
          subst h9
          exact ⟨h3, rfl⟩
        · rintro ⟨h3, rfl⟩
          refine ⟨⟨w, h3, ?_, rfl⟩, bStart, bEnd⟩
          rw [htext, List.append_assoc, List.drop_left]
          exact List.prefix_append _ _
      cases hv : m w with
      | none =>
        simp only [Option.isSome_none, Bool.false_eq_true, if_false]
        rw [(hm text _ (by omega)).2]
        intro j hj
        exact ((hit j).1 hj).1 hv
      | some v =>
        simp only [Option.isSome_some, if_true]
        rw [(hm text _ (by omega)).1]
        refine ⟨(hit _).2 ⟨by simp [hv], rfl⟩, ?_⟩
        intro j' hj'
        exact (((hit j').1 hj').2).le
    · intro n h3 h4
      rw [(hm text _ (by omega)).2]
      intro j hj
      obtain ⟨-, h5, -⟩ := (hit_iff' text _ (by omega) j).1 hj
      have := bIn (n - pre.length) (by omega) (by omega)
      rw [show pre.length + (n - pre.length) = n by omega, h5] at this
      cases this
  have hfi : finditer u r (List.intercalate [sep] ws) = wordSpans (fun w => (m w).isSome) 0 ws := by
    rw [← main]
    rfl
  rw [RegexSpec.findall, hfi]
  exact wordSpans_texts (fun w => (m w).isSome) sep ws []

/-! ### Examples -/

/-- The pattern for the keys `ab` and `cd` finds them among the words `ab`, `ac`, `` and `cd`. -/
example : ∃ pat r, toRegex ascii.space true {} (ofKeys [['a', 'b'], ['c', 'd']]) = .ok pat ∧
    parse pat = some r ∧
    RegexSpec.findall ascii r ['a', 'b', ' ', 'a', 'c', ' ', ' ', 'c', 'd', ' ', 'a', 'b'] =
      [['a', 'b'], ['c', 'd'], ['a', 'b']] := by
  obtain ⟨pat, r, h1, h2, h3⟩ := C184_findall_words (fun w : List Char => w) id
    ([['a', 'b'], ['c', 'd']].map fun k => Call.set k ()) (fun _ => rfl) ascii (by decide +kernel)
    (by decide +kernel) {} rfl ⟨['a', 'b'], (keys_ofKeys [['a', 'b'], ['c', 'd']] _).2 (by simp)⟩
    (by
      intro key hk
      have hk' := (keys_ofKeys [['a', 'b'], ['c', 'd']] key).1 hk
      simp only [List.mem_cons, List.not_mem_nil, or_false] at hk'
      rcases hk' with rfl | rfl <;> decide +kernel)
  refine ⟨pat, r, h1, h2, ?_⟩
  have := h3 ' ' [['a', 'b'], ['a', 'c'], [], ['c', 'd'], ['a', 'b']] ⟨?_, ?_, ?_⟩
  · refine this.trans ?_
    have e : ∀ w, ((afterCalls (fun w : List Char => w) id new
        ([['a', 'b'], ['c', 'd']].map fun k => Call.set k ())).root.get w).isSome =
        decide (w ∈ [['a', 'b'], ['c', 'd']]) := by
      intro w
      rw [Bool.eq_iff_iff, Option.isSome_iff_ne_none, decide_eq_true_iff]
      exact keys_ofKeys [['a', 'b'], ['c', 'd']] w
    rw [List.filter_congr (q := fun w => decide (w ∈ [['a', 'b'], ['c', 'd']])) fun w _ => e w]
    decide +kernel
  · intro key hk
    have hk' := (keys_ofKeys [['a', 'b'], ['c', 'd']] key).1 hk
    simp only [List.mem_cons, List.not_mem_nil, or_false] at hk'
    rcases hk' with rfl | rfl <;> decide
  · by_contra h
    exact absurd ((keys_ofKeys [['a', 'b'], ['c', 'd']] []).1 h) (by simp)
  · intro w hw key hk hi
    have hk' := (keys_ofKeys [['a', 'b'], ['c', 'd']] key).1 hk
    have : ∀ w ∈ [['a', 'b'], ['a', 'c'], [], ['c', 'd'], ['a', 'b']],
        ∀ key ∈ [['a', 'b'], ['c', 'd']], key <:+: w → key = w := by decide +kernel
    exact this w hw key hk' hi

/-- With `boundary=True` the key `a` is found as a word, not inside the words `ab` and `baa`. -/
example : ∃ pat r, toRegex ascii.space true { boundary := true } (ofKeys [['a'], ['b', 'a']]) =
      .ok pat ∧ parse pat = some r ∧
    RegexSpec.findall ascii r ['a', 'b', ' ', 'a', ' ', 'b', 'a', 'a', ' ', 'b', 'a'] =
      [['a'], ['b', 'a']] := by
  have hkeys : ∀ key, (afterCalls (fun w : List Char => w) id new
      ([['a'], ['b', 'a']].map fun k => Call.set k ())).root.get key ≠ none →
      key = ['a'] ∨ key = ['b', 'a'] := by
    intro key hk
    have hk' := (keys_ofKeys [['a'], ['b', 'a']] key).1 hk
    simpa using hk'
  obtain ⟨pat, r, h1, h2, h3⟩ := C185_boundary_words (fun w : List Char => w) id
    ([['a'], ['b', 'a']].map fun k => Call.set k ()) ascii (by decide +kernel)
    (by decide +kernel) { boundary := true } rfl
    ⟨['a'], (keys_ofKeys [['a'], ['b', 'a']] _).2 (by simp)⟩
    (by
      by_contra h
      exact absurd (hkeys [] h) (by simp))
    (by
      intro key hk
      rcases hkeys key hk with rfl | rfl <;> decide +kernel)
    (by
      intro key hk
      rcases hkeys key hk with rfl | rfl <;> decide +kernel)
  refine ⟨pat, r, h1, h2, ?_⟩
  refine (h3 ' ' [['a', 'b'], ['a'], ['b', 'a', 'a'], ['b', 'a']] (by decide +kernel)
    (by decide +kernel)).trans ?_
  have e : ∀ w, ((afterCalls (fun w : List Char => w) id new
      ([['a'], ['b', 'a']].map fun k => Call.set k ())).root.get w).isSome =
      decide (w ∈ [['a'], ['b', 'a']]) := by
    intro w
    rw [Bool.eq_iff_iff, Option.isSome_iff_ne_none, decide_eq_true_iff]
    exact keys_ofKeys [['a'], ['b', 'a']] w
  rw [List.filter_congr (q := fun w => decide (w ∈ [['a'], ['b', 'a']])) fun w _ => e w]
  decide +kernel

end Regex
end Verif
