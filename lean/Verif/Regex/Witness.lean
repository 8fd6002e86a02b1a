import Verif.Regex.Props

/-!
# The pattern of `Trie.to_regex`: property C100 and examples
-/

namespace Verif
namespace Regex

open RegexSpec
open TrieSpec (Call)
open Trie (Node afterCalls new)

/-! ### Witnesses -/

/-- The trie `Trie.fromkeys(keys)`. -/
def ofKeys (keys : List (List Char)) : Node Char Unit :=
  (afterCalls (fun w : List Char => w) id new (keys.map fun k => Call.set k ())).root

theorem keys_ofKeys (L : List (List Char)) (key : List Char) :
    (ofKeys L).get key ≠ none ↔ key ∈ L := by
  have main : ∀ (L : List (List Char)) (t : Trie Char Unit),
      (afterCalls (fun w : List Char => w) id t (L.map fun k => Call.set k ())).root.get key ≠ none
        ↔ key ∈ L ∨ t.root.get key ≠ none := by
    intro L
    induction L with
    | nil => intro t; simp [afterCalls]
    | cons k L ih =>
      intro t
      have h := ih (Trie.setItem (fun w : List Char => w) t k ())
      have hg : (Trie.setItem (fun w : List Char => w) t k ()).root.get key =
          if key = k then some () else t.root.get key := Node.get_put () t.root k key
      rw [hg] at h
      change (afterCalls (fun w : List Char => w) id
        (Trie.setItem (fun w : List Char => w) t k ()) _).root.get key ≠ none ↔ _
      rw [h, List.mem_cons]
      split_ifs with he
      · simp [he]
      · simp [he]
  have h := main L new
  have hn : (new : Trie Char Unit).root.get key = none := Node.get_empty key
  rw [hn] at h
  unfold ofKeys
  simpa using h

/-- Evaluates the trie of concrete keys. -/
local macro "trie_eval" : tactic =>
  `(tactic| simp [ofKeys, afterCalls, Trie.step, Trie.setItem, Node.put, Node.val, Node.kids, new,
    Node.empty, Dict.set, Dict.get?])

/-- **C100.** With the default options a wildcard that has siblings is lost: the keys `a` and U+FFFD
give a pattern that does not match `z`. -/
theorem C100_wildcard_lost (u : Classes) (h1 : u.space 'a' = false) (h2 : u.space '�' = false) :
    toRegex u.space true {} (ofKeys [['a'], ['�']]) = .ok "(?:[.a])".toList ∧
    (∃ r, parse "(?:[.a])".toList = some r ∧ ¬ FullMatch u r ['z']) ∧
    ∃ key, (ofKeys [['a'], ['�']]).get key ≠ none ∧
      List.Forall₂ (Agrees u.space true true) key ['z'] := by
  refine ⟨?_, ?_, ?_⟩
  · have ht : treeOf u.space {} (ofKeys [['a'], ['�']]) = .cls [.dot, .plain 'a'] false := by
      rw [show ofKeys [['a'], ['�']] = .mk none [('a', .mk (some ()) []), ('�', .mk (some ()) [])] from by trie_eval]
      have e1 : tk u.space {} 'a' = .plain 'a' := by simp [tk, h1]; decide
      have e2 : tk u.space {} '�' = .dot := by simp [tk, h2]; decide
      simp only [treeOf, if_true, contPt, Node.kids, Node.val, List.reverse_cons, List.reverse_nil,
        List.nil_append, List.cons_append, kidsPt_cons, e1, e2]
      rfl
    rw [toRegex_general, ht]
    exact congrArg Except.ok (by decide +kernel)
  · exact ⟨.seq (.seq (.cls [.chr '.', .chr 'a']) .eps) .eps, by decide +kernel,
      by simp [FullMatch, RE.ends, Atom.test]⟩
  · exact ⟨['�'], by rw [keys_ofKeys]; simp, by simp [Agrees]⟩

/-- **C100.** With the default options two keys that part with different whitespace give a class
with a plus sign in it: `x` + space and `x` + tab give a pattern that matches `x+`. -/
theorem C100_space_class (u : Classes) (h2 : u.space '\t' = true)
    (h3 : u.space 'x' = false) (h4 : u.space '+' = false) :
    toRegex u.space true {} (ofKeys [['x', ' '], ['x', '\t']]) = .ok "(?:x[\\s+])".toList ∧
    (∃ r, parse "(?:x[\\s+])".toList = some r ∧ FullMatch u r ['x', '+']) ∧
    ¬ ∃ key, (ofKeys [['x', ' '], ['x', '\t']]).get key ≠ none ∧
      List.Forall₂ (Agrees u.space true true) key ['x', '+'] := by
  refine ⟨?_, ?_, ?_⟩
  · have ht : treeOf u.space {} (ofKeys [['x', ' '], ['x', '\t']]) =
        .tok (.plain 'x') (.cls [.esc ' ', .esc ' '] false) := by
      rw [show ofKeys [['x', ' '], ['x', '\t']] =
        .mk none [('x', .mk none [(' ', .mk (some ()) []), ('\t', .mk (some ()) [])])] from by trie_eval]
      have e1 : tk u.space {} 'x' = .plain 'x' := by simp [tk, h3]; decide
      have e2 : tk u.space {} ' ' = .esc ' ' := by simp [tk]; decide
      have e3 : tk u.space {} '\t' = .esc ' ' := by simp [tk, h2]; decide
      simp only [treeOf, if_true, contPt, Node.kids, Node.val, List.reverse_cons, List.reverse_nil,
        List.nil_append, List.cons_append, kidsPt_cons, e1, e2, e3]
      rfl
    rw [toRegex_general, ht]
    exact congrArg Except.ok (by decide +kernel)
  · exact ⟨.seq (.seq (.atom (.chr 'x')) (.seq (.cls [.space, .chr '+']) .eps)) .eps,
      by decide +kernel, by simp [FullMatch, RE.ends, Atom.test]⟩
  · rintro ⟨key, hk, hf⟩
    rw [keys_ofKeys] at hk
    simp only [List.mem_cons, List.not_mem_nil, or_false] at hk
    rcases hk with rfl | rfl <;> simp [Agrees, h4] at hf

/-- **C100.** With the default options a space after the characters `\s` is lost: the key `\s` +
space gives a pattern that matches neither the key nor any text with whitespace. -/
theorem C100_escape_space (u : Classes) (h1 : u.space ' ' = true) (h2 : u.space '\\' = false)
    (h3 : u.space 's' = false) :
    toRegex u.space true {} (ofKeys [['\\', 's', ' ']]) = .ok "(?:\\\\s+)".toList ∧
    (∃ r, parse "(?:\\\\s+)".toList = some r ∧ FullMatch u r ['\\', 's', 's'] ∧
      ¬ FullMatch u r ['\\', 's', ' ']) ∧
    (∀ text, (∃ key, (ofKeys [['\\', 's', ' ']]).get key ≠ none ∧
      List.Forall₂ (Agrees u.space true true) key text) ↔
        ∃ c, u.space c = true ∧ text = ['\\', 's', c]) := by
  refine ⟨?_, ?_, ?_⟩
  · have ht : treeOf u.space {} (ofKeys [['\\', 's', ' ']]) =
        .tok (.esc '\\') (.tok (.plain 's') (.tok (.esc ' ') .done)) := by
      rw [show ofKeys [['\\', 's', ' ']] =
        .mk none [('\\', .mk none [('s', .mk none [(' ', .mk (some ()) [])])])] from by trie_eval]
      have e1 : tk u.space {} '\\' = .esc '\\' := by simp [tk, h2]; decide
      have e2 : tk u.space {} 's' = .plain 's' := by simp [tk, h3]; decide
      have e3 : tk u.space {} ' ' = .esc ' ' := by simp [tk]; decide
      simp only [treeOf, if_true, contPt, Node.kids, Node.val, List.reverse_cons, List.reverse_nil,
        List.nil_append, kidsPt_cons, e1, e2, e3]
      rfl
    rw [toRegex_general, ht]
    exact congrArg Except.ok (by decide +kernel)
  · refine ⟨.seq (.seq (.atom (.chr '\\')) (.seq (.plus [.chr 's']) .eps)) .eps,
      by decide +kernel, ?_, ?_⟩
    · simp only [FullMatch, RE.ends, Atom.test, runLength]
      simp [Atom.test]
      exact ⟨1, by omega, rfl⟩
    · simp [FullMatch, RE.ends, Atom.test, runLength]
  · intro text
    have ha : ∀ k c, k ≠ '�' → u.space k = false → (Agrees u.space true true k c ↔ k = c) := by
      intro k c h4 h5
      simp [Agrees, h4, h5]
    simp only [keys_ofKeys, List.mem_singleton, exists_eq_left]
    rw [List.forall₂_cons_left_iff]
    constructor
    · rintro ⟨c, t1, hc, h4, rfl⟩
      obtain ⟨d, t2, hd, h5, rfl⟩ := List.forall₂_cons_left_iff.1 h4
      obtain ⟨e, t3, he, h6, rfl⟩ := List.forall₂_cons_left_iff.1 h5
      rw [List.forall₂_nil_left_iff] at h6
      rw [ha _ _ (by decide) h2] at hc
      rw [ha _ _ (by decide) h3] at hd
      subst hc hd h6
      refine ⟨e, ?_, rfl⟩
      rcases he with rfl | ⟨-, -, he⟩ | ⟨-, h, -⟩
      · exact h1
      · exact he
      · exact absurd h (by decide)
    · rintro ⟨c, hc, rfl⟩
      refine ⟨_, _, Or.inl rfl, ?_, rfl⟩
      refine .cons (Or.inl rfl) (.cons (Or.inr (Or.inl ⟨rfl, h1, hc⟩)) .nil)

/-- **C100.** The pattern of a trie without keys matches the empty text. -/
theorem C100_no_keys (u : Classes) (o : Opts) (ho : o.boundary = false) :
    toRegex u.space true o (ofKeys []) = .ok "(?:)".toList ∧
    (∃ r, parse "(?:)".toList = some r ∧ FullMatch u r []) ∧
    ∀ key, (ofKeys []).get key = none := by
  refine ⟨?_, ?_, ?_⟩
  · have ht : treeOf u.space o (ofKeys []) = .done := by
      rw [show ofKeys [] = .mk none [] from by trie_eval]
      unfold treeOf
      split_ifs <;> rfl
    rw [toRegex_general, ht, ho]
    cases o.fuzzySpaces <;> exact congrArg Except.ok (by decide +kernel)
  · exact ⟨.seq .eps .eps, by decide +kernel, by simp [FullMatch, RE.ends]⟩
  · intro key
    by_contra h
    have := (keys_ofKeys [] key).1 h
    simp at this

/-! ### Examples -/

/-- Whitespace and word characters of ASCII. -/
def ascii : Classes :=
  ⟨fun c => c = ' ' ∨ c = '\t' ∨ c = '\n' ∨ c = '\r', fun c => asciiAlnum c ∨ c = '_'⟩

/-- The keys `ab`, `a b`, `a-c` and `ab d`. -/
def sample : List (List Char) :=
  [['a', 'b'], ['a', ' ', 'b'], ['a', '-', 'c'], ['a', 'b', ' ', 'd']]

/-- They meet the conditions of C96 and C97. -/
theorem sample_tame : Tame ascii.space {} (fun key => (ofKeys sample).get key ≠ none) ∧
    Distinct ascii.space {} (fun key => (ofKeys sample).get key ≠ none) := by
  simp only [keys_ofKeys]
  have hA : ∀ key ∈ sample, ∀ n < key.length, ¬ (ascii.space ((key[n]?).getD 'a') = true ∧
      ascii.space ((key[n + 1]?).getD 'a') = true) := by decide +kernel
  have hB : ∀ k ∈ sample, ∀ k' ∈ sample, ∀ n < k.length, k.take n = k'.take n →
      ascii.space ((k[n]?).getD 'a') = true → ascii.space ((k'[n]?).getD 'a') = true →
      (k[n]?).getD 'a' = (k'[n]?).getD 'a' := by decide +kernel
  have hC : ∀ key ∈ sample, '�' ∉ key ∧ '\\' ∉ key := by decide +kernel
  have fork : NoSpaceFork ascii.space (· ∈ sample) := by
    intro p x y a b h1 h2 h3 h4
    have := hB _ h1 _ h2 p.length (by simp) (by simp)
    simp only [List.getElem?_append_right (Nat.le_refl _), Nat.sub_self, List.getElem?_cons_zero,
      Option.getD_some] at this
    exact this h3 h4
  have wild : LoneWildcard (· ∈ sample) := fun p x a b h _ => absurd (by simp) (hC _ h).1
  refine ⟨⟨⟨['a', 'b'], by simp [sample]⟩, fun _ _ => wild, fun _ => ⟨?_, ?_⟩,
    fun _ _ => ⟨fork, ?_⟩⟩, fun _ => wild, fun _ => fork⟩
  · intro a x y b h
    have := hA _ h a.length (by simp)
    simpa [List.getElem?_append_right] using this
  · intro a y b h
    exact absurd (by simp) (hC _ h).2
  · intro p y a b c h
    exact absurd (by simp) (hC _ h).2

theorem sample_pattern :
    toRegex ascii.space true {} (ofKeys sample) = .ok "(?:a(?:\\-c|\\sb|b(?:\\sd)?))".toList := by
  have ht : treeOf ascii.space {} (ofKeys sample) = .tok (.plain 'a') (.grp
      (.alt (.tok (.esc '-') (.tok (.plain 'c') .done))
        (.alt (.tok (.esc ' ') (.tok (.plain 'b') .done))
          (.tok (.plain 'b') (.grp (.tok (.esc ' ') (.tok (.plain 'd') .done)) true)))) false) := by
    rw [show ofKeys sample = .mk none [('a', .mk none [('b', .mk (some ())
      [(' ', .mk none [('d', .mk (some ()) [])])]), (' ', .mk none [('b', .mk (some ()) [])]),
      ('-', .mk none [('c', .mk (some ()) [])])])] from by unfold sample; trie_eval]
    have e1 : ∀ c ∈ ['a', 'b', 'c', 'd'], tk ascii.space {} c = .plain c := by decide +kernel
    have e2 : ∀ c ∈ ['-', ' '], tk ascii.space {} c = .esc c := by decide +kernel
    simp only [treeOf, if_true, contPt, Node.kids, Node.val, List.reverse_cons, List.reverse_nil,
      List.nil_append, List.cons_append, kidsPt_cons, e1 'a' (by simp), e1 'b' (by simp),
      e1 'c' (by simp), e1 'd' (by simp), e2 '-' (by simp), e2 ' ' (by simp)]
    rfl
  rw [toRegex_general, ht]
  exact congrArg Except.ok (by decide +kernel)

/-- What C96 says about them: `a` + tab + `b` matches in full, `a` + tab does not. -/
example : ∃ r, parse "(?:a(?:\\-c|\\sb|b(?:\\sd)?))".toList = some r ∧
    FullMatch ascii r ['a', '\t', 'b'] ∧ ¬ FullMatch ascii r ['a', '\t'] := by
  obtain ⟨pat, r, h1, h2, h3⟩ := C96_fullmatch (fun w : List Char => w) id
    (sample.map fun k => Call.set k ()) ascii (by decide +kernel) (by decide +kernel) {}
    sample_tame.1
  have h4 := sample_pattern
  rw [show toRegex ascii.space true {} (ofKeys sample) = .ok pat from h1] at h4
  injection h4 with h4
  subst h4
  refine ⟨r, h2, (h3 _).2 ⟨⟨['a', ' ', 'b'], ?_, ?_⟩, by simp⟩, ?_⟩
  · exact (keys_ofKeys sample _).2 (by simp [sample])
  · refine .cons (Or.inl rfl) (.cons (Or.inr (Or.inl ⟨rfl, by decide, by decide⟩))
      (.cons (Or.inl rfl) .nil))
  · rw [h3]
    rintro ⟨⟨key, hk, hf⟩, -⟩
    have hk' := (keys_ofKeys sample key).1 hk
    have hl := hf.length_eq
    have h5 : ∀ k ∈ sample, k.length = 2 → k = ['a', 'b'] := by decide +kernel
    rw [h5 key hk' hl] at hf
    simp [Agrees, ascii] at hf

/-- What C97 says about them: at the start of `ab dx` the match is `ab d`, not `ab`. -/
example : ∃ r, parse "(?:a(?:\\-c|\\sb|b(?:\\sd)?))".toList = some r ∧
    matchAt ascii r ['a', 'b', ' ', 'd', 'x'] 0 = some 4 := by
  exact ⟨.seq (.seq (.atom (.chr 'a')) (.seq (.alt (.seq (.atom (.chr '-')) (.seq (.atom (.chr 'c')) .eps))
    (.alt (.seq (.atom .space) (.seq (.atom (.chr 'b')) .eps))
      (.seq (.atom (.chr 'b')) (.seq (.opt (.seq (.atom .space) (.seq (.atom (.chr 'd')) .eps)))
        .eps)))) .eps)) .eps, by decide +kernel, by decide +kernel⟩

/-- Keys that meet the conditions of C98. -/
example : ∃ pat r, toRegex ascii.space true {} (ofKeys [['a'], ['a', 'b'], ['c']]) = .ok pat ∧
    parse pat = some r ∧ ∀ text : List Char, ∃ hits : List (Nat × Nat × List Char),
      Trie.finditer (fun w => w) id (afterCalls (fun w => w) id new
          ([['a'], ['a', 'b'], ['c']].map fun k => Call.set k ())) false text =
        .ok (hits.map fun h => (h.1, h.2.1, h.2.2)) ∧
      RegexSpec.finditer ascii r text = hits.map fun h => (h.1, h.2.1) := by
  refine C98_finditer (fun w : List Char => w) id
    ([['a'], ['a', 'b'], ['c']].map fun k => Call.set k ()) ascii (by decide +kernel)
    (by decide +kernel) {} rfl ⟨['a'], (keys_ofKeys [['a'], ['a', 'b'], ['c']] _).2 (by simp)⟩ ?_ ?_
  · by_contra h
    exact absurd ((keys_ofKeys [['a'], ['a', 'b'], ['c']] []).1 h) (by simp)
  · intro key hk
    have hk' := (keys_ofKeys [['a'], ['a', 'b'], ['c']] key).1 hk
    simp only [List.mem_cons, List.not_mem_nil, or_false] at hk'
    rcases hk' with rfl | rfl | rfl <;> decide +kernel

/-- Matches of a pattern with two keys where one begins the other. -/
example : ∃ r, parse "(?:ab?|c)".toList = some r ∧
    RegexSpec.finditer ascii r ['a', 'b', 'x', 'a', 'a', 'c'] =
      [(0, 2), (3, 4), (4, 5), (5, 6)] := by
  refine ⟨.seq (.alt (.seq (.atom (.chr 'a')) (.seq (.opt (.atom (.chr 'b'))) .eps))
    (.seq (.atom (.chr 'c')) .eps)) .eps, by decide +kernel, ?_⟩
  simp [RegexSpec.finditer, finditerFrom, matchAt, RE.ends, Atom.test]

/-- What C99 says about a key with a quote: only the straight quote is in the pattern. -/
example : ∀ b, toRegex ascii.space true { fuzzyQuotes := b } (ofKeys [['\'']]) =
    toRegex ascii.space true {} (ofKeys [['\'']]) :=
  fun b => C99_fuzzy_quotes_ignored ascii.space true b {} _

end Regex
end Verif
