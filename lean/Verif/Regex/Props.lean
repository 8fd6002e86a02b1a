import Verif.Regex.Glue
import Verif.Trie.ScanProps

/-!
# The pattern of `Trie.to_regex`: properties C96 to C100

The tries are those reached by any calls on an empty trie; `t.root.get` is the mapping they store
(see C52 and C55). What Python's `re` does with the pattern is specified in `Verif.Regex.Spec`.
-/

namespace Verif
namespace Regex

open RegexSpec
open TrieSpec (Call LeftmostLongest occurrences Seg)
open Trie (Node afterCalls new)

/-- What the pattern should match: the characters `i` to `j` of the text are a stored key, up to
the options, and stand between word boundaries if `boundary` is on. -/
def Hit (u : Classes) (o : Opts) (keys : List Char → Prop) (text : List Char) (i j : Nat) : Prop :=
  (∃ key, keys key ∧ Reads (Agrees u.space o.fuzzySpaces o.fffdAny) key text i j) ∧
  (o.boundary = true → boundary u text i = true ∧ boundary u text j = true)

/-- Keys for which the rewriting of the pattern keeps its meaning. -/
structure Tame (space : Char → Bool) (o : Opts) (keys : List Char → Prop) : Prop where
  some : ∃ key, keys key
  wildcard : o.simplify = true → o.fffdAny = true → LoneWildcard keys
  double : o.fuzzySpaces = true → NoDoubleSpace space keys
  fork : o.fuzzySpaces = true → o.simplify = true →
    NoSpaceFork space keys ∧ NoEscapeFork space keys

/-- Keys that part with characters that cannot both match. -/
def Distinct (space : Char → Bool) (o : Opts) (keys : List Char → Prop) : Prop :=
  (o.fffdAny = true → LoneWildcard keys) ∧ (o.fuzzySpaces = true → NoSpaceFork space keys)

section
variable {ν : Type} {u : Classes} {o : Opts} {root : Node Char ν}

theorem pattern_spec (hn : root.WF) (h1 : u.space ' ' = true) (h2 : u.space '�' = false)
    (ht : Tame u.space o (keysOf root)) :
    ∃ pat r, toRegex u.space true o root = .ok pat ∧ parse pat = some r ∧
      (∀ text i, i ≤ text.length → ∀ j, j ∈ r.ends u text i ↔ Hit u o (keysOf root) text i j) ∧
      (Distinct u.space o (keysOf root) → ∀ text i, (r.ends u text i).Pairwise (· > ·)) := by
  have hw := treeOf_wf u.space o root
  refine ⟨_, _, toRegex_eq u.space o root
    (fun hf => tree_clean hn h1 hf (ht.double hf) (ht.fork hf)), parse_brackets hw _ _, ?_, ?_⟩
  · intro text i hi j
    have hE : j ∈ (treeOf u.space o root).E u o.fuzzySpaces text i ↔
        ∃ key, keysOf root key ∧ Reads (Agrees u.space o.fuzzySpaces o.fffdAny) key text i j := by
      rw [← contPt_mem u o.fuzzySpaces (tk u.space o) (tk_test u.space o u rfl h1 h2) text hn
        (by obtain ⟨key, hk⟩ := ht.some; exact live_of_key hk) hi j]
      unfold treeOf
      split_ifs with hs
      · exact mem_simp u _ (contPt_raw _ _) (tree_lone hn h1 (ht.wildcard hs)) text i j
      · rfl
    rw [whole_ends u _ _ hw]
    unfold Hit
    rw [← hE]
    cases o.boundary with
    | false => simp
    | true =>
      by_cases hb : boundary u text i = true
      · simp [hb, List.mem_filter]
      · simp [hb]
  · rintro ⟨hd1, hd2⟩ text i
    have hraw := contPt_raw (tk u.space o) root
    have hdet := tree_det hn h1 h2 u rfl hd1 hd2
    have hE : ((treeOf u.space o root).E u o.fuzzySpaces text i).Pairwise (· > ·) := by
      have h3 := (E_sorted u o.fuzzySpaces hraw hdet text
        (contPt_wf _ (tk_ok u.space o) root) i).1
      unfold treeOf
      split_ifs with hs
      · rw [E_simp u _ hraw (tree_lone hn h1 hd1) hdet (contPt_wf _ (tk_ok u.space o) root)]
        exact h3
      · exact h3
    rw [whole_ends u _ _ hw]
    split_ifs
    · exact hE.filter _
    · exact List.Pairwise.nil
    · exact hE

end

variable {κ ν : Type} (tok : κ → List Char) (detok : List Char → κ) (cs : List (Call κ ν))

theorem hasSub_infix {x s : List Char} : hasSub x s = true ↔ x <:+: s := by
  induction s with
  | nil => simp [hasSub]
  | cons c s ih =>
    rw [hasSub, Bool.or_eq_true, ih, List.isPrefixOf_iff_prefix, List.infix_cons_iff]

/-- **C96.** `to_regex` raises nothing, whatever the keys and options, and its last loop ends: the
pattern has no `\s\s` left when `fuzzy_spaces` is on. -/
theorem C96_never_raises (sp : Char → Bool) (o : Opts) :
    ∃ pat, toRegex sp true o (afterCalls tok detok new cs).root = .ok pat ∧
      (o.fuzzySpaces = true → ¬ "\\s\\s".toList <:+: pat) := by
  rw [toRegex_general]
  refine ⟨_, rfl, ?_⟩
  intro hf
  simp only [hf, if_true]
  rw [← hasSub_infix, Bool.not_eq_true]
  exact collapse_done _ _ (Nat.le_refl _)

/-- **C96.** The pattern is accepted by `re` and its full matches are exactly the texts that are a
stored key up to the options. -/
theorem C96_fullmatch (u : Classes) (h1 : u.space ' ' = true) (h2 : u.space '�' = false)
    (o : Opts) (ht : Tame u.space o fun key => (afterCalls tok detok new cs).root.get key ≠ none) :
    ∃ pat r, toRegex u.space true o (afterCalls tok detok new cs).root = .ok pat ∧
      parse pat = some r ∧
      ∀ text, FullMatch u r text ↔
        (∃ key, (afterCalls tok detok new cs).root.get key ≠ none ∧
          List.Forall₂ (Agrees u.space o.fuzzySpaces o.fffdAny) key text) ∧
        (o.boundary = true → boundary u text 0 = true ∧ boundary u text text.length = true) := by
  have hn := (Trie.inv_afterCalls tok detok cs (Trie.inv_new (τ := Char) (ν := ν))).wf
  obtain ⟨pat, r, hp, hr, hm, -⟩ := pattern_spec hn h1 h2 ht
  refine ⟨pat, r, hp, hr, ?_⟩
  intro text
  rw [FullMatch, hm text 0 (Nat.zero_le _)]
  unfold Hit Reads
  simp

/-- **C97.** When keys part only with characters that cannot both match, `match` at a position
finds the longest stored key there, and nothing exactly if there is none. -/
theorem C97_match_is_longest (u : Classes) (h1 : u.space ' ' = true) (h2 : u.space '�' = false)
    (o : Opts) (ht : Tame u.space o fun key => (afterCalls tok detok new cs).root.get key ≠ none)
    (hd : Distinct u.space o fun key => (afterCalls tok detok new cs).root.get key ≠ none) :
    ∃ pat r, toRegex u.space true o (afterCalls tok detok new cs).root = .ok pat ∧
      parse pat = some r ∧
      ∀ text i, i ≤ text.length →
        (∀ j, matchAt u r text i = some j ↔
          Hit u o (fun key => (afterCalls tok detok new cs).root.get key ≠ none) text i j ∧
          ∀ j', Hit u o (fun key => (afterCalls tok detok new cs).root.get key ≠ none) text i j' →
            j' ≤ j) ∧
        (matchAt u r text i = none ↔
          ∀ j, ¬ Hit u o (fun key => (afterCalls tok detok new cs).root.get key ≠ none) text i j) := by
  have hn := (Trie.inv_afterCalls tok detok cs (Trie.inv_new (τ := Char) (ν := ν))).wf
  obtain ⟨pat, r, hp, hr, hm, hs⟩ := pattern_spec hn h1 h2 ht
  refine ⟨pat, r, hp, hr, ?_⟩
  intro text i hi
  have hm' := hm text i hi
  have hs' := hs hd text i
  unfold matchAt
  generalize r.ends u text i = l at hm' hs'
  constructor
  · intro j
    constructor
    · intro h
      cases l with
      | nil => simp at h
      | cons a l =>
        simp only [List.head?_cons, Option.some.injEq] at h
        subst h
        refine ⟨(hm' a).1 (by simp), ?_⟩
        intro j' hj'
        rcases List.mem_cons.1 ((hm' j').2 hj') with h | h
        · omega
        · have := (List.pairwise_cons.1 hs').1 j' h
          omega
    · rintro ⟨h3, h4⟩
      have h5 := (hm' j).2 h3
      cases l with
      | nil => simp at h5
      | cons a l =>
        have h6 := h4 a ((hm' a).1 (by simp))
        rcases List.mem_cons.1 h5 with h | h
        · simp [h]
        · have := (List.pairwise_cons.1 hs').1 j h
          omega
  · cases l with
    | nil => simpa using fun j => (hm' j).not.1 (by simp)
    | cons a l =>
      simp only [List.head?_cons, reduceCtorEq, false_iff]
      intro h
      exact h a ((hm' a).1 (by simp))

/-- No character of a key is rewritten by an option. -/
def Literal (space : Char → Bool) (o : Opts) (keys : List Char → Prop) : Prop :=
  ∀ key, keys key → ∀ k ∈ key, ¬ (o.fuzzySpaces = true ∧ space k = true) ∧
    ¬ (o.fffdAny = true ∧ k = '�')

theorem reads_literal {space : Char → Bool} {o : Opts} {key text : List Char}
    (hk : ∀ k ∈ key, ¬ (o.fuzzySpaces = true ∧ space k = true) ∧ ¬ (o.fffdAny = true ∧ k = '�'))
    {i j : Nat} (hi : i ≤ text.length) :
    Reads (Agrees space o.fuzzySpaces o.fffdAny) key text i j ↔
      key <+: text.drop i ∧ j = i + key.length := by
  induction key generalizing i with
  | nil => rw [reads_nil hi]; simp
  | cons a key ih =>
    rw [reads_cons]
    have ha := hk a (by simp)
    have hag : ∀ c, Agrees space o.fuzzySpaces o.fffdAny a c ↔ a = c := by
      intro c
      constructor
      · rintro (h | ⟨h, h', -⟩ | ⟨h, h', -⟩)
        · exact h
        · exact absurd ⟨h, h'⟩ ha.1
        · exact absurd ⟨h, h'⟩ ha.2
      · exact Or.inl
    by_cases hlt : i < text.length
    · rw [List.drop_eq_getElem_cons hlt, List.cons_prefix_cons]
      rw [List.getElem?_eq_getElem hlt]
      simp only [Option.some.injEq, hag]
      constructor
      · rintro ⟨c, rfl, rfl, h⟩
        rw [ih (fun k hk' => hk k (by simp [hk'])) (by omega)] at h
        refine ⟨⟨rfl, h.1⟩, ?_⟩
        rw [h.2, List.length_cons]
        omega
      · rintro ⟨⟨h3, h4⟩, h5⟩
        refine ⟨_, rfl, h3, ?_⟩
        rw [ih (fun k hk' => hk k (by simp [hk'])) (by omega)]
        refine ⟨h4, ?_⟩
        rw [h5, List.length_cons]
        omega
    · rw [List.getElem?_eq_none (by omega), List.drop_eq_nil_of_le (by omega)]
      simp

/-- **C98.** For keys that no option rewrites, none of them empty, `re.finditer` with the pattern
finds the same matches as `Trie.finditer`. -/
theorem C98_finditer (u : Classes) (h1 : u.space ' ' = true) (h2 : u.space '�' = false) (o : Opts)
    (hb : o.boundary = false)
    (hne : ∃ key, (afterCalls tok detok new cs).root.get key ≠ none)
    (he : (afterCalls tok detok new cs).root.get [] = none)
    (hl : Literal u.space o fun key => (afterCalls tok detok new cs).root.get key ≠ none) :
    ∃ pat r, toRegex u.space true o (afterCalls tok detok new cs).root = .ok pat ∧
      parse pat = some r ∧
      ∀ text : κ, ∃ hits : List (Nat × Nat × List Char),
        Trie.finditer tok detok (afterCalls tok detok new cs) false text =
          .ok (hits.map fun h => (h.1, h.2.1, detok h.2.2)) ∧
        RegexSpec.finditer u r (tok text) = hits.map fun h => (h.1, h.2.1) := by
  have ht : Tame u.space o fun key => (afterCalls tok detok new cs).root.get key ≠ none := by
    refine ⟨hne, ?_, ?_, ?_⟩
    · intro _ hf p x a b h3 _
      exact absurd ⟨hf, rfl⟩ (hl _ h3 '�' (by simp)).2
    · intro hf
      refine ⟨fun a x y b h3 h4 => ?_, fun a y b h3 h4 => ?_⟩
      · exact (hl _ h3 x (by simp)).1 ⟨hf, h4.1⟩
      · exact (hl _ h3 y (by simp)).1 ⟨hf, h4⟩
    · intro hf _
      refine ⟨fun p x y a b h3 _ h5 _ => ?_, fun p y a b c _ _ h3 h4 => ?_⟩
      · exact absurd ⟨hf, h5⟩ (hl _ h3 x (by simp)).1
      · exact (hl _ h3 y (by simp)).1 ⟨hf, h4⟩
  have hd : Distinct u.space o fun key => (afterCalls tok detok new cs).root.get key ≠ none := by
    refine ⟨?_, ?_⟩
    · intro hf p x a b h3 _
      exact absurd ⟨hf, rfl⟩ (hl _ h3 '�' (by simp)).2
    · intro hf p x y a b h3 _ h5 _
      exact absurd ⟨hf, h5⟩ (hl _ h3 x (by simp)).1
  obtain ⟨pat, r, hp, hr, hm⟩ := C97_match_is_longest tok detok cs u h1 h2 o ht hd
  refine ⟨pat, r, hp, hr, ?_⟩
  intro text
  obtain ⟨gs, ⟨hgs, hfi⟩, -⟩ := Trie.C59_finditer_leftmost_longest tok detok
    (afterCalls tok detok new cs) text
  refine ⟨_, hfi, ?_⟩
  generalize tok text = txt at hgs
  have hm' := hm txt
  have hit_iff' : ∀ i, i ≤ txt.length → ∀ j,
      Hit u o (fun key => (afterCalls tok detok new cs).root.get key ≠ none) txt i j ↔
      ∃ key, (afterCalls tok detok new cs).root.get key ≠ none ∧ key <+: txt.drop i ∧
        j = i + key.length := by
    intro i hi j
    unfold Hit
    simp only [hb, Bool.false_eq_true, false_implies, and_true]
    constructor
    · rintro ⟨key, h3, h4⟩
      exact ⟨key, h3, (reads_literal (hl key h3) hi).1 h4⟩
    · rintro ⟨key, h3, h4⟩
      exact ⟨key, h3, (reads_literal (hl key h3) hi).2 h4⟩
  have main : ∀ ts gs, LeftmostLongest (afterCalls tok detok new cs).root.get ts gs →
      ∀ pre, txt = pre ++ ts → finditerFrom u r txt (ts.length + 1) pre.length =
        (occurrences pre.length gs).map fun h => (h.1, h.2.1) := by
    intro ts gs h
    induction h with
    | nil =>
      intro pre hpre
      have hi : pre.length ≤ txt.length := by rw [hpre]; simp
      have hnone : matchAt u r txt pre.length = none := by
        rw [(hm' _ hi).2]
        intro j
        rw [hit_iff' _ hi]
        rintro ⟨key, h3, h4, -⟩
        rw [hpre, List.drop_left, List.prefix_nil] at h4
        exact h3 (h4 ▸ he)
      simp [finditerFrom, hnone, occurrences]
    | @hit w rest v segs h3 h4 h5 _ ih =>
      intro pre hpre
      have hi : pre.length ≤ txt.length := by rw [hpre]; simp
      have hsome : matchAt u r txt pre.length = some (pre.length + w.length) := by
        rw [(hm' _ hi).1, hit_iff' _ hi]
        refine ⟨⟨w, by rw [h4]; simp, by rw [hpre, List.drop_left]; exact List.prefix_append _ _,
          rfl⟩, ?_⟩
        intro j' hj'
        rw [hit_iff' _ hi] at hj'
        obtain ⟨key, h6, h7, rfl⟩ := hj'
        rw [hpre, List.drop_left] at h7
        have := h5 key h7 h6
        omega
      have hpos := List.length_pos_of_ne_nil h3
      rw [finditerFrom, hsome]
      simp only [occurrences, List.map_cons, List.cons.injEq, true_and]
      rw [show (w ++ rest).length - (pre.length + w.length - 1 - pre.length) = rest.length + 1 by
        rw [List.length_append]; omega]
      have := ih (pre ++ w) (by rw [hpre, List.append_assoc])
      rwa [List.length_append] at this
    | @tok t rest segs h3 _ ih =>
      intro pre hpre
      have hi : pre.length ≤ txt.length := by rw [hpre]; simp
      have hnone : matchAt u r txt pre.length = none := by
        rw [(hm' _ hi).2]
        intro j
        rw [hit_iff' _ hi]
        rintro ⟨key, h4, h5, -⟩
        rw [hpre, List.drop_left] at h5
        refine h4 (h3 key h5 ?_)
        rintro rfl
        exact h4 he
      rw [finditerFrom, hnone]
      simp only [occurrences, List.length_cons]
      have := ih (pre ++ [t]) (by rw [hpre]; simp)
      rwa [List.length_append] at this
  exact main txt gs hgs [] rfl

/-- **C99.** The option `fuzzy_quotes` has no effect. -/
theorem C99_fuzzy_quotes_ignored (sp : Char → Bool) (charTok b : Bool) (o : Opts)
    (root : Node Char ν) :
    toRegex sp charTok { o with fuzzyQuotes := b } root = toRegex sp charTok o root := by
  have h : keyText sp { o with fuzzyQuotes := b } = keyText sp o :=
    funext (keyText_quotes sp o b)
  simp only [toRegex, h]

end Regex
end Verif
