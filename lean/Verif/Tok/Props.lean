import Verif.Tok.SentLemmas

/-!
# Properties of the tokeniser (experiments/tokenizer.py)
-/

namespace Verif
namespace Tok

open TokSpec

theorem unicodeTokenize_tokens (cat : ℕ → Cat) (text : List ℕ) (merge : Bool) :
    unicodeTokenize cat text false true merge =
      (tokenizeTokens cat text merge).map (List.map .tok) := by
  cases merge with
  | false => rfl
  | true =>
    unfold unicodeTokenize tokenizeTokens
    cases mergeApostrophes (allTokens cat text) <;> rfl

/-! ## A small character table for the examples -/

/-- Categories of the ASCII characters used in the examples (letters and digits right, everything
else as if it were `Po`). -/
def asciiCat (c : ℕ) : Cat :=
  if 97 ≤ c ∧ c ≤ 122 then .Ll else if 65 ≤ c ∧ c ≤ 90 then .Lu
  else if 48 ≤ c ∧ c ≤ 57 then .Nd else if c = 32 then .Zs else .Po

/-- The code points of a string. -/
def cps (s : String) : List ℕ := s.toList.map Char.toNat

/-! ## C88: lossless tokenisation -/

/-- C88: the tokens concatenate to the text, none is empty, each starts where the previous ended, and
`text[start_pos : start_pos + len(token.text)]` is the text of the token; also after merging
apostrophes. -/
theorem C88_lossless (cat : ℕ → Cat) (text : List ℕ) (merge : Bool) :
    ∃ ts : List Token, unicodeTokenize cat text false true merge = .ok (ts.map .tok) ∧ Lossless text ts ∧
      ∀ t ∈ ts, (text.drop t.start).take t.text.length = t.text := by
  obtain ⟨ts, h1, h2, -⟩ := tokenizeTokens_ok cat text merge
  refine ⟨ts, by rw [unicodeTokenize_tokens, h1]; rfl, h2, ?_⟩
  intro t ht
  obtain ⟨k, hk⟩ := List.mem_iff_getElem?.mp ht
  have hs := h2.start_eq k t hk
  obtain ⟨hlt, hget⟩ := List.getElem?_eq_some_iff.mp hk
  have hdec : ts = ts.take k ++ t :: ts.drop (k + 1) := by
    conv_lhs => rw [← List.take_append_drop k ts, List.drop_eq_getElem_cons hlt, hget]
  have htext : text = textOf (ts.take k) ++ (t.text ++ textOf (ts.drop (k + 1))) := by
    rw [← textOf_cons, ← textOf_append, ← hdec, h2.text_eq]
  rw [hs, htext, List.drop_left, List.take_left]

example : unicodeTokenize asciiCat (cps "isn't it?") false true false =
    .ok (([⟨cps "isn", 0, .WORD⟩, ⟨cps "'", 3, .PUNCTUATION⟩, ⟨cps "t", 4, .WORD⟩,
      ⟨cps " ", 5, .WHITESPACE⟩, ⟨cps "it", 6, .WORD⟩, ⟨cps "?", 8, .PUNCTUATION⟩] :
      List Token).map .tok) := by decide +kernel

example : unicodeTokenize asciiCat (cps "isn't it?") false true true =
    .ok (([⟨cps "isn't", 0, .WORD⟩, ⟨cps " ", 5, .WHITESPACE⟩, ⟨cps "it", 6, .WORD⟩,
      ⟨cps "?", 8, .PUNCTUATION⟩] : List Token).map .tok) := by decide +kernel

/-! ## C89: maximal words, single separators -/

/-- C89: without merging, the token list obeys the rules of tokenisation, and it is the only list
that does. -/
theorem C89_unique_cut (cat : ℕ → Cat) (text : List ℕ) :
    ∃ ts : List Token, unicodeTokenize cat text false true false = .ok (ts.map .tok) ∧
      WellCut (IsText cat) text ts ∧ ∀ us, WellCut (IsText cat) text us → us = ts :=
  ⟨allTokens cat text, rfl, allTokens_wellCut cat text,
    fun _ h => wellCut_unique h (allTokens_wellCut cat text)⟩

/-- C89: the words are exactly the maximal runs of text characters. -/
theorem C89_words_are_maximal_runs (cat : ℕ → Cat) (text : List ℕ) :
    ∃ ts : List Token, unicodeTokenize cat text false true false = .ok (ts.map .tok) ∧
      ∀ w p, (⟨w, p, .WORD⟩ : Token) ∈ ts ↔ MaximalRun (IsText cat) text w p :=
  ⟨allTokens cat text, rfl, fun w p => word_iff_run (allTokens_wellCut cat text)
    (fun x => ⟨_, allTokens_wellCut cat x⟩) w p⟩

/-- C89: tokenising can be done piecewise around any character that is not a text character. -/
theorem C89_piecewise (cat : ℕ → Cat) (a b : List ℕ) (c : ℕ) (hc : IsText cat c = false) :
    ∃ ta tb : List Token, unicodeTokenize cat a false true false = .ok (ta.map .tok) ∧
      unicodeTokenize cat b false true false = .ok (tb.map .tok) ∧
      unicodeTokenize cat (a ++ c :: b) false true false = .ok ((ta ++
        ⟨[c], a.length, if c ∈ spaces then .WHITESPACE else .PUNCTUATION⟩ ::
          tb.map (shift (a.length + 1))).map .tok) := by
  refine ⟨allTokens cat a, allTokens cat b, rfl, rfl, ?_⟩
  rw [← allTokens_sep cat a b c hc]
  rfl

example : MaximalRun (IsText asciiCat) (cps "go home!") (cps "home") 3 :=
  ⟨cps "go ", cps "!", by decide +kernel, by decide +kernel, by decide +kernel,
    by decide +kernel, (by
      intro c hc
      have : c = 32 := by simpa [cps] using hc.symm
      subst this; decide +kernel), (by
      intro c hc
      have : c = 33 := by simpa [cps] using hc.symm
      subst this; decide +kernel)⟩

example : IsText asciiCat 32 = false ∧
    (allTokens asciiCat (cps "a" ++ 32 :: cps "b")).length = 3 := by decide +kernel

/-! ## C90: the modes agree -/

/-- C90: whatever the flags, `unicode_tokenize` does not raise; `words_only` keeps the WORD tokens and
`as_tokens=False` keeps the texts. -/
theorem C90_modes_agree (cat : ℕ → Cat) (text : List ℕ) (merge : Bool) :
    ∃ ts : List Token, unicodeTokenize cat text false true merge = .ok (ts.map .tok) ∧
      unicodeTokenize cat text true true merge =
        .ok ((ts.filter fun t => decide (t.category = .WORD)).map .tok) ∧
      unicodeTokenize cat text false false merge = .ok (ts.map fun t => .str t.text) ∧
      unicodeTokenize cat text true false merge =
        .ok ((ts.filter fun t => decide (t.category = .WORD)).map fun t => .str t.text) := by
  have hb : (fun t : Token => t.category == .WORD) = fun t => decide (t.category = .WORD) := by
    funext t
    cases t.category <;> rfl
  cases merge with
  | false =>
    refine ⟨allTokens cat text, rfl, ?_, ?_, ?_⟩
    · rw [← hb, ← wordTokens_eq]; rfl
    · change Except.ok ((allStrings cat text).map Out.str) = _
      rw [allStrings_eq, List.map_map]
      rfl
    · change Except.ok ((wordStrings cat text).map Out.str) = _
      rw [wordStrings_eq, wordTokens_eq, hb, List.map_map]
      rfl
  | true =>
    have h := merge_eq (allTokens_wellCut cat text).apart
    refine ⟨(runs (allTokens cat text)).flatMap mergedRun, ?_, ?_, ?_, ?_⟩
    all_goals
      unfold unicodeTokenize
      rw [h]
      try rw [← hb]
      rfl

example : unicodeTokenize asciiCat (cps "to be, or") true false false =
    .ok [.str (cps "to"), .str (cps "be"), .str (cps "or")] := by decide +kernel

/-! ## C91: merging apostrophes -/

/-- C91: merging replaces exactly the maximal runs of the form word, apostrophe, word; every other
token is kept, and no assertion fails. -/
theorem C91_merge_apostrophes (cat : ℕ → Cat) (text : List ℕ) :
    ∃ ts : List Token, unicodeTokenize cat text false true false = .ok (ts.map .tok) ∧
      unicodeTokenize cat text false true true =
        .ok (((runs ts).flatMap mergedRun).map .tok) := by
  refine ⟨allTokens cat text, rfl, ?_⟩
  rw [unicodeTokenize_tokens]
  change (mergeApostrophes (allTokens cat text)).map _ = _
  rw [merge_eq (allTokens_wellCut cat text).apart]
  rfl

/-- C91: the runs are what they should be: together they are the token list, none is empty, each is
uniform, and neighbouring runs differ. -/
theorem C91_runs (ts : List Token) :
    (runs ts).flatten = ts ∧ (∀ r ∈ runs ts, r ≠ []) ∧
    (∀ r ∈ runs ts, ∀ x ∈ r, ∀ y ∈ r, (WordOrApostrophe x ↔ WordOrApostrophe y)) ∧
    (runs ts).IsChain fun a b => ∀ x ∈ a, ∀ y ∈ b, ¬ (WordOrApostrophe x ↔ WordOrApostrophe y) := by
  have h3 : ∀ r ∈ runs ts, ∀ x ∈ r, ∀ y ∈ r, (WordOrApostrophe x ↔ WordOrApostrophe y) := by
    intro r hr x hx y hy
    have hch : r.IsChain fun x y => WordOrApostrophe x ↔ WordOrApostrophe y := by
      simpa using List.isChain_of_mem_splitBy hr
    cases r with
    | nil => simp at hx
    | cons a r => rw [chain_same hch a rfl x hx, chain_same hch a rfl y hy]
  refine ⟨flatten_runs ts, fun r hr => List.ne_nil_of_mem_splitBy hr, h3, ?_⟩
  have h4 := List.isChain_getLast_head_splitBy
    (fun a b => decide (WordOrApostrophe a ↔ WordOrApostrophe b)) ts
  change (runs ts).IsChain _ at h4
  rw [List.isChain_iff_getElem] at h4 ⊢
  intro i hi x hx y hy hxy
  obtain ⟨ha, hb, h⟩ := h4 i hi
  refine decide_eq_false_iff_not.mp h ?_
  rw [← h3 _ (List.getElem_mem _) x hx _ (List.getLast_mem ha),
    ← h3 _ (List.getElem_mem _) y hy _ (List.head_mem hb)]
  exact hxy

example : unicodeTokenize asciiCat (cps "O'Reilly's l'un 'x'y") false false true =
    .ok ([cps "O", cps "'", cps "Reilly", cps "'", cps "s", cps " ", cps "l'un", cps " ",
      cps "'", cps "x", cps "'", cps "y"].map .str) := by decide +kernel

/-! ## C92: sentences -/

/-- The paragraphs in terms of the model of `str.strip`. -/
theorem paragraphs_eq (text : List ℕ) :
    (∃ pieces, paragraphs text (.bool true) = .ok (pieces.map pyStrip) ∧
      [10].intercalate pieces = text ∧ ∀ p ∈ pieces, 10 ∉ p) ∧
    (∀ sep, sep ≠ [] → ∃ pieces, paragraphs text (.str sep) = .ok (pieces.map pyStrip) ∧
      sep.intercalate pieces = text ∧ ∀ p ∈ pieces, ¬ sep <:+: p) ∧
    (∀ split, split = .bool false ∨ split = .str [] ∨ split = .other false →
      paragraphs text split = .ok [pyStrip text]) ∧
    paragraphs text (.other true) = .error .assertionError := by
  refine ⟨?_, ?_, ?_, rfl⟩
  · obtain ⟨h1, h2⟩ := split_spec [10] text (by simp)
    refine ⟨_, rfl, h1, ?_⟩
    intro p hp h10
    refine h2 p hp ?_
    obtain ⟨a, b, rfl⟩ := List.append_of_mem h10
    exact ⟨a, b, by simp⟩
  · intro sep h0
    obtain ⟨h1, h2⟩ := split_spec sep text h0
    refine ⟨_, ?_, h1, h2⟩
    simp [paragraphs, h0]
  · rintro split (rfl | rfl | rfl) <;> rfl

/-- C92: the paragraphs are the stripped pieces between separators; the separator is a newline for
`True`, the given string if it is not empty, and there is just one paragraph otherwise. The only
error is the assertion on a truthy argument that is neither `True` nor a string. -/
theorem C92_paragraphs (text : List ℕ) :
    (∃ pieces ps, paragraphs text (.bool true) = .ok ps ∧ List.Forall₂ Strips pieces ps ∧
      [10].intercalate pieces = text ∧ ∀ p ∈ pieces, 10 ∉ p) ∧
    (∀ sep, sep ≠ [] → ∃ pieces ps, paragraphs text (.str sep) = .ok ps ∧
      List.Forall₂ Strips pieces ps ∧ sep.intercalate pieces = text ∧
      ∀ p ∈ pieces, ¬ sep <:+: p) ∧
    (∀ split, split = .bool false ∨ split = .str [] ∨ split = .other false →
      ∃ p, paragraphs text split = .ok [p] ∧ Strips text p) ∧
    paragraphs text (.other true) = .error .assertionError := by
  obtain ⟨⟨ps, h1, h2⟩, h3, h4, h5⟩ := paragraphs_eq text
  refine ⟨⟨ps, _, h1, strips_map ps, h2⟩, ?_, ?_, h5⟩
  · intro sep h0
    obtain ⟨ps, h1, h2⟩ := h3 sep h0
    exact ⟨ps, _, h1, strips_map ps, h2⟩
  · intro split hs
    exact ⟨_, h4 split hs, strips_pyStrip text⟩

/-- C92: within each paragraph the tokens are cut exactly after the boundary tokens. -/
theorem C92_sentences (cat : ℕ → Cat) (text : List ℕ) (split : SplitArg) (merge : Bool)
    (ps : List (List ℕ)) (hps : paragraphs text split = .ok ps) :
    ∃ groups : List (List (List Token)),
      sentenceSplitTokens cat text split merge = .ok groups.flatten ∧
      List.Forall₂ (fun p g => ∃ ts : List Token,
        unicodeTokenize cat p false true merge = .ok (ts.map .tok) ∧ CutAtBoundaries ts g)
        ps groups := by
  obtain ⟨groups, h1, h2⟩ := sentParas_ok cat merge ps
  refine ⟨groups, ?_, h2.imp ?_⟩
  · unfold sentenceSplitTokens
    rw [hps]
    exact h1
  · rintro p g ⟨ts, h3, -, h4⟩
    exact ⟨ts, by rw [unicodeTokenize_tokens, h3]; rfl, h4⟩

/-- C92: and an invalid argument raises. -/
theorem C92_invalid_split (cat : ℕ → Cat) (text : List ℕ) (split : SplitArg) (merge : Bool) :
    (∃ e, sentenceSplitTokens cat text split merge = .error e) ↔ split = .other true := by
  constructor
  · rintro ⟨e, he⟩
    by_contra hne
    have : ∃ ps, paragraphs text split = .ok ps := by
      rcases split with (_ | _) | s | (_ | _)
      · exact ⟨_, rfl⟩
      · exact ⟨_, rfl⟩
      · cases s with
        | nil => exact ⟨_, rfl⟩
        | cons c s => exact ⟨_, rfl⟩
      · exact ⟨_, rfl⟩
      · exact absurd rfl hne
    obtain ⟨ps, hps⟩ := this
    obtain ⟨g, hg, -⟩ := C92_sentences cat text split merge ps hps
    rw [hg] at he
    cases he
  · rintro rfl
    exact ⟨.assertionError, rfl⟩

example : (sentenceSplitTokens asciiCat (cps "(Hi.) I'm 1.5 m.") (.bool true) false).map
      (List.map textOf) = .ok [cps "(Hi.) ", cps "I'm 1.5 m."] := by decide +kernel

/-! ## C93: only whitespace is lost -/

theorem sentences_visible {cat : ℕ → Cat} {text : List ℕ} {split : SplitArg} {merge : Bool}
    {ps : List (List ℕ)} (hps : paragraphs text split = .ok ps) :
    ∃ ss, sentenceSplit cat text split merge = .ok ss ∧ (∀ s ∈ ss, Trimmed s) ∧
      visible ss.flatten = visible ps.flatten := by
  obtain ⟨groups, h1, h2⟩ := sentParas_ok cat merge ps
  refine ⟨(groups.flatten.map fun toks : List Token => pyStrip (toks.map Token.text).flatten).filter
    fun s : List ℕ => !s.isEmpty, ?_, ?_, ?_⟩
  · unfold sentenceSplit sentenceSplitTokens
    rw [hps]
    change (do
      let ss ← sentParas cat merge ps
      Except.ok ((ss.map fun toks : List Token => pyStrip (toks.map Token.text).flatten).filter
        fun s : List ℕ => !s.isEmpty)) = _
    rw [h1]
    rfl
  · intro s hs
    obtain ⟨hs1, hs2⟩ := List.mem_filter.mp hs
    obtain ⟨toks, -, rfl⟩ := List.mem_map.mp hs1
    exact strip_trimmed (by simpa using hs2)
  · have hflat : ∀ l : List (List ℕ), (l.filter fun s : List ℕ => !s.isEmpty).flatten = l.flatten := by
      intro l
      induction l with
      | nil => rfl
      | cons x l ih =>
        rw [List.filter_cons]
        split_ifs with hx
        · simp [ih]
        · have : x = [] := by simpa using hx
          simp [ih, this]
    rw [hflat]
    have hgrp : ∀ g : List (List Token),
        visible (g.map fun toks : List Token => pyStrip (toks.map Token.text).flatten).flatten =
          visible (textOf g.flatten) := by
      intro g
      induction g with
      | nil => rfl
      | cons s g ih =>
        rw [List.map_cons, List.flatten_cons, visible_append, ih, List.flatten_cons, textOf_append,
          visible_append, visible_strip]
        rfl
    rw [hgrp]
    clear h1 hgrp hps
    induction h2 with
    | nil => rfl
    | @cons p g ps groups h _ ih =>
      obtain ⟨ts, -, h4, h5⟩ := h
      rw [List.flatten_cons, List.flatten_append, textOf_append, visible_append, ih,
        h5.flatten_eq, h4.text_eq, List.flatten_cons, visible_append]

theorem visible_map_strip (ps : List (List ℕ)) :
    visible (ps.map pyStrip).flatten = visible ps.flatten := by
  rw [visible_flatten, visible_flatten, List.map_map]
  congr 1
  exact List.map_congr_left fun p _ => visible_strip p

/-- C93: with a boolean (or empty) `split_newline` the sentences contain the non-whitespace characters
of the text, in order, and each sentence is trimmed and non-empty. -/
theorem C93_only_whitespace_lost (cat : ℕ → Cat) (text : List ℕ) (split : SplitArg) (merge : Bool)
    (h : (∃ b, split = .bool b) ∨ split = .str [] ∨ split = .other false) :
    ∃ ss, sentenceSplit cat text split merge = .ok ss ∧ (∀ s ∈ ss, Trimmed s) ∧
      visible ss.flatten = visible text := by
  obtain ⟨hp1, -, hp3, -⟩ := paragraphs_eq text
  have single : ∀ split, paragraphs text split = .ok [pyStrip text] →
      ∃ ss, sentenceSplit cat text split merge = .ok ss ∧ (∀ s ∈ ss, Trimmed s) ∧
        visible ss.flatten = visible text := by
    intro split hsp
    obtain ⟨ss, g1, g2, g3⟩ := sentences_visible (cat := cat) (merge := merge) hsp
    refine ⟨ss, g1, g2, g3.trans ?_⟩
    rw [List.flatten_singleton, visible_strip]
  rcases h with ⟨b, rfl⟩ | rfl | rfl
  · cases b with
    | false => exact single _ (hp3 _ (Or.inl rfl))
    | true =>
      obtain ⟨pieces, k1, k2, -⟩ := hp1
      obtain ⟨ss, g1, g2, g3⟩ := sentences_visible (cat := cat) (merge := merge) k1
      refine ⟨ss, g1, g2, g3.trans ?_⟩
      rw [visible_map_strip, ← visible_intercalate (sep := [10]) (by decide), k2]
  · exact single _ (hp3 _ (Or.inr (Or.inl rfl)))
  · exact single _ (hp3 _ (Or.inr (Or.inr rfl)))

/-- C93: with a separator string, the same holds for the text without its separators. -/
theorem C93_separator (cat : ℕ → Cat) (text sep : List ℕ) (merge : Bool) (h0 : sep ≠ []) :
    ∃ ss pieces, sentenceSplit cat text (.str sep) merge = .ok ss ∧ (∀ s ∈ ss, Trimmed s) ∧
      sep.intercalate pieces = text ∧ (∀ p ∈ pieces, ¬ sep <:+: p) ∧
      visible ss.flatten = visible pieces.flatten := by
  obtain ⟨-, hp2, -, -⟩ := paragraphs_eq text
  obtain ⟨pieces, k1, k2, k3⟩ := hp2 sep h0
  obtain ⟨ss, g1, g2, g3⟩ := sentences_visible (cat := cat) (merge := merge) k1
  exact ⟨ss, pieces, g1, g2, k2, k3, g3.trans (visible_map_strip pieces)⟩

example : sentenceSplit asciiCat (cps " One. Two\n\nThree? ") (.bool true) false =
    .ok [cps "One.", cps "Two", cps "Three?"] := by decide +kernel

example : sentenceSplit asciiCat (cps "a--b. c") (.str (cps "--")) false =
    .ok [cps "a", cps "b.", cps "c"] := by decide +kernel

/-! ## C94: positions -/

/-- C94: the position of every token is its position in one of the paragraphs. -/
theorem C94_positions_in_paragraph (cat : ℕ → Cat) (text : List ℕ) (split : SplitArg) (merge : Bool)
    (ps : List (List ℕ)) (hps : paragraphs text split = .ok ps) (ss : List (List Token))
    (hss : sentenceSplitTokens cat text split merge = .ok ss) :
    ∀ s ∈ ss, ∃ p ∈ ps, ∀ t ∈ s, (p.drop t.start).take t.text.length = t.text := by
  obtain ⟨groups, h1, h2⟩ := C92_sentences cat text split merge ps hps
  rw [h1] at hss
  cases hss
  intro s hs
  obtain ⟨g, hg, hsg⟩ := List.mem_flatten.mp hs
  obtain ⟨k, hk⟩ := List.mem_iff_getElem?.mp hg
  obtain ⟨hlt, hget⟩ := List.getElem?_eq_some_iff.mp hk
  obtain ⟨hl, hall⟩ := List.forall₂_iff_get.mp h2
  obtain ⟨ts, h3, h4⟩ := hall k (by omega) hlt
  obtain ⟨ts', h5, -, h6⟩ := C88_lossless cat (ps.get ⟨k, by omega⟩) merge
  rw [h3] at h5
  have : ts = ts' := by
    refine List.map_injective_iff.mpr ?_ (Except.ok.inj h5)
    intro a b hab
    exact Out.tok.inj hab
  subst this
  refine ⟨_, List.get_mem ps ⟨k, by omega⟩, ?_⟩
  intro t ht
  refine h6 t ?_
  rw [← h4.flatten_eq, List.mem_flatten]
  refine ⟨s, ?_, ht⟩
  rw [List.get_eq_getElem, hget]
  exact hsg

/-- C94: it is not the position in the text: in `"a\nb"` the word `b` is reported at position 0, where
the text has an `a`. -/
theorem C94_positions_not_in_text :
    ∃ text ss t, sentenceSplitTokens asciiCat text (.bool true) false = .ok ss ∧ t ∈ ss.flatten ∧
      (text.drop t.start).take t.text.length ≠ t.text := by
  refine ⟨cps "a\nb", [[⟨cps "a", 0, .WORD⟩], [⟨cps "b", 0, .WORD⟩]], ⟨cps "b", 0, .WORD⟩, ?_, ?_, ?_⟩
  · decide +kernel
  · decide +kernel
  · decide +kernel

/-! ## C95: n-grams -/

/-- C95: the character n-grams are the windows of the text. -/
theorem C95_text_n_grams (text : List ℕ) (n : ℕ) (hn : 1 ≤ n) :
    textNGrams text n = windows text n :=
  textNGrams_eq text n hn

/-- The texts of the words among some tokens. -/
def wordTexts (ts : List Token) : List (List ℕ) :=
  (ts.filter fun t => decide (t.category = .WORD)).map Token.text

/-- C95: the word n-grams of the whole text, and of each sentence. -/
theorem C95_word_n_grams (cat : ℕ → Cat) (text : List ℕ) (n : ℕ) (hn : 2 ≤ n) (merge : Bool) :
    (∃ ts : List Token, unicodeTokenize cat text false true merge = .ok (ts.map .tok) ∧
      wordNGrams cat text n false merge = .ok (windows (wordTexts ts) n)) ∧
    (∃ ss, sentenceSplitTokens cat text (.bool true) merge = .ok ss ∧
      wordNGrams cat text n true merge = .ok (ss.flatMap fun s => windows (wordTexts s) n)) := by
  have hn' : ¬ ((n : ℤ) < 2) := by omega
  constructor
  · obtain ⟨ts, h1, -, -, h4⟩ := C90_modes_agree cat text merge
    refine ⟨ts, h1, ?_⟩
    unfold wordNGrams
    rw [if_neg hn', if_neg (by simp), h4]
    change Except.ok (wordWindows (List.map _ (List.map _ _)) _) = _
    rw [List.map_map, Int.toNat_natCast, wordWindows_eq _ _ (by omega)]
    rfl
  · obtain ⟨pieces, k1, -⟩ := (paragraphs_eq text).1
    obtain ⟨g, g1, -⟩ := C92_sentences cat text (.bool true) merge _ k1
    refine ⟨_, g1, ?_⟩
    unfold wordNGrams
    rw [if_neg hn', if_pos rfl, g1]
    change Except.ok (List.map _ g.flatten).flatten = _
    rw [List.flatMap_def]
    congr 2
    refine List.map_congr_left ?_
    intro s _
    rw [Int.toNat_natCast, wordWindows_eq _ _ (by omega)]
    unfold wordTexts
    congr 3

/-- C95: `AssertionError` exactly for `n < 2`. -/
theorem C95_word_n_grams_error (cat : ℕ → Cat) (text : List ℕ) (n : ℤ) (split merge : Bool) :
    (∃ e, wordNGrams cat text n split merge = .error e) ↔ n < 2 := by
  constructor
  · rintro ⟨e, he⟩
    by_contra hn
    obtain ⟨m, rfl⟩ : ∃ m : ℕ, n = m := ⟨n.toNat, by omega⟩
    obtain ⟨⟨_, -, h1⟩, _, -, h2⟩ := C95_word_n_grams cat text m (by omega) merge
    cases split with
    | false => rw [h1] at he; cases he
    | true => rw [h2] at he; cases he
  · intro h
    refine ⟨.assertionError, ?_⟩
    unfold wordNGrams
    rw [if_pos h]

/-- C95: what the windows are: `k` of them with `k = max(0, len - n + 1)`, the `i`-th being the `n`
elements from position `i` on. -/
theorem C95_windows {α : Type} (l : List α) (n : ℕ) :
    (windows l n).length = l.length + 1 - n ∧
    ∀ i w, (windows l n)[i]? = some w → w.length = n ∧ ∀ j < n, w[j]? = l[i + j]? := by
  refine ⟨by simp [windows], ?_⟩
  intro i w h
  unfold windows at h
  rw [List.getElem?_map, Option.map_eq_some_iff] at h
  obtain ⟨k, hk, rfl⟩ := h
  obtain ⟨hlt, hk⟩ := List.getElem?_eq_some_iff.mp hk
  rw [List.getElem_range] at hk
  subst hk
  rw [List.length_range] at hlt
  refine ⟨by rw [List.length_take, List.length_drop]; omega, ?_⟩
  intro j hj
  rw [List.getElem?_take, if_pos hj, List.getElem?_drop]

example : wordNGrams asciiCat (cps "to be or. not to") 2 true false =
    .ok [[cps "to", cps "be"], [cps "be", cps "or"], [cps "not", cps "to"]] := by decide +kernel

example : textNGrams (cps "abcd") 3 = [cps "abc", cps "bcd"] := by decide +kernel

end Tok
end Verif
