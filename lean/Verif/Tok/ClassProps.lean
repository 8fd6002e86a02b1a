import Verif.Tok.ClassModel
import Verif.Tok.Props

/-!
# C244: the character classes of the tokeniser and the categories of its tokens
-/

namespace Verif
namespace TokSpec

open Tok

/-- A letter or a combining mark. -/
def LetterOrMark : Cat → Prop
  | .Lu | .Ll | .Lt | .Lm | .Lo | .Mn | .Mc | .Me => True
  | _ => False

/-- A number or a character for private use. -/
def NumberOrPrivate : Cat → Prop
  | .Nd | .Nl | .No | .Co => True
  | _ => False

/-- Punctuation or a symbol. -/
def PunctuationOrSymbol : Cat → Prop
  | .Pc | .Pd | .Ps | .Pe | .Pi | .Pf | .Po | .Sm | .Sc | .Sk | .So => True
  | _ => False

/-- A separator, or a control, format, surrogate or unassigned code point. -/
def SeparatorOrControl : Cat → Prop
  | .Zs | .Zl | .Zp | .Cc | .Cf | .Cs | .Cn => True
  | _ => False

/-- The ASCII controls that are no spaces, U+FFEF and U+FFFD. -/
def controls : List ℕ := List.range 9 ++ List.range' 0xE 14 ++ [0x7F, 0xFFEF, 0xFFFD]

/-- What is used of the Unicode table: the listed controls and closing marks are not letters,
numbers, marks or for private use. -/
def ListsAreNotText (cat : ℕ → Cat) : Prop :=
  ∀ c, c ∈ controls ∨ c ∈ closingMarks → IsText cat c = false

end TokSpec

namespace Tok

open TokSpec

theorem unprintable_eq : unprintableChars = controls := by decide +kernel

theorem closing_eq : closingPunctuation = closingMarks := by decide +kernel

theorem isSpaceChar_iff (c : ℕ) : isSpaceChar c = true ↔ c ∈ spaces := by
  simp [isSpaceChar, mem_unicodeSpaces]

theorem isWordChar_iff (cat : ℕ → Cat) (c : ℕ) : isWordChar cat c = true ↔ LetterOrMark (cat c) := by
  unfold isWordChar LetterOrMark
  cases cat c <;> simp

theorem isPunctuationChar_iff (cat : ℕ → Cat) (c : ℕ) : isPunctuationChar cat c = true ↔
    c ∈ controls ∨ c ∈ closingMarks ∨ PunctuationOrSymbol (cat c) := by
  have h : [Cat.Pc, .Pd, .Ps, .Pe, .Pi, .Pf, .Po, .Sm, .Sc, .Sk, .So].contains (cat c) = true ↔
      PunctuationOrSymbol (cat c) := by
    unfold PunctuationOrSymbol
    cases cat c <;> simp
  unfold isPunctuationChar
  rw [unprintable_eq, closing_eq]
  by_cases h1 : c ∈ controls
  · simp [h1]
  · by_cases h2 : c ∈ closingMarks
    · simp [h2]
    · rw [if_neg (by simpa using h1), if_neg (by simpa using h2), h]
      simp [h1, h2]

theorem lists_not_spaces (c : ℕ) (h : c ∈ controls ∨ c ∈ closingMarks) : c ∉ spaces := by
  have h1 : ∀ c ∈ controls ++ closingMarks, c ∉ spaces := by decide +kernel
  exact h1 c (List.mem_append.mpr h)

theorem allTokensLoop_mem (cat : ℕ → Cat) (c : ℕ) (hc : IsText cat c = false) (cs : List ℕ) :
    ∀ (idx : ℕ) (buf : List ℕ) (start i : ℕ), cs[i]? = some c →
      (⟨[c], idx + i, if c ∈ spaces then .WHITESPACE else .PUNCTUATION⟩ : Token) ∈
        allTokensLoop cat cs idx buf start := by
  induction cs with
  | nil => intro idx buf start i h; simp at h
  | cons x xs ih =>
    intro idx buf start i h
    unfold allTokensLoop
    rw [isTextChar_eq]
    cases i with
    | zero =>
      simp only [List.getElem?_cons_zero, Option.some.injEq] at h
      subst h
      simp only [hc, Bool.false_eq_true, if_false, isSpaceChar_iff, Nat.add_zero]
      split_ifs <;> simp
    | succ i =>
      simp only [List.getElem?_cons_succ] at h
      have e : idx + (i + 1) = (idx + 1) + i := by omega
      rw [e]
      generalize (if c ∈ spaces then TokenCategory.WHITESPACE else .PUNCTUATION) = k at ih ⊢
      split_ifs <;>
        first
        | exact ih _ _ _ _ h
        | exact List.mem_append_right _ (List.mem_cons_of_mem _ (ih _ _ _ _ h))

/-- C244: what the four classes say about one character. A word character is a letter or a mark, and
every word character is a text character; a text character that is no word character is a number or
for private use. A punctuation character is in one of the two lists or has a category of punctuation
or symbols; with a table for which the lists are no text, no character is both text and punctuation. A
character is both space and punctuation only because of its category. -/
theorem C244_classes (cat : ℕ → Cat) (c : ℕ) :
    (isWordChar cat c = true ↔ LetterOrMark (cat c)) ∧
    (isTextChar cat c = true ↔ isWordChar cat c = true ∨ NumberOrPrivate (cat c)) ∧
    (isPunctuationChar cat c = true ↔
      c ∈ controls ∨ c ∈ closingMarks ∨ PunctuationOrSymbol (cat c)) ∧
    (ListsAreNotText cat → ¬ (isTextChar cat c = true ∧ isPunctuationChar cat c = true)) ∧
    (isSpaceChar c = true → isPunctuationChar cat c = true → PunctuationOrSymbol (cat c)) := by
  refine ⟨isWordChar_iff cat c, ?_, isPunctuationChar_iff cat c, ?_, ?_⟩
  · rw [isWordChar_iff, isTextChar_eq]
    unfold IsText LetterOrMark NumberOrPrivate
    cases cat c <;> simp
  · rintro hl ⟨h1, h2⟩
    rw [isTextChar_eq] at h1
    rw [isPunctuationChar_iff] at h2
    rcases h2 with h2 | h2 | h2
    · rw [hl c (Or.inl h2)] at h1; simp at h1
    · rw [hl c (Or.inr h2)] at h1; simp at h1
    · unfold IsText at h1
      unfold PunctuationOrSymbol at h2
      revert h1 h2
      cases cat c <;> simp
  · intro h1 h2
    rw [isSpaceChar_iff] at h1
    rw [isPunctuationChar_iff] at h2
    rcases h2 with h2 | h2 | h2
    · exact absurd h1 (lists_not_spaces c (Or.inl h2))
    · exact absurd h1 (lists_not_spaces c (Or.inr h2))
    · exact h2

/-- C244: the categories of the tokens against the classes. A punctuation character that is no space
always becomes a token of its own with category PUNCTUATION. A PUNCTUATION token is one character that
is no space; it is a punctuation character, or else a separator, control, format, surrogate or
unassigned code point. The characters of a WORD token are word characters, numbers or for private
use. -/
theorem C244_tokens (cat : ℕ → Cat) (hl : ListsAreNotText cat) (text : List ℕ) :
    ∃ ts : List Token, unicodeTokenize cat text false true false = .ok (ts.map .tok) ∧
      (∀ i c, text[i]? = some c → isPunctuationChar cat c = true → isSpaceChar c = false →
        (⟨[c], i, .PUNCTUATION⟩ : Token) ∈ ts) ∧
      (∀ t ∈ ts, t.category = .PUNCTUATION → ∃ c, t.text = [c] ∧ isSpaceChar c = false ∧
        (isPunctuationChar cat c = true ∨ SeparatorOrControl (cat c))) ∧
      (∀ t ∈ ts, t.category = .WORD → ∀ c ∈ t.text,
        isWordChar cat c = true ∨ NumberOrPrivate (cat c)) := by
  refine ⟨allTokens cat text, rfl, ?_, ?_, ?_⟩
  · intro i c hi hp hs
    have ht : IsText cat c = false := by
      by_contra h
      exact (C244_classes cat c).2.2.2.1 hl ⟨by rw [isTextChar_eq]; simpa using h, hp⟩
    have hs' : c ∉ spaces := fun h => by rw [(isSpaceChar_iff c).mpr h] at hs; simp at hs
    have := allTokensLoop_mem cat c ht text 0 [] 0 i hi
    rwa [if_neg hs', Nat.zero_add] at this
  · intro t ht hc
    rcases (allTokens_wellCut cat text).shape t ht with ⟨h, -⟩ | ⟨c, h1, h2, h3⟩
    · rw [h] at hc; simp at hc
    · rw [hc] at h3
      have hs : c ∉ spaces := fun h => by rw [if_pos h] at h3; simp at h3
      refine ⟨c, h1, ?_, ?_⟩
      · cases h : isSpaceChar c with
        | false => rfl
        | true => exact absurd ((isSpaceChar_iff c).mp h) hs
      · rw [isPunctuationChar_iff]
        unfold IsText at h2
        unfold PunctuationOrSymbol SeparatorOrControl
        revert h2
        cases cat c <;> simp
  · intro t ht hc c hm
    rcases (allTokens_wellCut cat text).shape t ht with ⟨-, -, h⟩ | ⟨d, -, -, h3⟩
    · exact (C244_classes cat c).2.1.mp (by rw [isTextChar_eq]; exact h c hm)
    · rw [hc] at h3
      split_ifs at h3

/-- C244: the token category PUNCTUATION and `is_punctuation_char` differ in both directions, in every
text. A soft hyphen (category Cf) becomes a PUNCTUATION token though it is no punctuation character; the
blank Braille pattern (category So) is a punctuation character and becomes a WHITESPACE token. -/
theorem C244_gap (cat : ℕ → Cat) (h1 : cat 0xAD = .Cf) (h2 : cat 0x2800 = .So) (a b : List ℕ) :
    (isPunctuationChar cat 0xAD = false ∧ ∃ ts : List Token,
      unicodeTokenize cat (a ++ 0xAD :: b) false true false = .ok (ts.map .tok) ∧
        (⟨[0xAD], a.length, .PUNCTUATION⟩ : Token) ∈ ts) ∧
    (isPunctuationChar cat 0x2800 = true ∧ ∃ ts : List Token,
      unicodeTokenize cat (a ++ 0x2800 :: b) false true false = .ok (ts.map .tok) ∧
        (⟨[0x2800], a.length, .WHITESPACE⟩ : Token) ∈ ts) := by
  have key : ∀ c, IsText cat c = false →
      (⟨[c], a.length, if c ∈ spaces then .WHITESPACE else .PUNCTUATION⟩ : Token) ∈
        allTokens cat (a ++ c :: b) := by
    intro c hc
    have := allTokensLoop_mem cat c hc (a ++ c :: b) 0 [] 0 a.length (by simp)
    rwa [Nat.zero_add] at this
  refine ⟨⟨?_, _, rfl, ?_⟩, ?_, _, rfl, ?_⟩
  · unfold isPunctuationChar
    rw [h1]
    decide +kernel
  · have := key 0xAD (by unfold IsText; rw [h1])
    rwa [if_neg (by decide +kernel)] at this
  · rw [isPunctuationChar_iff, h2]
    exact Or.inr (Or.inr trivial)
  · have := key 0x2800 (by unfold IsText; rw [h2])
    rwa [if_pos (by decide +kernel)] at this

/-- A table for the example: as `asciiCat`, with the two characters of `C244_gap`. -/
def smallCat (c : ℕ) : Cat := if c = 0xAD then .Cf else if c = 0x2800 then .So else asciiCat c

example : ListsAreNotText smallCat ∧ smallCat 0xAD = .Cf ∧ smallCat 0x2800 = .So := by
  refine ⟨?_, by decide, by decide⟩
  have h : ∀ c ∈ controls ++ closingMarks, IsText smallCat c = false := by decide +kernel
  exact fun c hc => h c (List.mem_append.mpr hc)

example : isPunctuationChar smallCat 0x2D = true ∧ isSpaceChar 0x2D = false ∧
    (⟨[0x2D], 2, .PUNCTUATION⟩ : Token) ∈ allTokens smallCat (cps "ab-c") ∧
    isWordChar smallCat 0x31 = false ∧ isTextChar smallCat 0x31 = true := by decide +kernel

end Tok
end Verif
