import Verif.Tok.Model

/-!
# Specification of tokenisation

Nothing here refers to the loops of the tokeniser.
-/

namespace Verif
namespace TokSpec

open Tok

/-! ## Characters -/

/-- A letter, a number, a combining mark or a character for private use. -/
def IsText (cat : ℕ → Cat) (c : ℕ) : Bool :=
  match cat c with
  | .Lu | .Ll | .Lt | .Lm | .Lo => true
  | .Nd | .Nl | .No => true
  | .Mn | .Mc | .Me => true
  | .Co => true
  | _ => false

/-- Whitespace as `str.strip` sees it: the characters with the Unicode property White_Space and the
four separators U+001C to U+001F. -/
def blanks : List ℕ :=
  List.range' 0x9 5 ++ List.range' 0x1C 5 ++ [0x85, 0xA0, 0x1680] ++ List.range' 0x2000 11 ++
    [0x2028, 0x2029, 0x202F, 0x205F, 0x3000]

/-- The spaces of the tokeniser: also some invisible characters (Mongolian vowel separator, zero
width space, non-joiner, joiner, word joiner, byte order mark, blank Braille pattern). -/
def spaces : List ℕ :=
  blanks ++ [0x180E] ++ List.range' 0x200B 3 ++ [0x2060, 0xFEFF, 0x2800]

/-- Apostrophe, right single quotation mark, fullwidth apostrophe. -/
def apostropheMarks : List ℕ := ['\'', '’', '＇'].map Char.toNat

/-- The marks that end a sentence. -/
def closingMarks : List ℕ :=
  ['!', '.', ':', ';', '?', '¡', '¿', '\u037e', '\u0589', '\u06d4', '…', '‼', '‽', '⁇', '⁈', '⁉',
   '\u3002', '\ufe12', '\ufe14', '\ufe15', '\ufe16', '\ufe52', '\ufe54', '\ufe55', '\ufe56',
   '\ufe57', '\uff01', '\uff0e', '\uff1a', '\uff1b', '\uff1f', '\uff61'].map Char.toNat

/-- Closing quotes and brackets, ASCII and fullwidth. -/
def closingBrackets : List ℕ :=
  ['"', '＂', ')', '）', '>', '＞', ']', '］', '}', '｝', '”'].map Char.toNat

/-! ## Cuttings -/

/-- The text covered by a list of tokens. -/
def textOf (ts : List Token) : List ℕ := (ts.map Token.text).flatten

/-- `ts` is a lossless cutting of `text`: non-empty pieces in order, each with its own position. -/
structure Lossless (text : List ℕ) (ts : List Token) : Prop where
  text_eq : textOf ts = text
  nonempty : ∀ t ∈ ts, t.text ≠ []
  start_eq : ∀ k t, ts[k]? = some t → t.start = (textOf (ts.take k)).length

/-- The shape of one token: a word of text characters, or one single other character with its
category. -/
def Shape (isText : ℕ → Bool) (t : Token) : Prop :=
  (t.category = .WORD ∧ t.text ≠ [] ∧ ∀ c ∈ t.text, isText c = true) ∨
  (∃ c, t.text = [c] ∧ isText c = false ∧
    t.category = if c ∈ spaces then .WHITESPACE else .PUNCTUATION)

/-- The rules of tokenisation: lossless, right shapes, no two words side by side. -/
structure WellCut (isText : ℕ → Bool) (text : List ℕ) (ts : List Token) : Prop where
  lossless : Lossless text ts
  shape : ∀ t ∈ ts, Shape isText t
  apart : ts.IsChain fun a b => ¬ (a.category = .WORD ∧ b.category = .WORD)

/-- `w` at position `p` is a maximal run of text characters of `text`. -/
def MaximalRun (isText : ℕ → Bool) (text w : List ℕ) (p : ℕ) : Prop :=
  ∃ pre post, text = pre ++ w ++ post ∧ pre.length = p ∧ w ≠ [] ∧ (∀ c ∈ w, isText c = true) ∧
    (∀ c, pre.getLast? = some c → isText c = false) ∧ (∀ c, post.head? = some c → isText c = false)

/-- Move tokens `d` places to the right. -/
def shift (d : ℕ) (t : Token) : Token := { t with start := t.start + d }

/-- A word or an apostrophe. -/
def WordOrApostrophe (t : Token) : Prop := t.category = .WORD ∨ ∃ c ∈ apostropheMarks, t.text = [c]

instance : DecidablePred WordOrApostrophe := fun _ => inferInstanceAs (Decidable (_ ∨ _))

/-- What becomes of a maximal run. -/
def mergedRun : List Token → List Token
  | [a, b, c] =>
    if a.category = .WORD ∧ b.category ≠ .WORD ∧ WordOrApostrophe b ∧ c.category = .WORD then
      [⟨a.text ++ b.text ++ c.text, a.start, .WORD⟩]
    else [a, b, c]
  | run => run

/-- The maximal runs of tokens that are all words or apostrophes, or all neither. -/
def runs (ts : List Token) : List (List Token) :=
  ts.splitBy fun a b => decide (WordOrApostrophe a ↔ WordOrApostrophe b)

/-- Token `i` ends a sentence: it is whitespace, and before it there is a closing punctuation mark
with only closing quotes and brackets in between. -/
def Boundary (ts : List Token) (i : ℕ) : Prop :=
  (∃ t, ts[i]? = some t ∧ t.category = .WHITESPACE) ∧
  ∃ j, j < i ∧ (∃ t c, ts[j]? = some t ∧ t.text = [c] ∧ c ∈ closingMarks) ∧
    ∀ k, j < k → k < i → ∃ t c, ts[k]? = some t ∧ t.text = [c] ∧ c ∈ closingBrackets

/-- `ss` cuts `ts` exactly after the boundary tokens (and at the end). -/
structure CutAtBoundaries (ts : List Token) (ss : List (List Token)) : Prop where
  flatten_eq : ss.flatten = ts
  nonempty : ∀ s ∈ ss, s ≠ []
  cut_iff : ∀ i, i < ts.length →
    ((∃ m ≤ ss.length, (ss.take m).flatten.length = i + 1) ↔ Boundary ts i ∨ i + 1 = ts.length)

/-- `s` is not empty and has no whitespace at its ends. -/
def Trimmed (s : List ℕ) : Prop :=
  s ≠ [] ∧ (∀ c, s.head? = some c → c ∉ blanks) ∧ (∀ c, s.getLast? = some c → c ∉ blanks)

/-- `r` is `s` without the whitespace at its ends. -/
def Strips (s r : List ℕ) : Prop :=
  (∃ a b, s = a ++ r ++ b ∧ (∀ c ∈ a, c ∈ blanks) ∧ ∀ c ∈ b, c ∈ blanks) ∧ (r = [] ∨ Trimmed r)

/-- The characters that are not whitespace. -/
def visible (s : List ℕ) : List ℕ := s.filter fun c => decide (c ∉ blanks)

/-- The windows of `n` consecutive elements. -/
def windows {α : Type} (l : List α) (n : ℕ) : List (List α) :=
  (List.range (l.length + 1 - n)).map fun i => (l.drop i).take n

end TokSpec
end Verif
