import Verif.Tok.Model

/-!
# The character classes that the tokeniser exports but does not use

`is_word_char` and `is_punctuation_char` of experiments/tokenizer.py. As in `Tok/Model` the Unicode
character database is a parameter.
-/

namespace Verif
namespace Tok

/-- `UNPRINTABLE_CHARS`, experiments/tokenizer.py:77-104. -/
def unprintableChars : List ℕ :=
  [0x0000, 0x0001, 0x0002, 0x0003, 0x0004, 0x0005, 0x0006, 0x0007, 0x0008, 0x000E, 0x000F, 0x0010,
   0x0011, 0x0012, 0x0013, 0x0014, 0x0015, 0x0016, 0x0017, 0x0018, 0x0019, 0x001A, 0x001B, 0x007F,
   0xFFEF, 0xFFFD]

/-- `is_word_char`, experiments/tokenizer.py:148-152. -/
def isWordChar (cat : ℕ → Cat) (c : ℕ) : Bool :=
  [Cat.Lu, .Ll, .Lt, .Lm, .Lo, .Mn, .Mc, .Me].contains (cat c)

/-- `is_punctuation_char`, experiments/tokenizer.py:164-173. -/
def isPunctuationChar (cat : ℕ → Cat) (c : ℕ) : Bool :=
  if unprintableChars.contains c then true
  else if closingPunctuation.contains c then true
  else [Cat.Pc, .Pd, .Ps, .Pe, .Pi, .Pf, .Po, .Sm, .Sc, .Sk, .So].contains (cat c)

end Tok
end Verif
