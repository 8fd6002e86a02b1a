import Verif.Py.Basic
import Verif.Index.V3Model

/-!
# Model of `experiments/tokenizer.py`

A string is the list of its code points (so lone surrogates are covered as well). The Unicode
character database is a parameter `cat : ℕ → Cat`, standing for `unicodedata.category`; nothing is
assumed about it. A generator is modelled by the list of the values it yields, or by the exception
that ends it. The `lru_cache` decorators only memoise pure functions and are not modelled.
-/

namespace Verif
namespace Tok

/-- The general categories, values of `unicodedata.category`. -/
inductive Cat where
  | Lu | Ll | Lt | Lm | Lo
  | Mn | Mc | Me
  | Nd | Nl | No
  | Pc | Pd | Ps | Pe | Pi | Pf | Po
  | Sm | Sc | Sk | So
  | Zs | Zl | Zp
  | Cc | Cf | Cs | Co | Cn
deriving DecidableEq, Repr

/-- `TokenCategory`, experiments/tokenizer.py:16-19. -/
inductive TokenCategory where
  | WORD | WHITESPACE | PUNCTUATION
deriving DecidableEq, Repr

/-- `Token`, experiments/tokenizer.py:22. -/
structure Token where
  text : List ℕ
  start : ℕ
  category : TokenCategory
deriving DecidableEq, Repr

/-- `UNICODE_SPACES`, experiments/tokenizer.py:24-75. -/
def unicodeSpaces : List ℕ :=
  [0x0009, 0x000A, 0x000B, 0x000C, 0x000D, 0x0020, 0x0085, 0x00A0, 0x1680, 0x2000, 0x2001, 0x2002,
   0x2003, 0x2004, 0x2005, 0x2006, 0x2007, 0x2008, 0x2009, 0x200A, 0x2028, 0x2029, 0x202F, 0x205F,
   0x3000, 0x001C, 0x001D, 0x001E, 0x001F, 0x180E, 0x200B, 0x200C, 0x200D, 0x2060, 0xFEFF, 0x2800]

/-- `CLOSING_PUNCTUATION`, experiments/tokenizer.py:106-139. -/
def closingPunctuation : List ℕ :=
  [0x0021, 0x002E, 0x003A, 0x003B, 0x003F, 0x00A1, 0x00BF, 0x037E, 0x0589, 0x06D4, 0x2026, 0x203C,
   0x203D, 0x2047, 0x2048, 0x2049, 0x3002, 0xFE12, 0xFE14, 0xFE15, 0xFE16, 0xFE52, 0xFE54, 0xFE55,
   0xFE56, 0xFE57, 0xFF01, 0xFF0E, 0xFF1A, 0xFF1B, 0xFF1F, 0xFF61]

/-- `APOSTROPHES`, experiments/tokenizer.py:141-145. -/
def apostrophes : List ℕ := [0x0027, 0x2019, 0xFF07]

/-- The closing quotes and brackets skipped by `sentence_split_tokens`,
experiments/tokenizer.py:435-440. -/
def closers : List ℕ :=
  [0x0022, 0xFF02, 0x0029, 0xFF09, 0x003E, 0xFF1E, 0x005D, 0xFF3D, 0x007D, 0xFF5D, 0x201D]

/-- `s in S` for a string `s` and a set `S` of one-character strings, as in `token.text in
APOSTROPHES`, experiments/tokenizer.py:190. -/
def strIn (S : List ℕ) : List ℕ → Bool
  | [c] => S.contains c
  | _ => false

/-- `is_text_char`, experiments/tokenizer.py:155-161. -/
def isTextChar (cat : ℕ → Cat) (c : ℕ) : Bool :=
  [Cat.Lu, .Ll, .Lt, .Lm, .Lo, .Nd, .Nl, .No, .Mn, .Mc, .Me, .Co].contains (cat c)

/-- `is_space_char`, experiments/tokenizer.py:176-178. -/
def isSpaceChar (c : ℕ) : Bool := unicodeSpaces.contains c

/-! ## The four loops -/

/-- The value yielded when a non-empty `word_buffer` is flushed, experiments/tokenizer.py:292-293,
300-301, 307-308. -/
def flushTok (buf : List ℕ) (start : ℕ) : List Token :=
  if buf.isEmpty then [] else [⟨buf, start, .WORD⟩]

/-- The loop of `_unicode_tokenize_all_tokens`, experiments/tokenizer.py:279-308: `idx` is the index
of the next character, `buf` is `word_buffer`, `start` is `start_idx` (0 instead of `None` before
its first assignment; it is only read when the buffer is non-empty). -/
def allTokensLoop (cat : ℕ → Cat) : List ℕ → ℕ → List ℕ → ℕ → List Token
  | [], _, buf, start => flushTok buf start
  | c :: cs, idx, buf, start =>
    if isTextChar cat c then
      if buf.isEmpty then allTokensLoop cat cs (idx + 1) [c] idx
      else allTokensLoop cat cs (idx + 1) (buf ++ [c]) start
    else if isSpaceChar c then
      flushTok buf start ++ ⟨[c], idx, .WHITESPACE⟩ :: allTokensLoop cat cs (idx + 1) [] start
    else
      flushTok buf start ++ ⟨[c], idx, .PUNCTUATION⟩ :: allTokensLoop cat cs (idx + 1) [] start

/-- `_unicode_tokenize_all_tokens`, experiments/tokenizer.py:276-308. -/
def allTokens (cat : ℕ → Cat) (text : List ℕ) : List Token := allTokensLoop cat text 0 [] 0

/-- The loop of `_unicode_tokenize_word_tokens`, experiments/tokenizer.py:331-347. -/
def wordTokensLoop (cat : ℕ → Cat) : List ℕ → ℕ → List ℕ → ℕ → List Token
  | [], _, buf, start => flushTok buf start
  | c :: cs, idx, buf, start =>
    if isTextChar cat c then
      if buf.isEmpty then wordTokensLoop cat cs (idx + 1) [c] idx
      else wordTokensLoop cat cs (idx + 1) (buf ++ [c]) start
    else if buf.isEmpty then wordTokensLoop cat cs (idx + 1) buf start
    else ⟨buf, start, .WORD⟩ :: wordTokensLoop cat cs (idx + 1) [] start

/-- `_unicode_tokenize_word_tokens`, experiments/tokenizer.py:328-347. -/
def wordTokens (cat : ℕ → Cat) (text : List ℕ) : List Token := wordTokensLoop cat text 0 [] 0

/-- The loop of `_unicode_tokenize_all_strings`, experiments/tokenizer.py:258-273. -/
def allStringsLoop (cat : ℕ → Cat) : List ℕ → List ℕ → List (List ℕ)
  | [], buf => if buf.isEmpty then [] else [buf]
  | c :: cs, buf =>
    if isTextChar cat c then allStringsLoop cat cs (buf ++ [c])
    else if buf.isEmpty then [c] :: allStringsLoop cat cs buf
    else buf :: [c] :: allStringsLoop cat cs []

/-- `_unicode_tokenize_all_strings`, experiments/tokenizer.py:254-273. -/
def allStrings (cat : ℕ → Cat) (text : List ℕ) : List (List ℕ) := allStringsLoop cat text []

/-- The loop of `_unicode_tokenize_word_strings`, experiments/tokenizer.py:313-325. -/
def wordStringsLoop (cat : ℕ → Cat) : List ℕ → List ℕ → List (List ℕ)
  | [], buf => if buf.isEmpty then [] else [buf]
  | c :: cs, buf =>
    if isTextChar cat c then wordStringsLoop cat cs (buf ++ [c])
    else if buf.isEmpty then wordStringsLoop cat cs buf
    else buf :: wordStringsLoop cat cs []

/-- `_unicode_tokenize_word_strings`, experiments/tokenizer.py:311-325. -/
def wordStrings (cat : ℕ → Cat) (text : List ℕ) : List (List ℕ) := wordStringsLoop cat text []

/-! ## Merging apostrophes -/

/-- The variables `wait`, `_1`, `_2`, `_3`, experiments/tokenizer.py:182-185. -/
structure MState where
  wait : Bool
  b1 : Option Token
  b2 : Option Token
  b3 : Option Token
deriving DecidableEq, Repr

/-- `Token(text=_1.text + _2.text + _3.text, start_pos=_1.start_pos, category=WORD)`,
experiments/tokenizer.py:227-229, 244-246. -/
def joinTok (a b c : Token) : Token := ⟨a.text ++ b.text ++ c.text, a.start, .WORD⟩

/-- The body of the loop, experiments/tokenizer.py:187-240: the new variables and the values yielded
during this iteration. -/
def mergeStep (s : MState) (t : Token) : Except PyErr (MState × List Token) :=
  if s.wait then
    .ok ({ s with wait := t.category == .WORD || strIn apostrophes t.text }, [t])
  else
    match s.b1, s.b2, s.b3 with
    | none, _, _ =>
      if t.category == .WORD then .ok ({ s with b1 := some t }, [])
      else .ok ({ s with wait := strIn apostrophes t.text }, [t])
    | some a, none, _ =>
      if t.category == .WORD then .error .assertionError
      else if strIn apostrophes t.text then .ok ({ s with b2 := some t }, [])
      else .ok ({ s with b1 := none }, [a, t])
    | some a, some b, none =>
      if t.category == .WORD then .ok ({ s with b3 := some t }, [])
      else .ok ({ s with wait := strIn apostrophes t.text, b1 := none, b2 := none }, [a, b, t])
    | some a, some b, some c =>
      if t.category == .WORD then .error .assertionError
      else if !strIn apostrophes t.text then
        .ok ({ s with b1 := none, b2 := none, b3 := none }, [joinTok a b c, t])
      else .ok (⟨true, none, none, none⟩, [a, b, c, t])

/-- After the loop, experiments/tokenizer.py:243-251. -/
def mergeEnd (s : MState) : List Token :=
  match s.b1, s.b2, s.b3 with
  | some a, some b, some c => [joinTok a b c]
  | some a, some b, none => [a, b]
  | some a, none, _ => [a]
  | none, _, _ => []

/-- The loop of `_merge_apostrophes_into_words`, experiments/tokenizer.py:187-251. -/
def mergeLoop : List Token → MState → Except PyErr (List Token)
  | [], s => .ok (mergeEnd s)
  | t :: ts, s => do
    let (s', out) ← mergeStep s t
    let rest ← mergeLoop ts s'
    .ok (out ++ rest)

/-- `_merge_apostrophes_into_words`, experiments/tokenizer.py:181-251. -/
def mergeApostrophes (ts : List Token) : Except PyErr (List Token) :=
  mergeLoop ts ⟨false, none, none, none⟩

/-! ## `unicode_tokenize` -/

/-- The values yielded by `unicode_tokenize`: strings or tokens. -/
inductive Out where
  | str (s : List ℕ)
  | tok (t : Token)
deriving DecidableEq, Repr

/-- `unicode_tokenize`, experiments/tokenizer.py:350-395. -/
def unicodeTokenize (cat : ℕ → Cat) (text : List ℕ) (wordsOnly asTokens merge : Bool) :
    Except PyErr (List Out) :=
  if !merge then
    if asTokens && wordsOnly then .ok ((wordTokens cat text).map .tok)
    else if asTokens then .ok ((allTokens cat text).map .tok)
    else if wordsOnly then .ok ((wordStrings cat text).map .str)
    else .ok ((allStrings cat text).map .str)
  else do
    let g ← mergeApostrophes (allTokens cat text)
    let g := if wordsOnly then g.filter (fun t => t.category == .WORD) else g
    if asTokens then .ok (g.map .tok) else .ok (g.map fun t => .str t.text)

/-- The tokens used by `sentence_split_tokens`: `unicode_tokenize(para, as_tokens=True,
merge_apostrophe_word=...)`, experiments/tokenizer.py:423 with 376-395. -/
def tokenizeTokens (cat : ℕ → Cat) (text : List ℕ) (merge : Bool) : Except PyErr (List Token) :=
  if !merge then .ok (allTokens cat text) else mergeApostrophes (allTokens cat text)

/-! ## Sentences -/

/-- The characters removed by `str.strip()`, i.e. those for which `str.isspace` holds. -/
def stripChars : List ℕ :=
  [0x0009, 0x000A, 0x000B, 0x000C, 0x000D, 0x001C, 0x001D, 0x001E, 0x001F, 0x0020, 0x0085, 0x00A0,
   0x1680, 0x2000, 0x2001, 0x2002, 0x2003, 0x2004, 0x2005, 0x2006, 0x2007, 0x2008, 0x2009, 0x200A,
   0x2028, 0x2029, 0x202F, 0x205F, 0x3000]

/-- `str.isspace` of one character. -/
def pyIsSpace (c : ℕ) : Bool := stripChars.contains c

/-- `str.strip()`, used in experiments/tokenizer.py:413, 416, 418, 464. -/
def pyStrip (s : List ℕ) : List ℕ :=
  ((s.dropWhile pyIsSpace).reverse.dropWhile pyIsSpace).reverse

/-- The scan of `str.split(sep)` for a non-empty `sep`: `skip` characters of an occurrence of `sep`
are still to be passed over, `cur` is the current piece. -/
def splitLoop (sep : List ℕ) : List ℕ → ℕ → List ℕ → List (List ℕ)
  | [], _, cur => [cur]
  | _ :: cs, skip + 1, cur => splitLoop sep cs skip cur
  | c :: cs, 0, cur =>
    if sep.isPrefixOf (c :: cs) then cur :: splitLoop sep cs (sep.length - 1) []
    else splitLoop sep cs 0 (cur ++ [c])

/-- `text.split(sep)` for a non-empty `sep`, experiments/tokenizer.py:413, 416. -/
def pySplit (sep text : List ℕ) : List (List ℕ) := splitLoop sep text 0 []

/-- The argument `split_newline`: a boolean, a string, or something else with a truth value. -/
inductive SplitArg where
  | bool (b : Bool)
  | str (s : List ℕ)
  | other (truthy : Bool)
deriving DecidableEq, Repr

/-- `paragraphs`, experiments/tokenizer.py:412-418. -/
def paragraphs (text : List ℕ) : SplitArg → Except PyErr (List (List ℕ))
  | .bool true => .ok ((pySplit [0x000A] text).map pyStrip)
  | .bool false => .ok [pyStrip text]
  | .str s => if s.isEmpty then .ok [pyStrip text] else .ok ((pySplit s text).map pyStrip)
  | .other true => .error .assertionError
  | .other false => .ok [pyStrip text]

/-- The loop over the tokens of a paragraph, experiments/tokenizer.py:421-444: `buf` is `_buffer`. -/
def sentLoop : List Token → List Token → Bool → List (List Token)
  | [], buf, _ => if buf.isEmpty then [] else [buf]
  | t :: ts, buf, closed =>
    let buf := buf ++ [t]
    if closed && t.category == .WHITESPACE then
      (if buf.isEmpty then [] else [buf]) ++ sentLoop ts [] false
    else if !strIn closers t.text then sentLoop ts buf (strIn closingPunctuation t.text)
    else sentLoop ts buf closed

/-- The loop over the paragraphs, experiments/tokenizer.py:420-444. -/
def sentParas (cat : ℕ → Cat) (merge : Bool) : List (List ℕ) → Except PyErr (List (List Token))
  | [] => .ok []
  | p :: ps => do
    let toks ← tokenizeTokens cat p merge
    let rest ← sentParas cat merge ps
    .ok (sentLoop toks [] false ++ rest)

/-- `sentence_split_tokens`, experiments/tokenizer.py:398-444. -/
def sentenceSplitTokens (cat : ℕ → Cat) (text : List ℕ) (split : SplitArg) (merge : Bool) :
    Except PyErr (List (List Token)) := do
  let ps ← paragraphs text split
  sentParas cat merge ps

/-- `sentence_split`, experiments/tokenizer.py:447-466. -/
def sentenceSplit (cat : ℕ → Cat) (text : List ℕ) (split : SplitArg) (merge : Bool) :
    Except PyErr (List (List ℕ)) := do
  let ss ← sentenceSplitTokens cat text split merge
  .ok ((ss.map fun toks => pyStrip (toks.map Token.text).flatten).filter fun s => !s.isEmpty)

/-! ## n-grams -/

/-- `text_n_grams`, experiments/tokenizer.py:469-474, for any integer `n`. -/
def textNGrams (text : List ℕ) (n : ℤ) : List (List ℕ) :=
  (List.range ((text.length : ℤ) - n + 1).toNat).map fun i => pySliceZ text i ((i : ℤ) + n)

/-- `zip(*ls)`: take the heads until some list is exhausted; the first argument bounds the number of
rounds. -/
def zipStar {α : Type} : ℕ → List (List α) → List (List α)
  | 0, _ => []
  | k + 1, ls =>
    if ls.isEmpty || ls.any List.isEmpty then []
    else ls.filterMap List.head? :: zipStar k (ls.map List.tail)

/-- `zip(*[words[i:] for i in range(n)])`, experiments/tokenizer.py:499, 504. -/
def wordWindows {α : Type} (words : List α) (n : ℕ) : List (List α) :=
  zipStar (words.length + 1) ((List.range n).map fun i => words.drop i)

/-- `word_n_grams`, experiments/tokenizer.py:477-505. -/
def wordNGrams (cat : ℕ → Cat) (text : List ℕ) (n : ℤ) (splitSentences merge : Bool) :
    Except PyErr (List (List (List ℕ))) :=
  if n < 2 then .error .assertionError
  else if splitSentences then do
    let ss ← sentenceSplitTokens cat text (.bool true) merge
    .ok (ss.map fun toks =>
      wordWindows ((toks.filter fun t => t.category == .WORD).map Token.text) n.toNat).flatten
  else do
    let ws ← unicodeTokenize cat text true false merge
    let words := ws.map fun o => match o with | .str s => s | .tok t => t.text
    .ok (wordWindows words n.toNat)

end Tok
end Verif
