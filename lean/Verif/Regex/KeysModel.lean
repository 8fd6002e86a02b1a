import Verif.Regex.Model
import Verif.Trie.KeysModel

/-!
# Model of the function `to_regex` (experiments/find_replace_trie.py, lines 1109–1121)

The tokens are single characters here, so `elem.lower()` is a function from characters to characters.
The one character for which that is wrong is U+0130, whose lower-case form has two.
-/

namespace Verif
namespace Regex

/-- The text of the assertion in line 427. -/
def testText : List Char := "test-test test".toList

/-- `to_regex(list_of_strings, case_sensitive, …)` (lines 1109–1121), with the assertion of line 427
evaluated for the tokenizer of the trie; `default` is `''` (line 146)
and `sort` is `False` (line 148), so that the order on the characters plays no part. -/
def toRegexOf (sp : Char → Bool) (low : Char → Char) (strings : List (List Char))
    (caseSensitive : Bool) (o : Opts) : Except PyErr (List Char) :=
  let r := Trie.fromKeysFull (ν := List Char) (fun w => w) low Char.toNat strings [] caseSensitive
    false
  toRegex sp (decide (r.1 testText = testText)) o r.2.root

end Regex
end Verif
