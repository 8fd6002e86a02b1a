import Mathlib.Data.List.Basic
import Mathlib.Data.List.Forall2

/-!
# Regular expressions as Python's `re` reads and runs them

The specification against which `Trie.to_regex` is judged. Nothing here refers to the model of
`to_regex`.

* `parse` reads a pattern text (flags 0). It covers literal characters, backslash escapes, `.`,
  `\s`, `\b`, character classes without ranges and negation, non-capturing groups, `|`, `?`, and `+`
  after a single character. Everything else gives `none`.
* `RE.ends` runs a pattern by backtracking: all end positions of a match that starts at a given
  position, in the order in which `re` tries them. The first one is the one that `re` reports.
-/

namespace Verif
namespace RegexSpec

/-- One item that matches one character. -/
inductive Atom where
  /-- a literal character -/
  | chr (c : Char)
  /-- `.` -/
  | any
  /-- `\s` -/
  | space
deriving DecidableEq, Repr

/-- Patterns. -/
inductive RE where
  | eps
  | atom (a : Atom)
  /-- `[…]` -/
  | cls (as : List Atom)
  /-- `a+`, `[…]+` -/
  | plus (as : List Atom)
  /-- `\b` -/
  | bound
  | seq (a b : RE)
  | alt (a b : RE)
  | opt (a : RE)
deriving DecidableEq, Repr

/-! ## Reading a pattern -/

/-- Characters that are not literals outside a class. -/
def metaChars : List Char :=
  ['\\', '.', '^', '$', '*', '+', '?', '{', '}', '[', ']', '(', ')', '|']

/-- Characters that are not literals inside a class, or only at some places. -/
def clsMeta : List Char := ['\\', ']', '[', '-', '^']

/-- ASCII letters and digits: a backslash before them is not a mere escape. -/
def asciiAlnum (c : Char) : Bool :=
  ('a' ≤ c && c ≤ 'z') || ('A' ≤ c && c ≤ 'Z') || ('0' ≤ c && c ≤ '9')

/-- The character after a backslash, for the escapes that match one character. -/
def escaped (c : Char) : Option Atom :=
  if c = 's' then some .space else if asciiAlnum c then none else some (.chr c)

/-- The members of a class up to its closing bracket. -/
def parseCls : List Char → Option (List Atom × List Char)
  | [] => none
  | ']' :: s => some ([], s)
  | '\\' :: c :: s =>
    match escaped c with
    | none => none
    | some a => (parseCls s).map fun r => (a :: r.1, r.2)
  | c :: s =>
    if c ∈ clsMeta then none else (parseCls s).map fun r => (.chr c :: r.1, r.2)

/-- Whether what has been read matches one character. -/
def single : RE → Option (List Atom)
  | .atom a => some [a]
  | .cls as => some as
  | _ => none

/-- The repetition after an item. -/
def repeats (r : RE) : List Char → Option (RE × List Char)
  | '?' :: '?' :: _ => none
  | '?' :: '+' :: _ => none
  | '?' :: s => if r = .bound then none else some (.opt r, s)
  | '+' :: '?' :: _ => none
  | '+' :: '+' :: _ => none
  | '+' :: s => (single r).map fun as => (.plus as, s)
  | s => some (r, s)

mutual

/-- Alternatives, up to the end or a closing parenthesis. -/
def parseAlts : Nat → List Char → Option (RE × List Char)
  | 0, _ => none
  | f + 1, s =>
    match parseBranch f s with
    | none => none
    | some (r, '|' :: s) => (parseAlts f s).map fun x => (.alt r x.1, x.2)
    | some (r, s) => some (r, s)

/-- A sequence of items, up to the end, a bar or a closing parenthesis. -/
def parseBranch : Nat → List Char → Option (RE × List Char)
  | 0, _ => none
  | _ + 1, [] => some (.eps, [])
  | _ + 1, '|' :: s => some (.eps, '|' :: s)
  | _ + 1, ')' :: s => some (.eps, ')' :: s)
  | f + 1, s =>
    match parseItem f s with
    | none => none
    | some (r, s) =>
      match repeats r s with
      | none => none
      | some (r, s) => (parseBranch f s).map fun x => (.seq r x.1, x.2)

/-- One item without its repetition. -/
def parseItem : Nat → List Char → Option (RE × List Char)
  | 0, _ => none
  | f + 1, '(' :: '?' :: ':' :: s =>
    match parseAlts f s with
    | some (r, ')' :: s) => some (r, s)
    | _ => none
  | _ + 1, '[' :: s =>
    match parseCls s with
    | some (a :: as, s) => some (.cls (a :: as), s)
    | _ => none
  | _ + 1, '\\' :: 'b' :: s => some (.bound, s)
  | _ + 1, '\\' :: c :: s => (escaped c).map fun a => (.atom a, s)
  | _ + 1, '.' :: s => some (.atom .any, s)
  | _ + 1, c :: s => if c ∈ metaChars then none else some (.atom (.chr c), s)
  | _ + 1, [] => none

end

/-- The meaning of a pattern text, `none` when it is rejected. Every nested call consumes a
character or descends one of three levels. -/
def parse (s : List Char) : Option RE :=
  match parseAlts (3 * s.length + 3) s with
  | some (r, []) => some r
  | _ => none

/-! ## Running a pattern -/

/-- The characters that `\s` and `\w` stand for. -/
structure Classes where
  space : Char → Bool
  word : Char → Bool

variable (u : Classes)

/-- Whether the item matches the character. -/
def Atom.test : Atom → Char → Bool
  | .chr d, c => d = c
  | .any, c => c ≠ '\n'
  | .space, c => u.space c

/-- Whether position `i` of the text is followed by a word character. -/
def wordAt (text : List Char) (i : Nat) : Bool := ((text[i]?).map u.word).getD false

/-- Whether `\b` holds at position `i`. -/
def boundary (text : List Char) (i : Nat) : Bool :=
  (if i = 0 then false else wordAt u text (i - 1)) != wordAt u text i

/-- How many characters from position `i` on match one of the items. -/
def runLength (as : List Atom) (text : List Char) (i : Nat) : Nat :=
  ((text.drop i).takeWhile fun c => as.any fun a => a.test u c).length

/-- The ends of the matches from position `i` on, in the order of the backtracking search. -/
def RE.ends : RE → List Char → Nat → List Nat
  | .eps, _, i => [i]
  | .atom a, text, i => if ((text[i]?).map (a.test u)).getD false then [i + 1] else []
  | .cls as, text, i =>
    if ((text[i]?).map fun c => as.any fun a => a.test u c).getD false then [i + 1] else []
  | .plus as, text, i => ((List.range (runLength u as text i)).map fun k => i + k + 1).reverse
  | .bound, text, i => if boundary u text i then [i] else []
  | .seq a b, text, i => (ends a text i).flatMap fun j => ends b text j
  | .alt a b, text, i => ends a text i ++ ends b text i
  | .opt a, text, i => ends a text i ++ [i]

/-- `re.fullmatch(pattern, text)` succeeds. -/
def FullMatch (r : RE) (text : List Char) : Prop := text.length ∈ r.ends u text 0

/-- `re.compile(pattern).match(text, i)`: the end of the match. -/
def matchAt (r : RE) (text : List Char) (i : Nat) : Option Nat := (r.ends u text i).head?

/-- `re.finditer(pattern, text)` for a pattern whose matches are not empty: the spans of the
matches. `k` is the number of positions left to try. -/
def finditerFrom (r : RE) (text : List Char) : Nat → Nat → List (Nat × Nat)
  | 0, _ => []
  | k + 1, i =>
    match matchAt u r text i with
    | some j => (i, j) :: finditerFrom r text (k - (j - 1 - i)) j
    | none => finditerFrom r text k (i + 1)
termination_by k => k

/-- `re.finditer(pattern, text)` for a pattern whose matches are not empty. -/
def finditer (r : RE) (text : List Char) : List (Nat × Nat) :=
  finditerFrom u r text (text.length + 1) 0

/-! ## What a list of keys should match -/

/-- Character `k` of a key stands for character `c` of a text: it is the same one, or both are
whitespace and `fuzzy_spaces` is on, or `k` is U+FFFD, `fffd_any` is on and `c` is not a newline. -/
def Agrees (space : Char → Bool) (fuzzySpaces fffdAny : Bool) (k c : Char) : Prop :=
  k = c ∨ (fuzzySpaces = true ∧ space k = true ∧ space c = true) ∨
    (fffdAny = true ∧ k = '\ufffd' ∧ c ≠ '\n')

/-- The characters `i` to `j` of the text are the key, up to `R`. -/
def Reads (R : Char → Char → Prop) (key text : List Char) (i j : Nat) : Prop :=
  i ≤ j ∧ j ≤ text.length ∧ List.Forall₂ R key ((text.take j).drop i)

section
variable (space : Char → Bool) (keys : List Char → Prop)

/-- No key has two whitespace characters in a row, or one after the characters `\` and `s`. -/
def NoDoubleSpace : Prop :=
  (∀ a x y b, keys (a ++ x :: y :: b) → ¬ (space x = true ∧ space y = true)) ∧
  ∀ a y b, keys (a ++ '\\' :: 's' :: y :: b) → ¬ space y = true

/-- No two keys part with different whitespace characters. -/
def NoSpaceFork : Prop :=
  ∀ p x y a b, keys (p ++ x :: a) → keys (p ++ y :: b) → space x = true → space y = true → x = y

/-- No three keys part with `\`, `s` and whitespace. -/
def NoEscapeFork : Prop :=
  ∀ p y a b c, keys (p ++ '\\' :: a) → keys (p ++ 's' :: b) → keys (p ++ y :: c) → ¬ space y = true

/-- No key parts from a key that goes on with U+FFFD. -/
def LoneWildcard : Prop :=
  ∀ p x a b, keys (p ++ '\ufffd' :: a) → keys (p ++ x :: b) → x = '\ufffd'

end

end RegexSpec
end Verif
