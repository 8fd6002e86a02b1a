import Verif.Trie.Model

/-!
# Model of `Trie.to_regex` (experiments/find_replace_trie.py, lines 410–579)

Simplifications, all of them listed in DESIGN.md:

* Tokens are single characters: line 427 asserts that the tokenizer splits a sample text into
  characters. The outcome of that assertion is the argument `charTok`.
* `re.sub` with the constant patterns of lines 445 and 539–554 is modelled by one matcher for each
  pattern (`subLoop`, `cLens`, `match1` … `match5`); which characters `\s` matches is the parameter
  `sp`.
-/

namespace Verif
namespace Regex

open Trie (Node frameWeight frameWeight_reverse)

/-- The arguments of `to_regex` (find_replace_trie.py 410–416). -/
structure Opts where
  fuzzyQuotes : Bool := true
  fuzzySpaces : Bool := true
  fffdAny : Bool := true
  simplify : Bool := true
  boundary : Bool := false

/-- The scan of `str.replace(old, new)` for a non-empty `old`: `skip` characters of an occurrence
are still to be passed over. -/
def replaceLoop (old new : List Char) : List Char → Nat → List Char
  | [], _ => []
  | _ :: cs, skip + 1 => replaceLoop old new cs skip
  | c :: cs, 0 =>
    if old.isPrefixOf (c :: cs) then new ++ replaceLoop old new cs (old.length - 1)
    else c :: replaceLoop old new cs 0

/-- `s.replace(old, new)` for a non-empty `old` (lines 452–461, 465, 567, 572–576). -/
def pyReplace (old new s : List Char) : List Char := replaceLoop old new s 0

/-- `sub in s` for strings (lines 568, 570, 571). -/
def hasSub (sub : List Char) : List Char → Bool
  | [] => sub.isPrefixOf []
  | c :: cs => sub.isPrefixOf (c :: cs) || hasSub sub cs

/-- The characters that `re.escape` escapes (line 448, Python 3.7 and later). -/
def specials : List Char :=
  ['(', ')', '[', ']', '{', '}', '?', '*', '+', '-', '|', '^', '$', '\\', '.', '&', '~', '#',
   ' ', '\t', '\n', '\r', '\x0b', '\x0c']

/-- `re.escape(c)` for one character (line 448). -/
def reEscape (c : Char) : List Char := if c ∈ specials then ['\\', c] else [c]

/-- The replacements of lines 452–461: the quotation marks and the ASCII marks added to them. -/
def quotes : List (Char × Char) :=
  [('‵', '\''), ('′', '\''), ('‘', '\''), ('’', '\''), ('`', '\''),
   ('´', '\''), ('”', '"'), ('“', '"'), ('〝', '"'), ('〞', '"')]

/-- The text that one token contributes (lines 444–465). -/
def keyText (sp : Char → Bool) (o : Opts) (key : Char) : List Char :=
  let key := if o.fuzzySpaces then (if sp key then ' ' else key) else key
  let s := reEscape key
  let s := if o.fuzzyQuotes then
      quotes.foldl (fun s q => pyReplace ['\\', q.1] ['[', '\\', q.1, q.2, ']'] s) s
    else s
  if o.fffdAny then pyReplace ['�'] ['.'] s else s

variable {ν : Type}

/-- The loop of lines 431–485. A frame of `_stack` is a node and the list of its remaining children,
the one that `keys.pop(-1)` takes next being first. `_parts` is given with its last list first; a
`pop` from or an access to an empty `_parts` would be an `IndexError`. -/
def partsLoop (text : Char → List Char) :
    List (Node Char ν × List (Char × Node Char ν)) → List (List (List Char)) →
      Except PyErr (List (List (List Char)))
  | [], parts => .ok parts
  | (head, (k, c) :: rest) :: stack, parts =>
    match parts with
    | [] => .error .indexError
    | top :: parts =>
      -- lines 439–440 and 467
      let top := (if top.isEmpty then top else top ++ [['|']]) ++ [text k]
      -- lines 470–471
      partsLoop text ((c, c.kids.reverse) :: (head, rest) :: stack) ([] :: top :: parts)
  | (head, []) :: stack, parts =>
    match parts with
    | [] => .error .indexError
    | current :: parts =>
      if current.isEmpty then partsLoop text stack parts
      else
        match parts with
        | [] => .error .indexError
        | top :: parts =>
          let add :=
            if head.val.isSome then ["(?:".toList] ++ current ++ [")?".toList]
            else if head.kids.length ≠ 1 then ["(?:".toList] ++ current ++ [")".toList]
            else current
          partsLoop text stack ((top ++ add) :: parts)
termination_by stack => (stack.map fun f => frameWeight f.2).sum
decreasing_by
  · have h := Node.weight_eq c
    simp only [List.map_cons, List.sum_cons, frameWeight_reverse]
    simp only [frameWeight, List.map_cons, List.sum_cons] at *
    omega
  · simp [frameWeight]
  · simp [frameWeight]

/-- The pattern before the simplification (lines 429–488). -/
def rawPattern (text : Char → List Char) (root : Node Char ν) : Except PyErr (List Char) :=
  match partsLoop text [(root, root.kids.reverse)] [[], []] with
  | .error e => .error e
  | .ok [p] => .ok p.flatten
  | .ok _ => .error .assertionError

/-! ## Simplification -/

/-- States of the helper `char_group`: `sep`, `escaped`, `unicode` of lines 498–500. -/
structure CGState where
  sep : Bool
  escaped : Bool
  unicode : Nat

/-- One round of the loop of lines 501–529: the state afterwards and the characters appended. The
comparison of line 513 with the empty string never holds. -/
def cgStep (s : CGState) (c : Char) : Except PyErr (CGState × List Char) :=
  if s.unicode ≠ 0 then
    if s.sep then .error .assertionError
    else .ok (⟨s.unicode - 1 = 0, s.escaped, s.unicode - 1⟩, [c])
  else if s.escaped then
    if s.sep then .error .assertionError
    else if c ∈ "1234567890".toList then .ok (⟨s.sep, false, 2⟩, [c])
    else .ok (⟨true, false, 0⟩, [c])
  else if c = '\\' then
    if s.sep then .error .assertionError else .ok (⟨s.sep, true, 0⟩, ['\\'])
  else if c = '|' then
    if s.sep then .ok (⟨false, false, 0⟩, []) else .error .assertionError
  else if s.sep then .error .assertionError
  else .ok (⟨true, false, 0⟩, [c])

/-- The loop and the end of `char_group` (lines 501–532). -/
def cgLoop : CGState → List Char → Except PyErr (List Char)
  | s, [] => if s.sep then .ok [']'] else .error .assertionError
  | s, c :: cs =>
    match cgStep s c with
    | .error e => .error e
    | .ok (s, out) =>
      match cgLoop s cs with
      | .error e => .error e
      | .ok r => .ok (out ++ r)

/-- `char_group` (lines 492–532). -/
def charGroup (body : List Char) : Except PyErr (List Char) :=
  match cgLoop ⟨false, false, 0⟩ body with
  | .error e => .error e
  | .ok r => .ok ('[' :: r)

/-- Hexadecimal digits, as in the pattern of line 536. -/
def isHex (c : Char) : Bool :=
  ('0' ≤ c && c ≤ '9') || ('a' ≤ c && c ≤ 'f') || ('A' ≤ c && c ≤ 'F')

/-- Octal digits, as in the pattern of line 536. -/
def isOct (c : Char) : Bool := '0' ≤ c && c ≤ '7'

/-- `n` digits. -/
def digits (p : Char → Bool) (n : Nat) (s : List Char) : Bool :=
  (s.take n).length = n && (s.take n).all p

/-- The lengths with which `_char` (line 536) matches at the beginning of `s`, in the order in which
they are tried. -/
def cLens : List Char → List Nat
  | [] => []
  | '\\' :: s =>
    (match s with
      | 'U' :: s => if digits isHex 8 s then [10] else []
      | _ => []) ++
    (match s with
      | 'u' :: s => if digits isHex 4 s then [6] else []
      | _ => []) ++
    (match s with
      | 'x' :: s => if digits isHex 2 s then [4] else []
      | _ => []) ++
    (if digits isOct 3 s then [4] else []) ++
    (if digits isOct 2 s then [3] else []) ++
    (match s with
      | [] => []
      | c :: _ => if c = '\n' then [] else [2])
  | _ :: _ => [1]

/-- The lengths with which `C(?:\|C)*` (line 539) matches at the beginning of `s`. Every repetition
consumes a bar, so the length of the text bounds their number. -/
def bodyLens : Nat → List Char → List Nat
  | 0, _ => []
  | f + 1, s =>
    (cLens s).flatMap fun n =>
      (match s.drop n with
        | '|' :: t => (bodyLens f t).map fun m => n + 1 + m
        | _ => []) ++ [n]

/-- The scan of `re.sub` for a pattern that never matches the empty text: `prev` is the character
before the current position, `skip` characters of a match are still to be passed over. The matcher
returns the replacement and the length of the match. -/
def subLoop (m : Option Char → List Char → Except PyErr (Option (List Char × Nat))) :
    Option Char → Nat → List Char → Except PyErr (List Char)
  | _, _, [] => .ok []
  | _, skip + 1, c :: cs => subLoop m (some c) skip cs
  | prev, 0, c :: cs =>
    match m prev (c :: cs) with
    | .error e => .error e
    | .ok (some (new, n)) =>
      match subLoop m (some c) (n - 1) cs with
      | .error e => .error e
      | .ok r => .ok (new ++ r)
    | .ok none =>
      match subLoop m (some c) 0 cs with
      | .error e => .error e
      | .ok r => .ok (c :: r)

/-- The first of the lengths after which the text goes on with `post`. -/
def firstWith (post : List Char) (lens : List Nat) (s : List Char) : Option Nat :=
  lens.find? fun n => post.isPrefixOf (s.drop n)

/-- `(?<!\\)\(\?:(C(?:\|C)*)\)` with the replacement `char_group` (line 539). -/
def match1 (prev : Option Char) : List Char → Except PyErr (Option (List Char × Nat))
  | '(' :: '?' :: ':' :: s =>
    if prev = some '\\' then .ok none
    else
      match firstWith [')'] (bodyLens (s.length + 1) s) s with
      | none => .ok none
      | some n =>
        match charGroup (s.take n) with
        | .error e => .error e
        | .ok new => .ok (some (new, n + 4))
  | _ => .ok none

/-- The part `\[[^\[\]]*[^\[\]\\]\]` of lines 543 and 547 after its first character: the length of
the run of characters that are not brackets, when the last one is not a backslash and a closing
bracket follows. -/
def classRun (s : List Char) : Option Nat :=
  let run := s.takeWhile fun c => c ≠ '[' && c ≠ ']'
  if run ≠ [] ∧ run.getLast? ≠ some '\\' ∧ (s.drop run.length).head? = some ']' then
    some run.length
  else none

/-- `(?<!\\)\(\?:(\[[^\[\]]*[^\[\]\\]\])\)` with the replacement `\1` (line 543). -/
def match2 (prev : Option Char) : List Char → Except PyErr (Option (List Char × Nat))
  | '(' :: '?' :: ':' :: '[' :: s =>
    if prev = some '\\' then .ok none
    else
      match classRun s with
      | none => .ok none
      | some n =>
        if (s.drop (n + 1)).head? = some ')' then .ok (some ('[' :: s.take (n + 1), n + 6))
        else .ok none
  | _ => .ok none

/-- `(?<!\\)\(\?:(\[[^\[\]]*[^\[\]\\]\]\?)\)\??` with the replacement `\1` (line 547). -/
def match3 (prev : Option Char) : List Char → Except PyErr (Option (List Char × Nat))
  | '(' :: '?' :: ':' :: '[' :: s =>
    if prev = some '\\' then .ok none
    else
      match classRun s with
      | none => .ok none
      | some n =>
        match s.drop (n + 1) with
        | '?' :: ')' :: '?' :: _ => .ok (some ('[' :: s.take (n + 2), n + 8))
        | '?' :: ')' :: _ => .ok (some ('[' :: s.take (n + 2), n + 7))
        | _ => .ok none
  | _ => .ok none

/-- `(?<!\\)\[(C)\]` with the replacement `\1` (line 551). -/
def match4 (prev : Option Char) : List Char → Except PyErr (Option (List Char × Nat))
  | '[' :: s =>
    if prev = some '\\' then .ok none
    else
      match firstWith [']'] (cLens s) s with
      | none => .ok none
      | some n => .ok (some (s.take n, n + 2))
  | _ => .ok none

/-- `\(\?:(C)\)` with the replacement `\1` (line 554). -/
def match5 (_prev : Option Char) : List Char → Except PyErr (Option (List Char × Nat))
  | '(' :: '?' :: ':' :: s =>
    match firstWith [')'] (cLens s) s with
    | none => .ok none
    | some n => .ok (some (s.take n, n + 4))
  | _ => .ok none

/-- Lines 534–554. -/
def simplified (p : List Char) : Except PyErr (List Char) := do
  let p ← subLoop match1 none 0 p
  let p ← subLoop match2 none 0 p
  let p ← subLoop match3 none 0 p
  let p ← subLoop match4 none 0 p
  subLoop match5 none 0 p

/-! ## The end of `to_regex` -/

/-- Lines 556–564. The slice of line 557 is the pattern without its first three characters. -/
def wrapped (boundary : Bool) (p : List Char) : Except PyErr (List Char) :=
  if p.drop 3 = "(?:".toList then
    if p.getLast? ≠ some ')' then .error .assertionError
    else if boundary then .ok ("(?:\\b".toList ++ (p.drop 3).dropLast ++ "\\b)".toList)
    else .ok p
  else if boundary then .ok ("(?:\\b".toList ++ p ++ "\\b)".toList)
  else .ok ("(?:".toList ++ p ++ ")".toList)

/-- The loop of lines 570–574. Every round shortens the text, so its length bounds their number. -/
def collapse : Nat → List Char → List Char
  | 0, p => p
  | f + 1, p =>
    if hasSub "\\s\\s".toList p then
      if hasSub "\\s\\s+".toList p then
        collapse f (pyReplace "\\s\\s+".toList "\\s+".toList p)
      else collapse f (pyReplace "\\s\\s".toList "\\s+".toList p)
    else p

/-- Lines 566–576. -/
def spaced (fuzzySpaces : Bool) (p : List Char) : Except PyErr (List Char) :=
  if fuzzySpaces then
    let p := pyReplace "\\ ".toList "\\s".toList p
    if hasSub [' '] p then .error .assertionError
    else .ok (collapse p.length p)
  else .ok (pyReplace "\\ ".toList [' '] p)

/-- `trie.to_regex(fuzzy_quotes, fuzzy_spaces, fffd_any, simplify, boundary)` (lines 410–579). -/
def toRegex (sp : Char → Bool) (charTok : Bool) (o : Opts) (root : Node Char ν) :
    Except PyErr (List Char) :=
  if !charTok then .error .assertionError
  else do
    let p ← rawPattern (keyText sp o) root
    let p ← if o.simplify then simplified p else .ok p
    let p ← wrapped o.boundary p
    spaced o.fuzzySpaces p

end Regex
end Verif
