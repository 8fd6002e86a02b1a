import Verif.Dawg.Model
import Verif.File.Model
import Mathlib.Data.Char

/-!
# The texts used as keys of nodes

`str(node)` in experiments/dawg.py and experiments/dawg-orig.py, for nodes whose labels are
characters. `printable` stands for CPython's table of printable characters outside ASCII.
-/

namespace Verif
namespace Dawg

/-- A hexadecimal digit as `repr` writes it. -/
def hexDigit (d : ℕ) : Char := Nat.digitChar d

/-- `n` in `k` hexadecimal digits. -/
def hexPad : ℕ → ℕ → List Char
  | 0, _ => []
  | k + 1, n => hexPad k (n / 16) ++ [hexDigit (n % 16)]

/-- What stands between the quotes in the `repr` of a string of one character (CPython's
`unicode_repr`, called by experiments/dawg.py line 48). -/
def reprBody (printable : Char → Bool) (c : Char) : List Char :=
  if c = '\\' then ['\\', '\\']
  else if c = '\t' then ['\\', 't']
  else if c = '\n' then ['\\', 'n']
  else if c = '\r' then ['\\', 'r']
  else if 32 ≤ c.toNat ∧ c.toNat < 127 ∨ 127 < c.toNat ∧ printable c then [c]
  else if c.toNat < 256 then '\\' :: 'x' :: hexPad 2 c.toNat
  else if c.toNat < 65536 then '\\' :: 'u' :: hexPad 4 c.toNat
  else '\\' :: 'U' :: hexPad 8 c.toNat

/-- `repr(label)` for a label of one character (experiments/dawg.py line 48): double quotes are used
only around a single quote. -/
def reprChar (printable : Char → Bool) (c : Char) : List Char :=
  let q := if c = '\'' then '"' else '\''
  q :: reprBody printable c ++ [q]

/-- `edge_info` (experiments/dawg.py lines 45–48). -/
def edgeInfo (printable : Char → Bool) (es : List (Char × ℕ)) : List Char :=
  es.flatMap fun e => ' ' :: reprChar printable e.1 ++ ([':', ' '] ++ File.digits e.2 ++ [','])

/-- `DAWGNode.__str__` (experiments/dawg.py lines 44–50); `edge_info[1:-1]` drops the first and the
last character. -/
def Node.text (printable : Char → Bool) (n : Node Char) : List Char :=
  "DAWGNode(terminal=".toList ++ (if n.terminal then ['1'] else ['0']) ++ ", edges={".toList ++
    ((edgeInfo printable (sortEdges n.edges)).drop 1).dropLast ++ ['}']

/-- `DawgNode.__str__` (experiments/dawg-orig.py lines 35–46): the parts joined by `_`; the edges
come in the order of insertion. -/
def origText (final : Bool) (edges : Dict Char ℕ) : List Char :=
  (if final then '1' else '0') :: edges.flatMap fun e => '_' :: e.1 :: '_' :: File.digits e.2

end Dawg
end Verif
