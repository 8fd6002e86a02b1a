import Verif.Trie.Scan
import Verif.Trie.Sort

/-!
# Model of `Trie.fromkeys`, of the tokenizers of `Trie`, of `Match` and of `Trie.nbytes`
(experiments/find_replace_trie.py)
-/

namespace Verif
namespace Trie

variable {κ τ ν S : Type}

/-- The tokenizer set up by `Trie(tokenizer=…, lowercase=…)` (lines 199–219). `base` is the given
tokenizer, or the splitting of a sequence into its elements if none is given; `low` is `str.lower` on
tokens. -/
def tokenizerOf (base : κ → List τ) (low : τ → τ) (lowercase : Bool) (seq : κ) : List τ :=
  if lowercase then (base seq).map low else base seq

/-- `Trie.fromkeys(keys, default, case_sensitive, sort)` (lines 145–155). Result and tokenizer of
the trie. `cmp` is the key `(token.casefold(), token)` of the default `sort_keys()`. -/
def fromKeysFull [DecidableEq τ] [LinearOrder S] (base : κ → List τ) (low : τ → τ) (cmp : τ → S)
    (ks : List κ) (d : ν) (caseSensitive sort : Bool) : (κ → List τ) × Trie τ ν :=
  let tok := tokenizerOf base low (!caseSensitive)
  let t := update tok new (ks.map (fun k => (k, d)))
  (tok, if sort then sortKeys cmp true t else t)

/-! ### `Match` -/

/-- A `Match` object (lines 28–46). -/
structure Match (κ : Type) where
  regs : Nat × Nat
  str : κ
deriving DecidableEq

namespace Match

/-- `match[group_index]` (lines 56–59). -/
def getItem (m : Match κ) (g : Int) : Except PyErr κ :=
  if g ≠ 0 then .error .indexError else .ok m.str

/-- `match.group(group_index)` (lines 61–62). -/
def group (m : Match κ) (g : Int := 0) : Except PyErr κ := m.getItem g

/-- `match.start(group_index)` (lines 64–67). -/
def start (m : Match κ) (g : Int := 0) : Except PyErr Nat :=
  if g ≠ 0 then .error .indexError else .ok m.regs.1

/-- `match.end(group_index)` (lines 69–72). -/
def stop (m : Match κ) (g : Int := 0) : Except PyErr Nat :=
  if g ≠ 0 then .error .indexError else .ok m.regs.2

/-- `match.span(group_index)` (lines 74–77). -/
def span (m : Match κ) (g : Int := 0) : Except PyErr (Nat × Nat) :=
  if g ≠ 0 then .error .indexError else .ok m.regs

/-- `len(match)` (lines 79–80); `len` raises `ValueError` on a negative number. -/
def len (m : Match κ) : Except PyErr Nat :=
  let n : Int := (m.regs.2 : Int) - m.regs.1
  if n < 0 then .error .valueError else .ok n.toNat

/-- `bool(match)`: a class with `__len__` but without `__bool__` (lines 28–86) is true when its
length is not 0. -/
def truth (m : Match κ) : Except PyErr Bool :=
  match m.len with
  | .error e => .error e
  | .ok n => .ok (n != 0)

end Match

/-- The objects yielded by `finditer` (lines 936–941 and 944–945: `Match(start, end, text)`). -/
def matches_ [DecidableEq τ] (tok : κ → List τ) (detok : List τ → κ) (t : Trie τ ν) (ov : Bool)
    (text : κ) : Except PyErr (List (Match κ)) :=
  match finditer tok detok t ov text with
  | .error e => .error e
  | .ok l => .ok (l.map fun h => ⟨(h.1, h.2.1), h.2.2⟩)

/-- The object returned by `search` (lines 947–959). -/
def searchMatch [DecidableEq τ] (tok : κ → List τ) (detok : List τ → κ) (t : Trie τ ν) (ov : Bool)
    (text : κ) : Except PyErr (Option (Match κ)) :=
  match matches_ tok detok t ov text with
  | .error e => .error e
  | .ok l => .ok l.head?

/-! ### `nbytes` -/

/-- A Python object as far as `nbytes` looks at it: `id(obj)` and `sys.getsizeof(obj)`. -/
structure PyObj where
  id : Nat
  size : Nat
deriving DecidableEq

/-- The nodes of a trie with the objects they consist of: the node itself, `REPLACEMENT`, and the
keys with the children. -/
inductive ObjNode where
  | mk (self repl : PyObj) (kids : List (PyObj × ObjNode))

namespace ObjNode

/-- The children of a node with their keys (lines 249–250, `node.keys()` and `node.values()`). -/
def kids : ObjNode → List (PyObj × ObjNode)
  | .mk _ _ ks => ks

/-- `(node, node.REPLACEMENT, *node.keys())` (line 250). -/
def objs : ObjNode → List PyObj
  | .mk s r ks => s :: r :: ks.map Prod.fst

end ObjNode

/-- `if id(obj) not in seen_ids: …` (lines 251–253); the state is `total_bytes` and `seen_ids`. -/
def countOnce (s : Nat × List Nat) (o : PyObj) : Nat × List Nat :=
  if o.id ∈ s.2 then s else (s.1 + o.size, s.2 ++ [o.id])

/-- The loop of lines 241–244. -/
def countHead : List PyObj → Nat × List Nat → Except PyErr (Nat × List Nat)
  | [], s => .ok s
  | o :: os, s =>
    if o.id ∈ s.2 then .error .assertionError else countHead os (s.1 + o.size, s.2 ++ [o.id])

/-- The loop of lines 246–253. The head of the list is the end of `stack`. -/
def countNodes : List ObjNode → Nat × List Nat → Nat × List Nat
  | [], s => s
  | n :: stack, s =>
    countNodes ((n.kids.map Prod.snd).reverse ++ stack) (n.objs.foldl countOnce s)
termination_by l => (l.map sizeOf).sum
decreasing_by
  obtain ⟨a, b, ks⟩ := n
  simp only [ObjNode.kids, List.map_cons, List.sum_cons, List.map_append, List.sum_append,
    List.map_reverse, List.sum_reverse, ObjNode.mk.sizeOf_spec]
  have h : ∀ l : List (PyObj × ObjNode), ((l.map Prod.snd).map sizeOf).sum < sizeOf l := by
    intro l
    induction l with
    | nil => simp
    | cons p l ih =>
      obtain ⟨x, y⟩ := p
      simp only [List.map_cons, List.sum_cons, List.cons.sizeOf_spec, Prod.mk.sizeOf_spec]
      omega
  have := h ks
  omega

/-- `trie.nbytes` (lines 232–255); `self`, `length`, `tokenizer` and `detokenizer` are the objects of
line 241. -/
def nbytes (self length tokenizer detokenizer : PyObj) (root : ObjNode) : Except PyErr Nat :=
  match countHead [self, length, tokenizer, detokenizer] (0, []) with
  | .error e => .error e
  | .ok s => .ok (countNodes [root] s).1

end Trie
end Verif
