import Verif.Py.Dict
import Verif.Py.Basic
import Mathlib.Data.List.Sort
import Mathlib.Data.List.Lex

/-!
# Model of the word graph (experiments/dawg.py)

* A character is an element of a linear order, a word is a list of characters; `<` on lists is the
  lexicographic order of Python strings.
* `DAWGNode` objects are identified by their `id`; the contents of all objects are a function from
  identifiers to `Node`. `NEXT_ID` is a class variable; here it belongs to the graph, which means that
  the identifiers of one graph are consecutive. Only their distinctness is used.
* `str(node)` (lines 44–50) lists the terminal flag and the sorted edges with the identifiers of
  their ends. It is used only as a key of `minimized_nodes`; the model uses the pair of the flag and
  the sorted edges as key. For labels that are characters the texts distinguish the same nodes
  (`C144_str_injective`).
* The recursive methods take the remaining recursion depth; `RecursionError` when it is used up.
* `__hash__`, `__eq__`, `clone` of a node are not used by the graph; see `Dawg/CloneModel`.
-/

namespace Verif
namespace Dawg

/-- `DAWGNode` (lines 16–27) without the identifier. -/
structure Node (α : Type) where
  terminal : Bool
  edges : Dict α ℕ
  leafCount : Option ℕ
  finalEdges : Option (List (α × ℕ))

/-- `DAWGNode()` (lines 16–27). -/
def Node.new {α : Type} : Node α := ⟨false, [], none, none⟩

/-- The contents of all node objects. -/
abbrev Heap (α : Type) := ℕ → Node α

/-- Assignment to an object. -/
def Heap.put {α : Type} (h : Heap α) (x : ℕ) (n : Node α) : Heap α := fun y => if y = x then n else h y

/-- `DAWG` (lines 91–102); `unchecked` is `unchecked_nodes`, last element first. -/
structure Graph (α δ : Type) where
  heap : Heap α
  nextId : ℕ
  previousWord : List α
  root : ℕ
  unchecked : List (ℕ × α × ℕ)
  minimized : Dict (Bool × List (α × ℕ)) ℕ
  data : List δ

variable {α δ : Type} [LinearOrder α]

/-- `sorted(self.edges.items())` (lines 37, 42, 47, 61): labels are distinct, so nodes are never
compared. -/
def sortEdges (e : Dict α ℕ) : List (α × ℕ) := e.insertionSort (fun a b => a.1 ≤ b.1)

/-- The content of `str(node)` (lines 44–50). -/
def Node.key (n : Node α) : Bool × List (α × ℕ) := (n.terminal, sortEdges n.edges)

/-- `DAWG()` (lines 91–102). -/
def Graph.new : Graph α δ := ⟨fun _ => Node.new, 1, [], 0, [], [], []⟩

/-- `node.edges[letter] = target`. -/
def Heap.link (h : Heap α) (node : ℕ) (letter : α) (target : ℕ) : Heap α :=
  h.put node { h node with edges := Dict.set (h node).edges letter target }

/-- One round of the loop of `minimize_unchecked` (lines 154–162); the list is not empty there. -/
def Graph.minimizeStep (g : Graph α δ) : Graph α δ :=
  match g.unchecked with
  | [] => g
  | (parent, letter, child) :: rest =>
    match Dict.get? g.minimized (g.heap child).key with
    | some m => { g with heap := g.heap.link parent letter m, unchecked := rest }
    | none => { g with minimized := Dict.set g.minimized (g.heap child).key child, unchecked := rest }

/-- `n` rounds of the loop. -/
def Graph.minimizeN : ℕ → Graph α δ → Graph α δ
  | 0, g => g
  | n + 1, g => Graph.minimizeN n g.minimizeStep

/-- `minimize_unchecked(prefix_len)` (lines 151–162). -/
def Graph.minimizeUnchecked (g : Graph α δ) (prefixLen : ℕ) : Graph α δ :=
  g.minimizeN (g.unchecked.length - prefixLen)

/-- The loop computing `common_prefix_len` (lines 111–116). -/
def commonPrefix : List α → List α → ℕ
  | i :: is, j :: js => if i = j then commonPrefix is js + 1 else 0
  | _, _ => 0

/-- `self.unchecked_nodes[-1][-1]` or the root (lines 126–129). -/
def Graph.top (g : Graph α δ) : ℕ :=
  match g.unchecked with
  | [] => g.root
  | (_, _, c) :: _ => c

/-- The loop adding the rest of the word (lines 132–136): the graph and the last `node`. -/
def Graph.addLetters : Graph α δ → ℕ → List α → Graph α δ × ℕ
  | g, node, [] => (g, node)
  | g, node, l :: ls =>
    Graph.addLetters
      { g with
        heap := (g.heap.put g.nextId Node.new).link node l g.nextId
        nextId := g.nextId + 1
        unchecked := (node, l, g.nextId) :: g.unchecked } g.nextId ls

/-- `insert(new_word, data)` (lines 104–142). -/
def Graph.insert (g : Graph α δ) (w : List α) (d : δ) : Except PyErr (Graph α δ) :=
  if g.previousWord < w then
    let cp := commonPrefix w g.previousWord
    let g := g.minimizeUnchecked cp
    let g := { g with data := g.data ++ [d] }
    let r := g.addLetters g.top (w.drop cp)
    let g := r.1
    .ok { g with
      heap := g.heap.put r.2 { g.heap r.2 with terminal := true }
      previousWord := w }
  else .error .assertionError

/-- `DAWGNode.finalize` (lines 29–42). -/
def finalizeNode : ℕ → Heap α → ℕ → Except PyErr (Heap α)
  | 0, _, _ => .error .recursionError
  | f + 1, h, x =>
    if (h x).leafCount.isSome then .ok h
    else do
      let h := h.put x { h x with leafCount := some (if (h x).terminal then 1 else 0) }
      let h ← (sortEdges (h x).edges).foldlM (fun h e => do
        let h ← finalizeNode f h e.2
        match (h x).leafCount, (h e.2).leafCount with
        | some n, some c => .ok (h.put x { h x with leafCount := some (n + c) })
        | _, _ => .error .typeError) h
      .ok (h.put x { h x with finalEdges := some (sortEdges (h x).edges) })

/-- `DAWG.finalize` (lines 144–149). -/
def Graph.finalize (limit : ℕ) (g : Graph α δ) : Except PyErr (Graph α δ) :=
  let g := g.minimizeUnchecked 0
  match finalizeNode limit g.heap g.root with
  | .error e => .error e
  | .ok h => .ok { g with heap := h }

/-- `DAWGNode.__iter__` (lines 58–63). -/
def iterNode : ℕ → Heap α → ℕ → Except PyErr (List (List α))
  | 0, _, _ => .error .recursionError
  | f + 1, h, x => do
    let rest ← (sortEdges (h x).edges).mapM (fun e => do
      let ws ← iterNode f h e.2
      return ws.map (e.1 :: ·))
    return (if (h x).terminal then [[]] else []) ++ rest.flatten

/-- The loop of `DAWGNode.__getitem__` (lines 69–72); `rec` is the call for a child. -/
def getEdges (h : Heap α) (rec : ℕ → ℤ → Except PyErr (Option (List α))) :
    List (α × ℕ) → ℤ → Except PyErr (Option (List α))
  | [], _ => .ok none
  | (l, c) :: es, i =>
    match (h c).leafCount with
    | none => .error .typeError
    | some n =>
      if i < n then
        match rec c i with
        | .error e => .error e
        | .ok none => .error .typeError
        | .ok (some w) => .ok (some (l :: w))
      else getEdges h rec es (i - n)

/-- `DAWGNode.__getitem__` (lines 65–72). -/
def getNode : ℕ → Heap α → ℕ → ℤ → Except PyErr (Option (List α))
  | 0, _, _, _ => .error .recursionError
  | f + 1, h, x, i =>
    let i := i - (if (h x).terminal then 1 else 0)
    if i = -1 then .ok (some [])
    else
      match (h x).finalEdges with
      | none => .error .typeError
      | some es => getEdges h (getNode f h) es i

/-- The loop of `step` (lines 182–192): `none` when the character is not found. -/
def stepEdges (h : Heap α) (terminal : Bool) (c : α) :
    List (α × ℕ) → ℕ → Except PyErr (Option (ℕ × ℕ))
  | [], _ => .ok none
  | (l, y) :: es, skipped =>
    if c = l then .ok (some (skipped + (if terminal then 1 else 0), y))
    else
      match (h y).leafCount with
      | none => .error .typeError
      | some n => stepEdges h terminal c es (skipped + n)

/-- The loop of `index` (lines 164–175). -/
def indexLoop (h : Heap α) : List α → ℕ → ℕ → Except PyErr ℤ
  | [], skipped, x => .ok (if (h x).terminal then (skipped : ℤ) else -1)
  | c :: w, skipped, x =>
    match (h x).finalEdges with
    | none => .error .typeError
    | some es =>
      match stepEdges h (h x).terminal c es skipped with
      | .error e => .error e
      | .ok none => .ok (-1)
      | .ok (some (s, y)) => indexLoop h w s y

/-- `index(word)` (lines 164–175). -/
def Graph.index (g : Graph α δ) (w : List α) : Except PyErr ℤ := indexLoop g.heap w 0 g.root

/-- `lookup(word)` (lines 177–180). -/
def Graph.lookup (g : Graph α δ) (w : List α) : Except PyErr (Option δ) :=
  match g.index w with
  | .error e => .error e
  | .ok i =>
    if 0 ≤ i then
      match pyGet g.data i.toNat with
      | .error e => .error e
      | .ok d => .ok (some d)
    else .ok none

/-- `item in dawg` (lines 210–211). -/
def Graph.contains (g : Graph α δ) (w : List α) : Except PyErr Bool :=
  match g.index w with
  | .error e => .error e
  | .ok i => .ok (decide (0 ≤ i))

/-- `count_nodes()` (lines 194–195). -/
def Graph.countNodes (g : Graph α δ) : ℕ := g.minimized.length

/-- `count_edges()` (lines 197–201). -/
def Graph.countEdges (g : Graph α δ) : Except PyErr ℕ :=
  g.minimized.foldlM (fun n p =>
    match (g.heap p.2).finalEdges with
    | none => .error .typeError
    | some es => .ok (n + es.length)) 0

/-- `keys()`, `list(dawg)` (lines 203–205, 213–214). -/
def Graph.keys (limit : ℕ) (g : Graph α δ) : Except PyErr (List (List α)) := iterNode limit g.heap g.root

/-- `list(dawg.items())` (lines 216–217). -/
def Graph.items (limit : ℕ) (g : Graph α δ) : Except PyErr (List (List α × δ)) :=
  match g.keys limit with
  | .error e => .error e
  | .ok ws => .ok (ws.zip g.data)

/-- `get_index(i)` (lines 222–224). -/
def Graph.getIndex (limit : ℕ) (g : Graph α δ) (i : ℤ) : Except PyErr (Option (List α)) :=
  if i < g.data.length then getNode limit g.heap g.root i else .error .assertionError

/-- A call of `insert` from outside; after an exception the graph is as before (the test comes
first). -/
def Graph.call (g : Graph α δ) (p : List α × δ) : Graph α δ :=
  match g.insert p.1 p.2 with
  | .ok g' => g'
  | .error _ => g

/-- A graph after some calls of `insert`. -/
def Graph.build (ps : List (List α × δ)) : Graph α δ := ps.foldl Graph.call Graph.new

end Dawg
end Verif
