import Verif.Dawg.TextModel

/-!
# Model of the original word graph (experiments/dawg-orig.py)

* Words are lists of characters. Node objects are identified by `id` as in `Verif.Dawg.Model`.
* `minimizedNodes` is a dictionary whose keys are the nodes themselves, compared by `__hash__` and
  `__eq__` (lines 48–52), that is, by their texts. A dictionary keeps the hash a key had when it was
  added, and compares keys with `==` at the time of the search; the model does so with an arbitrary
  function `hash` on texts. If several keys qualify, the model takes the oldest.
* The recursive `numReachable` takes the remaining recursion depth.
* The script at the end of the file (lines 174–208) is not modelled.
-/

namespace Verif
namespace Dawg

/-- `DawgNode` (lines 26–33) without the identifier. -/
structure ONode where
  final : Bool
  edges : Dict Char ℕ
  count : ℕ

/-- `DawgNode()` (lines 26–33). -/
def ONode.new : ONode := ⟨false, [], 0⟩

/-- `DawgNode.__str__` (lines 35–46). -/
def ONode.text (n : ONode) : List Char := origText n.final n.edges

/-- The contents of all node objects. -/
abbrev OHeap := ℕ → ONode

/-- Assignment to an object. -/
def OHeap.put (h : OHeap) (x : ℕ) (n : ONode) : OHeap := fun y => if y = x then n else h y

/-- `node.edges[letter] = target`. -/
def OHeap.link (h : OHeap) (node : ℕ) (letter : Char) (target : ℕ) : OHeap :=
  h.put node { h node with edges := Dict.set (h node).edges letter target }

/-- `Dawg` (lines 70–82); `unchecked` is `uncheckedNodes`, last element first; `minimized` lists the
keys of `minimizedNodes` with the hashes stored (every key is its own value). -/
structure OGraph (δ : Type) where
  heap : OHeap
  nextId : ℕ
  previousWord : List Char
  root : ℕ
  unchecked : List (ℕ × Char × ℕ)
  minimized : List (ℤ × ℕ)
  data : List δ

variable {δ : Type} (hash : List Char → ℤ)

/-- `Dawg()` (lines 70–82). -/
def OGraph.new : OGraph δ := ⟨fun _ => ONode.new, 1, [], 0, [], [], []⟩

/-- The key of `minimizedNodes` equal to `child`: same stored hash, and the same object or `==`. -/
def OGraph.find (g : OGraph δ) (child : ℕ) : Option ℕ :=
  (g.minimized.find? fun p => decide (p.1 = hash (g.heap child).text ∧
    (p.2 = child ∨ (g.heap p.2).text = (g.heap child).text))).map Prod.snd

/-- One round of the loop of `_minimize` (lines 128–135). The index runs down from the last element
and the last element is removed in each round, so that the element looked at is the last one. -/
def OGraph.minimizeStep (g : OGraph δ) : OGraph δ :=
  match g.unchecked with
  | [] => g
  | (parent, letter, child) :: rest =>
    match g.find hash child with
    | some m => { g with heap := g.heap.link parent letter m, unchecked := rest }
    | none => { g with
        minimized := g.minimized ++ [(hash (g.heap child).text, child)], unchecked := rest }

/-- `n` rounds of the loop. -/
def OGraph.minimizeN : ℕ → OGraph δ → OGraph δ
  | 0, g => g
  | n + 1, g => OGraph.minimizeN n (g.minimizeStep hash)

/-- `_minimize(downTo)` (lines 125–135). -/
def OGraph.minimize (g : OGraph δ) (downTo : ℕ) : OGraph δ :=
  g.minimizeN hash (g.unchecked.length - downTo)

/-- The loop computing `commonPrefix` (lines 90–93), with the index turned into a walk along both
words. -/
def origCommon : List Char → List Char → ℕ
  | i :: is, j :: js => if i ≠ j then 0 else origCommon is js + 1
  | _, _ => 0

/-- The node to continue from (lines 104–107). -/
def OGraph.top (g : OGraph δ) : ℕ :=
  match g.unchecked with
  | [] => g.root
  | (_, _, c) :: _ => c

/-- The loop adding the suffix (lines 109–113): the graph and the last `node`. -/
def OGraph.addLetters : OGraph δ → ℕ → List Char → OGraph δ × ℕ
  | g, node, [] => (g, node)
  | g, node, l :: ls =>
    OGraph.addLetters
      { g with
        heap := (g.heap.put g.nextId ONode.new).link node l g.nextId
        nextId := g.nextId + 1
        unchecked := (node, l, g.nextId) :: g.unchecked } g.nextId ls

/-- `insert(word, data)` (lines 84–116); `none` is the `Exception` of line 86. -/
def OGraph.insert (g : OGraph δ) (w : List Char) (d : δ) : Option (OGraph δ) :=
  if w ≤ g.previousWord then none
  else
    let cp := origCommon w g.previousWord
    let g := g.minimize hash cp
    let g := { g with data := g.data ++ [d] }
    let r := g.addLetters g.top (w.drop cp)
    let g := r.1
    some { g with
      heap := g.heap.put r.2 { g.heap r.2 with final := true }
      previousWord := w }

/-- `DawgNode.numReachable` (lines 54–66): the heap and the number returned. -/
def numReachable : ℕ → OHeap → ℕ → Except PyErr (OHeap × ℕ)
  | 0, _, _ => .error .recursionError
  | f + 1, h, x =>
    if (h x).count ≠ 0 then .ok (h, (h x).count)
    else do
      let r ← (h x).edges.foldlM (fun r e => do
        let r' ← numReachable f r.1 e.2
        return (r'.1, r.2 + r'.2)) (h, if (h x).final then 1 else 0)
      return (r.1.put x { r.1 x with count := r.2 }, r.2)

/-- `finish()` (lines 118–123). -/
def OGraph.finish (limit : ℕ) (g : OGraph δ) : Except PyErr (OGraph δ) :=
  let g := g.minimize hash 0
  match numReachable limit g.heap g.root with
  | .error e => .error e
  | .ok r => .ok { g with heap := r.1 }

/-- The inner loop of `lookup` (lines 142–147) over the sorted edges: the number of words skipped and
the child. The label is there (line 141), so that the loop ends with `break`. -/
def origStep (h : OHeap) (final : Bool) (c : Char) : List (Char × ℕ) → ℕ → Option (ℕ × ℕ)
  | [], _ => none
  | (l, y) :: es, skipped =>
    if l = c then some (skipped + (if final then 1 else 0), y)
    else origStep h final c es (skipped + (h y).count)

/-- `lookup(word)` (lines 137–150) from a node on, `skipped` words so far. -/
def OGraph.lookupFrom (g : OGraph δ) : List Char → ℕ → ℕ → Except PyErr (Option δ)
  | [], skipped, x =>
    if (g.heap x).final then
      match pyGet g.data skipped with
      | .error e => .error e
      | .ok d => .ok (some d)
    else .ok none
  | c :: w, skipped, x =>
    if Dict.has (g.heap x).edges c then
      match origStep g.heap (g.heap x).final c (sortEdges (g.heap x).edges) skipped with
      | none => .ok none
      | some (s, y) => g.lookupFrom w s y
    else .ok none

/-- `lookup(word)` (lines 137–150). -/
def OGraph.lookup (g : OGraph δ) (w : List Char) : Except PyErr (Option δ) :=
  g.lookupFrom w 0 g.root

/-- `nodeCount()` (lines 152–153). -/
def OGraph.nodeCount (g : OGraph δ) : ℕ := g.minimized.length

/-- `edgeCount()` (lines 155–159). -/
def OGraph.edgeCount (g : OGraph δ) : ℕ :=
  g.minimized.foldl (fun n p => n + (g.heap p.2).edges.length) 0

/-- What `display` prints for a node (lines 168–170). -/
def nodeLines (h : OHeap) (x : ℕ) : List (List Char) :=
  (File.digits x ++ ": (".toList ++ (h x).text ++ ")".toList) ::
    (h x).edges.map fun e => "    ".toList ++ [e.1] ++ " goto ".toList ++ File.digits e.2

/-- The loop of `display` (lines 164–171), at most `f` rounds: the lines printed. The stack is listed
with its last element first. -/
def displayLoop (h : OHeap) : ℕ → List ℕ → List ℕ → Option (List (List Char))
  | _, [], _ => some []
  | 0, _ :: _, _ => none
  | f + 1, x :: stack, done =>
    if x ∈ done then displayLoop h f stack done
    else
      (displayLoop h f (((h x).edges.map Prod.snd).reverse ++ stack) (x :: done)).map
        (nodeLines h x ++ ·)

/-- `display()` (lines 161–171) in at most `f` rounds. -/
def OGraph.display (g : OGraph δ) (f : ℕ) : Option (List (List Char)) :=
  displayLoop g.heap f [g.root] []

/-- A call of `insert` from outside; after an exception the graph is as before. -/
def OGraph.call (g : OGraph δ) (p : List Char × δ) : OGraph δ :=
  match g.insert hash p.1 p.2 with
  | some g' => g'
  | none => g

/-- A graph after some calls of `insert`. -/
def OGraph.build (ps : List (List Char × δ)) : OGraph δ := ps.foldl (OGraph.call hash) OGraph.new

end Dawg
end Verif
