import Verif.Dawg.TextModel

/-!
# `clone`, `__eq__` and `__hash__` of a node (experiments/dawg.py)

The graph itself never calls them. `hash` stands for the hash function of strings.
-/

namespace Verif
namespace Dawg

/-- `DAWGNode.clone` (experiments/dawg.py lines 74–83) of the object `x`: the graph with the new object, and
its identifier. The graph provides the counter `NEXT_ID` and the contents of the objects, and is not
changed otherwise. -/
def Graph.clone {α δ : Type} [LinearOrder α] (g : Graph α δ) (x : ℕ) : Except PyErr (Graph α δ × ℕ) :=
  if (g.heap x).leafCount.isSome then .error .assertionError
  else if (g.heap x).finalEdges.isSome then .error .assertionError
  else
    let new : Node α := { Node.new with terminal := (g.heap x).terminal }
    let new := (g.heap x).edges.foldl (fun n p => { n with edges := Dict.set n.edges p.1 p.2 }) new
    .ok ({ g with heap := g.heap.put g.nextId new, nextId := g.nextId + 1 }, g.nextId)

/-- `DAWGNode.__eq__` (experiments/dawg.py lines 55–56). -/
def Node.eq (printable : Char → Bool) (n n' : Node Char) : Bool :=
  decide (n.text printable = n'.text printable)

/-- `DAWGNode.__hash__` (experiments/dawg.py lines 52–53). -/
def Node.hash (hash : List Char → ℤ) (printable : Char → Bool) (n : Node Char) : ℤ :=
  hash (n.text printable)

end Dawg
end Verif
