import Verif.Py.Basic
import Verif.Py.Dict

/-!
# Model of `Trie` as a mapping (experiments/find_replace_trie.py, lines 141–408, 581–605)

Simplifications, all of them listed in DESIGN.md:

* The type of keys `κ`, the tokenizer `tok : κ → List τ` and the detokenizer
  `detok : List τ → κ` are parameters, as they are constructor arguments in the code
  (lines 182–228). Tokens need only decidable equality (they are `dict` keys).
* The sentinel `_NOTHING` is `none`; storing the sentinel itself as a value is not modelled.
* The nodes form a tree that is never shared, so in-place mutation is modelled by rebuilding the
  path. Mutating the trie while a generator over it is suspended is not modelled.
* Slices as keys (lines 294–305, 383–385) are modelled in `Verif.Trie.Sort`.
-/

namespace Verif
namespace Trie

/-- `Trie.Node` (find_replace_trie.py 157–165): a `dict` of children in insertion order together
with the slot `REPLACEMENT`, whose `_NOTHING` is `none`. -/
inductive Node (τ ν : Type) where
  | mk (val : Option ν) (kids : List (τ × Node τ ν))

namespace Node

variable {τ ν : Type}

/-- `node.REPLACEMENT` (line 158). -/
def val : Node τ ν → Option ν
  | mk v _ => v

/-- The items of the node as a `dict` (line 157). -/
def kids : Node τ ν → Dict τ (Node τ ν)
  | mk _ ks => ks

/-- `Node()` (lines 161–164). -/
def empty : Node τ ν := mk none []

variable [DecidableEq τ]

/-- Following the tokens of a key from a node, as in lines 283–287, 306–310 and 354–358: `none`
when some token is not a child. -/
def walk : Node τ ν → List τ → Option (Node τ ν)
  | n, [] => some n
  | n, t :: ts => (Dict.get? n.kids t).bind (walk · ts)

/-- The value found at the end of the path, `none` both for a missing child and for `_NOTHING`. -/
def get (n : Node τ ν) (ts : List τ) : Option ν := (walk n ts).bind val

/-- `for token in …: head = head.setdefault(token, Node())` followed by
`head.REPLACEMENT = value` (lines 332–337): existing children keep their place, new ones are
appended. -/
def put (v : ν) : Node τ ν → List τ → Node τ ν
  | n, [] => mk (some v) n.kids
  | n, t :: ts => mk n.val (Dict.set n.kids t (put v ((Dict.get? n.kids t).getD empty) ts))

/-- Lines 350–377 of `pop` below the node: `none` when line 356 or line 362 raises `KeyError`;
otherwise the erased value, the new node and whether the loop of lines 371–377 is still running
when it reaches this node, that is, whether its parent still has to test
`len(head[prev_token]) == 0`. -/
def remove : Node τ ν → List τ → Option (ν × Node τ ν × Bool)
  | mk v ks, [] =>
    match v with
    | none => none
    | some x => some (x, mk none ks, true)
  | mk v ks, t :: ts =>
    match Dict.get? ks t with
    | none => none
    | some c =>
      match remove c ts with
      | none => none
      | some (x, c', running) =>
        if running && c'.kids.isEmpty then
          -- lines 372–374, then 376–377
          some (x, mk v (Dict.erase ks t), v.isNone)
        else
          -- the loop was left at line 375 or 377
          some (x, mk v (Dict.set ks t c'), false)

/-- Weight used for the termination of the stack machine of `items`. -/
def weight : Node τ ν → Nat
  | mk _ ks => 2 + (ks.attach.map (fun p => weight p.1.2)).sum
decreasing_by
  rename_i v
  obtain ⟨⟨k, c⟩, h⟩ := p
  have h1 := List.sizeOf_lt_of_mem h
  have h2 : sizeOf (k, c) = 1 + sizeOf k + sizeOf c := rfl
  have h3 : sizeOf (mk v ks) = 1 + sizeOf v + sizeOf ks := by simp
  simp only at *
  omega

end Node

/-- Weight of one stack frame of `items`. -/
def frameWeight {τ ν : Type} (f : List (τ × Node τ ν)) : Nat :=
  1 + (f.map (fun p => p.2.weight)).sum

theorem Node.weight_eq {τ ν : Type} (n : Node τ ν) :
    n.weight = 1 + frameWeight n.kids := by
  cases n with
  | mk v ks =>
    simp only [Node.weight]
    have h : ks.attach.map (fun p => p.1.2.weight) = ks.map (fun p => p.2.weight) := by
      rw [List.attach_map_val (f := fun p : τ × Node τ ν => p.2.weight)]
    rw [h]
    simp only [frameWeight, Node.kids]
    omega

theorem frameWeight_reverse {τ ν : Type} (f : List (τ × Node τ ν)) :
    frameWeight f.reverse = frameWeight f := by
  simp [frameWeight, List.sum_reverse]

section
variable {τ ν : Type}

/-- The loop of `items` (lines 395–408). A frame of `_stack` is the list of the remaining
children, the one that `keys.pop(-1)` takes next being first; `head[key]` of line 400 is the child
stored next to its key. The assertion of line 408 cannot fail, as `_stack` is one longer than
`_path` throughout. `path` is `_path`; the yielded keys are given as token paths. -/
def itemsLoop (path : List τ) (stack : List (List (τ × Node τ ν))) : List (List τ × ν) :=
  match stack with
  | [] => []
  | [] :: stack => itemsLoop path.dropLast stack
  | ((k, c) :: rest) :: stack =>
    let path := path ++ [k]
    let out := match c.val with
      | none => []
      | some v => [(path, v)]
    out ++ itemsLoop path (c.kids.reverse :: rest :: stack)
termination_by (stack.map frameWeight).sum
decreasing_by
  · simp [frameWeight]
  · have h := Node.weight_eq c
    simp only [List.map_cons, List.sum_cons, frameWeight_reverse]
    simp only [frameWeight, List.map_cons, List.sum_cons] at *
    omega

/-- `items()` (lines 391–408) before detokenization of the keys. -/
def Node.items (n : Node τ ν) : List (List τ × ν) := itemsLoop [] [n.kids.reverse]

end

end Trie

/-- The state of a `Trie` (line 142): root and number of keys. -/
structure Trie (τ ν : Type) where
  root : Trie.Node τ ν
  length : Int

namespace Trie

variable {κ τ ν : Type} [DecidableEq τ]

/-- `Trie()` (lines 195–196). -/
def new : Trie τ ν := ⟨Node.empty, 0⟩

/-- `key in trie` (`__contains__`, lines 282–288). -/
def contains (tok : κ → List τ) (t : Trie τ ν) (key : κ) : Bool :=
  match t.root.walk (tok key) with
  | none => false
  | some head => head.val.isSome

/-- `trie[key]` (`__getitem__`, lines 306–313). -/
def getItem (tok : κ → List τ) (t : Trie τ ν) (key : κ) : Except PyErr ν :=
  match t.root.walk (tok key) with
  | none => .error .keyError
  | some head =>
    match head.val with
    | none => .error .keyError
    | some v => .ok v

/-- `trie.get(key)` (lines 315–319), with default `None`. -/
def getD (tok : κ → List τ) (t : Trie τ ν) (key : κ) : Option ν :=
  match getItem tok t key with
  | .ok v => some v
  | .error _ => none

/-- `trie[key] = value` (`__setitem__`, lines 331–338). -/
def setItem (tok : κ → List τ) (t : Trie τ ν) (key : κ) (v : ν) : Trie τ ν :=
  ⟨t.root.put v (tok key),
   if (t.root.get (tok key)).isNone then t.length + 1 else t.length⟩

/-- `trie.setdefault(key, value)` (lines 321–329). The nodes created by line 324 when the value is
present already are none, as the whole path exists. -/
def setDefault (tok : κ → List τ) (t : Trie τ ν) (key : κ) (v : ν) : Trie τ ν × ν :=
  match t.root.get (tok key) with
  | some old => (t, old)
  | none => (⟨t.root.put v (tok key), t.length + 1⟩, v)

/-- `trie.pop(key)` for a key that is not `None` (lines 340–380). -/
def pop (tok : κ → List τ) (t : Trie τ ν) (key : κ) : Except PyErr (Trie τ ν × κ × ν) :=
  if t.root.kids.isEmpty then .error .keyError            -- lines 342–343
  else
    match t.root.remove (tok key) with
    | none => .error .keyError                            -- lines 356, 362
    | some (v, root, _) => .ok (⟨root, t.length - 1⟩, key, v)

/-- `items()` (lines 391–408). -/
def items (detok : List τ → κ) (t : Trie τ ν) : List (κ × ν) :=
  t.root.items.map (fun p => (detok p.1, p.2))

/-- `trie.pop()` (lines 340–380 with `key=None`). The `next` of line 347 raises `StopIteration`
when `items()` yields nothing, shown here as `none` of the inner list; this is unreachable. -/
def popFirst (tok : κ → List τ) (detok : List τ → κ) (t : Trie τ ν) :
    Except PyErr (Trie τ ν × κ × ν) :=
  if t.root.kids.isEmpty then .error .keyError
  else
    match items detok t with
    | [] => .error .indexError                            -- `StopIteration`
    | (key, _) :: _ => pop tok t key

/-- `del trie[key]` for a key that is neither `None` nor a slice (lines 382–389). -/
def delItem (tok : κ → List τ) (t : Trie τ ν) (key : κ) : Except PyErr (Trie τ ν) :=
  match pop tok t key with
  | .error e => .error e
  | .ok (t', _, _) => .ok t'

/-- `len(trie)` (`__len__`, lines 290–292). -/
def len (t : Trie τ ν) : Except PyErr Int :=
  if t.length = (t.root.items.length : Int) then .ok t.length else .error .assertionError

/-- `keys()` (lines 581–583). -/
def keys (detok : List τ → κ) (t : Trie τ ν) : List κ := (items detok t).map Prod.fst

/-- `values()` (lines 585–587). -/
def values (detok : List τ → κ) (t : Trie τ ν) : List ν := (items detok t).map Prod.snd

/-- `update(replacements)` (lines 589–605) without the progress output. -/
def update (tok : κ → List τ) (t : Trie τ ν) (rs : List (κ × ν)) : Trie τ ν :=
  rs.foldl (fun t p => setItem tok t p.1 p.2) t

/-- `Trie(replacements)` (lines 195–231). -/
def ofPairs (tok : κ → List τ) (rs : List (κ × ν)) : Trie τ ν := update tok new rs

end Trie
end Verif
