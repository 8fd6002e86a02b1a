import Verif.Py.Dict

/-!
# Model of `deep_sizeof` (experiments/sizeof.py)

* Objects are numbers (their `id`); what the function asks of an object is given by `Obj`. Objects are
  taken to live and not to change during the call: objects created only by asking for them (elements
  of an iterator computed on the fly, computed attributes), whose `id` can be used again, are not
  modelled.
* The only exception modelled is the `AttributeError` of line 102.
* Sizes are natural numbers.
-/

namespace Verif
namespace Sizeof

/-- An attribute listed by `dir(item)` (lines 99–102). -/
structure Attr where
  /-- The name. -/
  name : List Char
  /-- The attribute of the class is a property, a type or callable (line 100). -/
  skipped : Bool
  /-- The value; `none` if `getattr(item, attr)` raises `AttributeError` (an unset slot, say). -/
  value : Option ℕ

/-- What `deep_sizeof` asks of an object. -/
structure Obj where
  /-- `item.nbytes`, if there and an `int` (lines 42–45). -/
  nbytes : Option ℕ
  /-- `item.memory_usage(index=True, deep=True)`, possibly summed, if there and an `int`
  (lines 54–60). -/
  memory : Option ℕ
  /-- `sys.getsizeof(item)` (line 67). -/
  own : ℕ
  /-- `isinstance(item, NOT_ITERABLE)` (line 70). -/
  atom : Bool
  /-- Keys and values, if the object is a mapping (lines 74–78). -/
  mapping : Option (List ℕ × List ℕ)
  /-- The elements, if the object has `__iter__` and `__getitem__` (lines 82–84). -/
  elements : Option (List ℕ)
  /-- Keys and values of `__dict__` (lines 87–91). -/
  dict : List ℕ × List ℕ
  /-- For each name in `__slots__` the value, `none` if unset (lines 94–96). -/
  slots : List (Option ℕ)
  /-- The attributes in `dir(item)` (line 99). -/
  attrs : List Attr

/-- Exception of line 102. -/
inductive AttributeError
  | mk
deriving DecidableEq, Repr

/-- All objects; `none` is the object `None` (line 96). -/
structure World where
  obj : ℕ → Obj
  noneId : ℕ

/-- `attr[:2] != '__' and attr[-2:] != '__'` (line 101). -/
def plainName (a : List Char) : Bool :=
  a.take 2 != ['_', '_'] && a.drop (a.length - 2) != ['_', '_']

/-- The local state: `sizes` and `stack`, the most recently added key first. -/
structure St where
  sizes : Dict ℕ ℕ
  stack : List ℕ

/-- `add_to_stack(thing)` (lines 30–32): a key already in the dictionary keeps its place. -/
def add (s : St) (thing : ℕ) : St :=
  if Dict.has s.sizes thing then s
  else { s with stack := if thing ∈ s.stack then s.stack else thing :: s.stack }

/-- `for key in l: add_to_stack(key)`. -/
def addAll (s : St) (l : List ℕ) : St := l.foldl add s

/-- One round of the last loop (lines 99–102). -/
def attrStep (s : St) (a : Attr) : Except AttributeError St :=
  if a.skipped then .ok s
  else if plainName a.name then
    match a.value with
    | none => .error .mk
    | some v => .ok (add s v)
  else .ok s

/-- Keys and values of a mapping (lines 74–78). -/
def addMapping (s : St) : Option (List ℕ × List ℕ) → St
  | none => s
  | some (ks, vs) => addAll (addAll s ks) vs

/-- Elements of something like a list (lines 82–84). -/
def addElements (s : St) : Option (List ℕ) → St
  | none => s
  | some es => addAll s es

/-- Lines 73–102: everything the item refers to is added. -/
def expand (W : World) (s : St) (o : Obj) : Except AttributeError St :=
  let s := addMapping s o.mapping
  let s := addElements s o.elements
  let s := addAll (addAll s o.dict.1) o.dict.2
  let s := addAll s (o.slots.map fun v => v.getD W.noneId)
  o.attrs.foldlM attrStep s

/-- The loop (lines 34–102), at most `f` rounds; `none` if that is not enough. -/
def loop (W : World) : ℕ → St → Option (Except AttributeError (Dict ℕ ℕ))
  | 0, s => if s.stack = [] then some (.ok s.sizes) else none
  | f + 1, s =>
    match s.stack with
    | [] => some (.ok s.sizes)
    | x :: stack =>
      let s := { s with stack := stack }
      if Dict.has s.sizes x then loop W f s
      else
        let o := W.obj x
        match o.nbytes with
        | some n => loop W f { s with sizes := Dict.set s.sizes x n }
        | none =>
          match o.memory with
          | some n => loop W f { s with sizes := Dict.set s.sizes x n }
          | none =>
            let s := { s with sizes := Dict.set s.sizes x o.own }
            if o.atom then loop W f s
            else
              match expand W s o with
              | .error e => some (.error e)
              | .ok s => loop W f s

/-- `deep_sizeof(obj)` (lines 26–104) in at most `f` rounds. -/
def deepSizeof (W : World) (f : ℕ) (x : ℕ) : Option (Except AttributeError ℕ) :=
  (loop W f ⟨[], [x]⟩).map fun r => r.map fun sizes => (Dict.values sizes).sum

end Sizeof
end Verif
