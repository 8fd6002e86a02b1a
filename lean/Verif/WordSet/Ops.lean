import Verif.WordSet.Machine

/-!
# The operators that `WordSet` inherits from `collections.abc.MutableSet`

The class statement nmd/nmd_word_set.py:55 inherits `<=`, `<`, `>=`, `>`, `isdisjoint`, `&`, `|`,
`-`, `^` and the in-place forms from `collections.abc`. They are written in terms of `in`, `len`,
iteration, `add`, `discard`, `clear` and `_from_iterable(it) = WordSet(it)`.
-/

namespace Verif

open WordSetSpec

/-- Another set, as the comparison operators see it: its elements in iteration order and its `in`. -/
structure OtherSet where
  elems : List PyVal
  has : PyVal → Except PyErr Bool

/-- A `WordSet` as the other operand (nmd/nmd_word_set.py:261-274). -/
def WS.asOther (cf : List Char → List Char) (un : Normalizer) (st : WS) : OtherSet :=
  ⟨st.iter.map .str, st.contains cf un⟩

/-- A Python `set` of strings as the other operand. -/
def plainSet (ws : List (List Char)) : OtherSet :=
  ⟨ws.map .str, fun v => .ok (decide (v ∈ ws.map PyVal.str))⟩

/-- `for x in xs: if x not in other: return False` … `return True`. -/
def allIn (f : PyVal → Except PyErr Bool) : List PyVal → Except PyErr Bool
  | [] => .ok true
  | v :: vs =>
    match f v with
    | .error e => .error e
    | .ok false => .ok false
    | .ok true => allIn f vs

/-- `for x in xs: if x in other: return False` … `return True`. -/
def noneIn (f : PyVal → Except PyErr Bool) : List PyVal → Except PyErr Bool
  | [] => .ok true
  | v :: vs =>
    match f v with
    | .error e => .error e
    | .ok true => .ok false
    | .ok false => noneIn f vs

/-- `ws <= other`: `Set.__le__`, inherited (nmd/nmd_word_set.py:55). -/
def WS.leOther (st : WS) (o : OtherSet) : Except PyErr Bool :=
  if st.len > o.elems.length then .ok false else allIn o.has (st.iter.map .str)

/-- `ws < other`: `Set.__lt__`, inherited (nmd/nmd_word_set.py:55). -/
def WS.ltOther (st : WS) (o : OtherSet) : Except PyErr Bool :=
  if st.len < o.elems.length then st.leOther o else .ok false

/-- `ws >= other`: `Set.__ge__`, inherited (nmd/nmd_word_set.py:55). -/
def WS.geOther (cf : List Char → List Char) (un : Normalizer) (st : WS) (o : OtherSet) :
    Except PyErr Bool :=
  if st.len < o.elems.length then .ok false else allIn (st.contains cf un) o.elems

/-- `ws > other`: `Set.__gt__`, inherited (nmd/nmd_word_set.py:55). -/
def WS.gtOther (cf : List Char → List Char) (un : Normalizer) (st : WS) (o : OtherSet) :
    Except PyErr Bool :=
  if st.len > o.elems.length then st.geOther cf un o else .ok false

/-- `ws.isdisjoint(other)`: `Set.isdisjoint`, inherited (nmd/nmd_word_set.py:55). -/
def WS.isdisjoint (cf : List Char → List Char) (un : Normalizer) (st : WS) (o : OtherSet) :
    Except PyErr Bool := noneIn (st.contains cf un) o.elems

/-- The right-hand side of an operator: the set itself, an instance of `collections.abc.Set`,
another iterable, or anything else. -/
inductive SetArg where
  | self
  | set (vs : List PyVal)
  | iterable (vs : List PyVal)
  | other

/-- `WordSet._from_iterable(it)`: the constructor takes keyword arguments only
(nmd/nmd_word_set.py:71-72), so `cls(it)` raises `TypeError`. -/
def WS.fromIterable (_ : List PyVal) : Except PyErr WS := .error .typeError

/-- The elements of an operand. -/
def WS.argElems (st : WS) : SetArg → List PyVal
  | .self => st.iter.map .str
  | .set vs => vs
  | .iterable vs => vs
  | .other => []

/-- `ws & other`, `Set.__and__` (nmd/nmd_word_set.py:55): the generator is handed to the
constructor before it is run. -/
def WS.and (st : WS) : SetArg → Except PyErr WS
  | .other => .error .typeError
  | a => WS.fromIterable (st.argElems a)

/-- `ws | other`, `Set.__or__` (nmd/nmd_word_set.py:55). -/
def WS.or (st : WS) : SetArg → Except PyErr WS
  | .other => .error .typeError
  | a => WS.fromIterable (st.iter.map .str ++ st.argElems a)

/-- `ws - other`, `Set.__sub__` (nmd/nmd_word_set.py:55). -/
def WS.sub (st : WS) : SetArg → Except PyErr WS
  | .other => .error .typeError
  | .iterable vs =>
    match WS.fromIterable vs with
    | .error e => .error e
    | .ok _ => WS.fromIterable (st.iter.map .str)
  | _ => WS.fromIterable (st.iter.map .str)

/-- `ws ^ other`, `Set.__xor__` (nmd/nmd_word_set.py:55): `(self - other) | (other - self)`; the
first difference is evaluated first. -/
def WS.xor (st : WS) : SetArg → Except PyErr WS
  | .other => .error .typeError
  | .iterable vs =>
    match WS.fromIterable vs with
    | .error e => .error e
    | .ok _ => st.sub (.set vs)
  | a => st.sub a

/-- `ws &= other`, `MutableSet.__iand__` (nmd/nmd_word_set.py:55): discards the elements of
`self - it`. -/
def WS.iand (cf : List Char → List Char) (un : Normalizer) (st : WS) (a : SetArg) :
    WS × Except PyErr Unit :=
  match st.sub a with
  | .error e => (st, .error e)
  | .ok d => WS.forEach (WS.discard cf un) st (d.iter.map .str)

/-- One round of `^=`. -/
def WS.toggle (cf : List Char → List Char) (un : Normalizer) (st : WS) (v : PyVal) :
    WS × Except PyErr Unit :=
  match st.contains cf un v with
  | .error e => (st, .error e)
  | .ok true => st.discard cf un v
  | .ok false => st.add cf un v

/-- `ws ^= other`, `MutableSet.__ixor__` (nmd/nmd_word_set.py:55). -/
def WS.ixor (cf : List Char → List Char) (un : Normalizer) (st : WS) (a : SetArg) :
    WS × Except PyErr Unit :=
  match a with
  | .self => (st.clear, .ok ())
  | .set vs => WS.forEach (WS.toggle cf un) st vs
  | .iterable vs =>
    match WS.fromIterable vs with
    | .error e => (st, .error e)
    | .ok d => WS.forEach (WS.toggle cf un) st (d.iter.map .str)
  | .other => (st, .error .typeError)

/-- `ws |= other`, `MutableSet.__ior__` (nmd/nmd_word_set.py:55), for every kind of operand. -/
def WS.iorArg (cf : List Char → List Char) (un : Normalizer) (st : WS) (a : SetArg) :
    WS × Except PyErr Unit :=
  match a with
  | .other => (st, .error .typeError)
  | a => st.ior cf un (st.argElems a)

/-- `ws -= other`, `MutableSet.__isub__` (nmd/nmd_word_set.py:55), for every kind of operand. -/
def WS.isubArg (cf : List Char → List Char) (un : Normalizer) (st : WS) (a : SetArg) :
    WS × Except PyErr Unit :=
  match a with
  | .self => (st.clear, .ok ())
  | .other => (st, .error .typeError)
  | a => st.isub cf un (st.argElems a)

end Verif
