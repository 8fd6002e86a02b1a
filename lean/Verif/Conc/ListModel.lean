import Verif.Index.History

/-!
# Several threads calling `add_word` of one `WordList` (nmd/nmd_index.py)

The class takes no locks. A call is a sequence of steps; a step reads or writes one of the lists and
dictionaries of the object, and whatever a thread computes in between from its own local variables
belongs to the step before. The steps of different threads are interleaved arbitrarily.

* `len` of a list or dictionary, `in`, `list.append`, a subscript, `dict.setdefault` with string keys and
  `set.add` of an integer are indivisible (single operations of the interpreter, made in C).
* `d.setdefault(g, []).append(x)` is two steps. The list that `setdefault` returned is appended to; it is
  the one found under `g` at any later time, because entries of these dictionaries are never replaced or
  removed.
* The order in which a `set` (of n-grams, of the sizes `n`) is enumerated is arbitrary: a parameter of each
  call.
-/

namespace Verif
namespace ListConc

/-- A call `add_word(word)` made by a thread (nmd/nmd_index.py:487), with the orders in which it enumerates
the sets at nmd/nmd_index.py:506 and 509. -/
structure Call where
  word : PyVal
  grams : List (List Char) → List (List Char)
  sizes : List ℤ → List ℤ

/-- What a thread does to the dictionaries of n-grams in one step. -/
inductive Act where
  /-- `self.__ngram_filter.setdefault(n_gram, set())`, nmd/nmd_index.py:507. -/
  | filterKey (g : List Char)
  /-- `.add(word_index)`, nmd/nmd_index.py:507. -/
  | filterAdd (g : List Char)
  /-- `self.__ngram_counts.setdefault(n_gram, [])`, nmd/nmd_index.py:521. -/
  | countKey (g : List Char)
  /-- `.append((word_index, len(locations)))`, nmd/nmd_index.py:521. -/
  | countAdd (g : List Char) (c : ℕ)
  /-- `self.__ngram_positions.setdefault(n_gram, [])`, nmd/nmd_index.py:522. -/
  | posKey (g : List Char)
  /-- `.append((word_index, tuple(locations)))`, nmd/nmd_index.py:522. -/
  | posAdd (g : List Char) (l : List ℚ)
deriving DecidableEq

/-- `d.setdefault(k, [])`, nmd/nmd_index.py:507, 521, 522. -/
def setDefault {κ ν : Type} [DecidableEq κ] (d : Dict κ (List ν)) (k : κ) : Dict κ (List ν) :=
  if Dict.has d k then d else Dict.set d k []

/-- The effect of a step (nmd/nmd_index.py:507, 521, 522) with this `word_index`. -/
def Act.run (idx : ℕ) (m : WL) : Act → WL
  | .filterKey g => { m with ngramFilter := setDefault m.ngramFilter g }
  | .filterAdd g => { m with ngramFilter := addToSet m.ngramFilter g idx }
  | .countKey g => { m with ngramCounts := setDefault m.ngramCounts g }
  | .countAdd g c => { m with ngramCounts := Dict.appendTo m.ngramCounts g (idx, c) }
  | .posKey g => { m with ngramPositions := setDefault m.ngramPositions g }
  | .posAdd g l => { m with ngramPositions := Dict.appendTo m.ngramPositions g (idx, l) }

/-- The loops of `add_word` after the index is known (nmd/nmd_index.py:505-522): the steps they consist
of. -/
def program (c : Call) (nList : List ℤ) (filterN : ℤ) (w : List Char) : List Act :=
  (if filterN ≠ 0 then
    (c.grams (getNGrams w filterN).dedup).flatMap fun g => [.filterKey g, .filterAdd g]
  else []) ++
  (c.sizes nList).flatMap fun n =>
    (addLocations (getNGrams w n)).flatMap fun it =>
      [.countKey it.1, .countAdd it.1 it.2.length, .posKey it.1, .posAdd it.1 it.2]

/-- Where a call is; `w` is the variable `word` of `add_word`, `i` the variable `_idx` of
`_resolve_word_index` or `word_index` (nmd/nmd_index.py:457-524). -/
inductive Pc where
  /-- Lines 488–500, with the test `word in self.__word_indices`. -/
  | enter
  /-- Lines 458–468, with the test `word in self.__word_indices`. -/
  | again (w : List Char)
  /-- Line 469: `self.__word_indices[word]`. -/
  | fetch (w : List Char)
  /-- Line 476: `len(self.__word_list)`. -/
  | measure (w : List Char)
  /-- Line 476: `self.__word_indices[word] = `. -/
  | setIndex (w : List Char) (i : ℕ)
  /-- Line 477. -/
  | pushWord (w : List Char) (i : ℕ)
  /-- Line 478. -/
  | pushLen (w : List Char) (i : ℕ)
  /-- Line 479. -/
  | pushNums (w : List Char) (i : ℕ)
  /-- Line 482: `len(self.__word_indices)`. -/
  | countKeys (w : List Char) (i : ℕ)
  /-- Line 482: `len(self.__word_list)` and the comparisons. -/
  | countWords (w : List Char) (i d : ℕ)
  /-- Line 483. -/
  | checkWord (w : List Char) (i : ℕ)
  /-- Line 484. -/
  | checkLen (w : List Char) (i : ℕ)
  /-- Lines 505–522: the steps that remain. -/
  | write (w : List Char) (i : ℕ) (acts : List Act)
  | done (r : Except PyErr Unit)
deriving DecidableEq

variable (cf : List Char → List Char)

/-- One step of `add_word`, nmd/nmd_index.py:457-524. -/
def step (c : Call) (m : WL) : Pc → WL × Pc
  | .enter =>
    match c.word with
    | .str w =>
      if w.length = 0 then (m, .done (.error .valueError))
      else if Dict.has m.wordIndices (m.fold cf w) then (m, .done (.ok ()))
      else if '\x02' ∈ m.fold cf w ∨ '\x03' ∈ m.fold cf w then (m, .done (.error .assertionError))
      else (m, .again (m.fold cf w))
    | _ => (m, .done (.error .typeError))
  | .again w =>
    if w.length = 0 then (m, .done (.error .valueError))
    else if Dict.has m.wordIndices (m.fold cf w) then (m, .fetch w)
    else (m, .measure w)
  | .fetch w =>
    match Dict.get? m.wordIndices (m.fold cf w) with
    | some i => (m, .write w i (program c m.nList m.filterN w))
    | none => (m, .done (.error .keyError))
  | .measure w => (m, .setIndex w m.wordList.length)
  | .setIndex w i =>
    ({ m with wordIndices := Dict.set m.wordIndices (m.fold cf w) i }, .pushWord w i)
  | .pushWord w i => ({ m with wordList := m.wordList ++ [m.fold cf w] }, .pushLen w i)
  | .pushLen w i => ({ m with wordLens := m.wordLens ++ [(m.fold cf w).length] }, .pushNums w i)
  | .pushNums w i =>
    ({ m with wordNumGrams := m.wordNumGrams ++ [m.nList.map (numGrams (m.fold cf w).length)] },
      .countKeys w i)
  | .countKeys w i => (m, .countWords w i m.wordIndices.length)
  | .countWords w i d =>
    if d = m.wordList.length ∧ m.wordList.length = i + 1 then (m, .checkWord w i)
    else (m, .done (.error .assertionError))
  | .checkWord w i =>
    match m.wordList[i]? with
    | some v => if v = m.fold cf w then (m, .checkLen w i) else (m, .done (.error .assertionError))
    | none => (m, .done (.error .indexError))
  | .checkLen w i =>
    match m.wordLens[i]? with
    | some l =>
      if l = (m.fold cf w).length then (m, .write w i (program c m.nList m.filterN w))
      else (m, .done (.error .assertionError))
    | none => (m, .done (.error .indexError))
  | .write w i (a :: acts) => (a.run i m, .write w i acts)
  | .write _ _ [] => (m, .done (.ok ()))
  | .done r => (m, .done r)

/-- All threads, numbered, each making one call, and the object they share. -/
structure Sys where
  mem : WL
  pc : ℕ → Pc

/-- The thread `i` makes a step of its call (nmd/nmd_index.py:457-524). -/
def Sys.step (C : ℕ → Call) (s : Sys) (i : ℕ) : Sys :=
  { mem := (ListConc.step cf (C i) s.mem (s.pc i)).1
    pc := fun j => if j = i then (ListConc.step cf (C i) s.mem (s.pc i)).2 else s.pc j }

/-- A schedule: which thread makes the next step. -/
def Sys.run (C : ℕ → Call) (s : Sys) (sched : List ℕ) : Sys := sched.foldl (Sys.step cf C) s

/-- No call has begun. -/
def Sys.start (st : WL) : Sys := ⟨st, fun _ => .enter⟩

end ListConc
end Verif
