import Verif.WordSet.Machine

/-!
# Several threads using one `WordSet` (nmd/nmd_word_set.py)

The class takes no locks. A call is a sequence of steps; a step reads or writes one attribute,
dictionary or bitmap, and whatever a thread computes in between from its own local variables belongs
to the step before. The steps of different threads are interleaved arbitrarily.

* Operations on one dictionary with `str` or `int` keys and on one `BitMap` are indivisible (they are
  single operations of the interpreter, made in C).
* `BitMap` objects have an identity here: `index` refers to them by number, and a thread may hold a
  bitmap that is no longer in the index.
* The order in which a `set` of n-grams is enumerated is arbitrary: `ord`, a parameter of each call.
* Iterating over `_word_info.keys()` keeps the size of the dictionary and a position, and raises
  `RuntimeError` if the size has changed. The position is that of the item, which is what CPython
  does as long as nothing is removed.
-/

namespace Verif
namespace Conc

/-- Exceptions: those of `Verif.Py`, and the `RuntimeError` of a dictionary changed during
iteration (raised at nmd/nmd_word_set.py:367). -/
inductive Err where
  | py (e : PyErr)
  | runtimeError
deriving DecidableEq

/-- The attributes of a `WordSet` (nmd/nmd_word_set.py:92-132): `index` is `_filter_index`, whose values are
bitmap objects; `maps` lists the contents of all bitmap objects ever created. -/
structure Shared where
  caseSensitive : Bool
  nList : List ℤ
  filterN : Option ℤ
  vocab : Dict (List Char) ℕ
  originals : Dict ℕ (List Char)
  counter : ℕ
  info : Dict ℕ WordInfo
  index : Dict (List Char) ℕ
  maps : List (List ℕ)
deriving DecidableEq

/-- The contents of a bitmap object. -/
def Shared.ids (m : Shared) (a : ℕ) : List ℕ := (m.maps[a]?).getD []

/-- The attributes with the bitmaps written in place of the references: the state as
`Verif.WordSet.Model` has it (nmd/nmd_word_set.py:92-132). -/
def Shared.view (m : Shared) : WS :=
  { caseSensitive := m.caseSensitive, nList := m.nList, filterN := m.filterN, vocab := m.vocab,
    originals := m.originals, counter := m.counter, info := m.info,
    filterIndex := m.index.map fun p => (p.1, m.ids p.2) }

/-- A state of `Verif.WordSet.Model` with an object for every bitmap (nmd/nmd_word_set.py:92-132). -/
def Shared.ofWS (st : WS) : Shared :=
  { caseSensitive := st.caseSensitive, nList := st.nList, filterN := st.filterN, vocab := st.vocab,
    originals := st.originals, counter := st.counter, info := st.info,
    index := st.filterIndex.zipIdx.map fun p => (p.1.1, p.2)
    maps := Dict.values st.filterIndex }

/-- Changing the contents of a bitmap object. -/
def Shared.modify (m : Shared) (a : ℕ) (f : List ℕ → List ℕ) : Shared :=
  { m with maps := m.maps.modify a f }

variable (cf : List Char → List Char) (un : Normalizer)

/-! ## `add` -/

/-- Where a call of `add` is (nmd/nmd_word_set.py:195-232). -/
inductive AddPc where
  /-- Lines 200–212, with the test `normalized_word in self._vocab_normalized_to_id`. -/
  | enter
  /-- Line 215: `word_id = self._word_id_counter`. -/
  | readId (w nw : List Char)
  /-- Line 216: reading the counter for `+= 1`. -/
  | readCounter (w nw : List Char) (id : ℕ)
  /-- Line 216: writing it. -/
  | writeCounter (w nw : List Char) (id c : ℕ)
  /-- Line 219. -/
  | setVocab (w nw : List Char) (id : ℕ)
  /-- Line 220. -/
  | setOriginal (w nw : List Char) (id : ℕ)
  /-- Lines 223–228. -/
  | setInfo (nw : List Char) (id : ℕ)
  /-- Lines 229–230: the loop, `gram not in self._filter_index`. -/
  | test (id : ℕ) (gs : List (List Char))
  /-- Line 231. -/
  | create (id : ℕ) (g : List Char) (gs : List (List Char))
  /-- Line 232: `self._filter_index[gram]`. -/
  | fetch (id : ℕ) (g : List Char) (gs : List (List Char))
  /-- Line 232: `.add(word_id)`. -/
  | put (id a : ℕ) (gs : List (List Char))
  | done (r : Except PyErr Unit)
deriving DecidableEq

/-- One step of `add(v)`, nmd/nmd_word_set.py:195-232. -/
def addStep (ord : List (List Char) → List (List Char)) (v : PyVal) (m : Shared) :
    AddPc → Shared × AddPc
  | .enter =>
    match v with
    | .str w =>
      if w = [] then (m, .done (.error .valueError))
      else
        match m.view.normalizeWord cf un w with
        | .error e => (m, .done (.error e))
        | .ok nw =>
          if nw = [] then (m, .done (.error .valueError))
          else if Dict.has m.vocab nw then (m, .done (.ok ()))
          else (m, .readId w nw)
    | _ => (m, .done (.error .typeError))
  | .readId w nw => (m, .readCounter w nw m.counter)
  | .readCounter w nw id => (m, .writeCounter w nw id m.counter)
  | .writeCounter w nw id c => ({ m with counter := c + 1 }, .setVocab w nw id)
  | .setVocab w nw id => ({ m with vocab := Dict.set m.vocab nw id }, .setOriginal w nw id)
  | .setOriginal w nw id => ({ m with originals := Dict.set m.originals id w }, .setInfo nw id)
  | .setInfo nw id =>
    let info := m.view.computeInfo nw
    ({ m with info := Dict.set m.info id info },
      if m.filterN.isSome then .test id (ord info.filterGrams) else .done (.ok ()))
  | .test _ [] => (m, .done (.ok ()))
  | .test id (g :: gs) => if Dict.has m.index g then (m, .fetch id g gs) else (m, .create id g gs)
  | .create id g gs =>
    ({ m with index := Dict.set m.index g m.maps.length, maps := m.maps ++ [[]] }, .fetch id g gs)
  | .fetch id g gs =>
    match Dict.get? m.index g with
    | none => (m, .done (.error .keyError))
    | some a => (m, .put id a gs)
  | .put id a gs => (m.modify a fun bm => if id ∈ bm then bm else bm ++ [id], .test id gs)
  | .done r => (m, .done r)

/-! ## `discard` -/

/-- Where a call of `discard` is (nmd/nmd_word_set.py:234-259). -/
inductive DiscardPc where
  /-- Lines 239–244, with the test `normalized_word not in self._vocab_normalized_to_id`. -/
  | enter
  /-- Line 247. -/
  | popVocab (nw : List Char)
  /-- Line 248. -/
  | delOriginal (id : ℕ)
  /-- Lines 249–253. -/
  | popInfo (id : ℕ)
  /-- Lines 254–255: the loop, `gram in self._filter_index`. -/
  | test (id : ℕ) (gs : List (List Char))
  /-- Line 256. -/
  | fetch (id : ℕ) (g : List Char) (gs : List (List Char))
  /-- Line 257. -/
  | drop (id a : ℕ) (g : List Char) (gs : List (List Char))
  /-- Line 258. -/
  | empty (id a : ℕ) (g : List Char) (gs : List (List Char))
  /-- Line 259. -/
  | del (id : ℕ) (g : List Char) (gs : List (List Char))
  | done (r : Except PyErr Unit)
deriving DecidableEq

/-- One step of `discard(v)`, nmd/nmd_word_set.py:234-259. -/
def discardStep (ord : List (List Char) → List (List Char)) (v : PyVal) (m : Shared) :
    DiscardPc → Shared × DiscardPc
  | .enter =>
    match v with
    | .str w =>
      match m.view.normalizeWord cf un w with
      | .error e => (m, .done (.error e))
      | .ok nw => if Dict.has m.vocab nw then (m, .popVocab nw) else (m, .done (.ok ()))
    | _ => (m, .done (.error .typeError))
  | .popVocab nw =>
    match Dict.get? m.vocab nw with
    | none => (m, .done (.error .keyError))
    | some id => ({ m with vocab := Dict.erase m.vocab nw }, .delOriginal id)
  | .delOriginal id =>
    if Dict.has m.originals id then
      ({ m with originals := Dict.erase m.originals id }, .popInfo id)
    else (m, .done (.error .keyError))
  | .popInfo id =>
    match Dict.get? m.info id with
    | none => (m, .done (.error .keyError))
    | some info =>
      ({ m with info := Dict.erase m.info id },
        if m.filterN.isSome then .test id (ord info.filterGrams) else .done (.ok ()))
  | .test _ [] => (m, .done (.ok ()))
  | .test id (g :: gs) => if Dict.has m.index g then (m, .fetch id g gs) else (m, .test id gs)
  | .fetch id g gs =>
    match Dict.get? m.index g with
    | none => (m, .done (.error .keyError))
    | some a => (m, .drop id a g gs)
  | .drop id a g gs => (m.modify a fun bm => bm.filter (fun i => i ≠ id), .empty id a g gs)
  | .empty id a g gs => if m.ids a = [] then (m, .del id g gs) else (m, .test id gs)
  | .del id g gs =>
    if Dict.has m.index g then ({ m with index := Dict.erase m.index g }, .test id gs)
    else (m, .done (.error .keyError))
  | .done r => (m, .done r)

/-! ## `find_similar` -/

/-- Where a call of `find_similar` is (nmd/nmd_word_set.py:300-447). -/
inductive FindPc where
  /-- Lines 317–346, with the test `not self._vocab_normalized_to_id` (line 326). -/
  | enter
  /-- Lines 348–349: the loop, `self._filter_index.get(gram, [])`. -/
  | collect (nq : List Char) (gs : List (List Char)) (cand : List ℕ)
  /-- Line 352: `if gram_bitmap`. -/
  | test (nq : List Char) (a : ℕ) (gs : List (List Char)) (cand : List ℕ)
  /-- Line 353. -/
  | update (nq : List Char) (a : ℕ) (gs : List (List Char)) (cand : List ℕ)
  /-- Lines 367–406 over the local bitmap: `self._word_info[word_id]`. -/
  | scan (nq : List Char) (ids : List ℕ) (scored : List (ℚ × ℕ))
  /-- Line 359 and line 367: an iterator over `self._word_info` is made. -/
  | iter (nq : List Char)
  /-- Line 367: the next key, `size` being the size at the beginning. -/
  | next (nq : List Char) (size pos : ℕ) (scored : List (ℚ × ℕ))
  /-- Line 368 for that key. -/
  | live (nq : List Char) (size pos id : ℕ) (scored : List (ℚ × ℕ))
  /-- Lines 442–445: `self._vocab_id_to_original[word_id]`. -/
  | pick (todo : List (ℚ × ℕ)) (res : List (List Char × ℚ))
  | done (r : Except Err (List (List Char × ℚ)))
deriving DecidableEq

/-- What a thread does with the information on one word (nmd/nmd_word_set.py:368-406): the list of scores, or
the exception. -/
def scoreWith (m : Shared) (nq : List Char) (scored : List (ℚ × ℕ)) (id : ℕ) :
    Except PyErr (List (ℚ × ℕ)) := m.view.scoreStep (m.view.computeInfo nq) scored id

/-- Sorting and selecting (nmd/nmd_word_set.py:409, 442), local. -/
def selected (k : ℕ) (scored : List (ℚ × ℕ)) : FindPc := .pick ((scored.insertionSort tupleLe).take k) []

/-- One step of `find_similar(query, k, min_similarity)`, nmd/nmd_word_set.py:300-447. -/
def findStep (ord : List (List Char) → List (List Char)) (query k : PyVal) (minSim : MinSim)
    (m : Shared) : FindPc → FindPc
  | .enter =>
    match query with
    | .str q =>
      match k with
      | .int k =>
        if k ≤ 0 then .done (.error (.py .valueError))
        else
          match minSim.accepted with
          | false => .done (.error (.py .valueError))
          | true =>
            if q = [] ∨ m.vocab = [] then .done (.ok [])
            else
              match m.view.normalizeWord cf un q with
              | .error e => .done (.error (.py e))
              | .ok nq =>
                if nq = [] then .done (.ok [])
                else
                  match m.filterN with
                  | some f =>
                    let gs := (wsGrams nq f).dedup
                    if gs = [] then .done (.ok []) else .collect nq (ord gs) []
                  | none => .iter nq
      | _ => .done (.error (.py .valueError))
    | _ => .done (.error (.py .typeError))
  | .collect nq [] cand => if cand = [] then .done (.ok []) else .scan nq cand []
  | .collect nq (g :: gs) cand =>
    match Dict.get? m.index g with
    | none => .collect nq gs cand
    | some a => .test nq a gs cand
  | .test nq a gs cand => if m.ids a = [] then .collect nq gs cand else .update nq a gs cand
  | .update nq a gs cand => .collect nq gs (cand ++ m.ids a).dedup
  | .scan _ [] scored =>
    match k with
    | .int k => selected k.toNat scored
    | _ => .done (.error (.py .valueError))
  | .scan nq (id :: ids) scored =>
    match scoreWith m nq scored id with
    | .error e => .done (.error (.py e))
    | .ok scored => .scan nq ids scored
  | .iter nq => .next nq m.info.length 0 []
  | .next nq size pos scored =>
    if m.info.length ≠ size then .done (.error .runtimeError)
    else
      match m.info[pos]? with
      | some p => .live nq size pos p.1 scored
      | none =>
        match k with
        | .int k => selected k.toNat scored
        | _ => .done (.error (.py .valueError))
  | .live nq size pos id scored =>
    match scoreWith m nq scored id with
    | .error e => .done (.error (.py e))
    | .ok scored => .next nq size (pos + 1) scored
  | .pick [] res => .done (.ok res)
  | .pick (p :: todo) res =>
    match Dict.get? m.originals p.2 with
    | none => .done (.error (.py .keyError))
    | some w => .pick todo (res ++ [(w, -p.1)])
  | .done r => .done r

/-! ## Threads -/

/-- A call made by a thread (the methods at nmd/nmd_word_set.py:195, 234, 300), with the order in which it
enumerates sets of n-grams. -/
inductive Call where
  | add (ord : List (List Char) → List (List Char)) (v : PyVal)
  | discard (ord : List (List Char) → List (List Char)) (v : PyVal)
  | find (ord : List (List Char) → List (List Char)) (query k : PyVal) (minSim : MinSim)

/-- Where a thread is in its call (nmd/nmd_word_set.py:195-447). -/
inductive Pc where
  | add (p : AddPc)
  | discard (p : DiscardPc)
  | find (p : FindPc)
deriving DecidableEq

/-- The beginning of a call (nmd/nmd_word_set.py:195, 234, 300). -/
def Call.pc : Call → Pc
  | .add _ _ => .add .enter
  | .discard _ _ => .discard .enter
  | .find _ _ _ _ => .find .enter

/-- All threads, numbered, each making one call, and the object they share. -/
structure Sys where
  mem : Shared
  pc : ℕ → Pc

/-- One step of a call (nmd/nmd_word_set.py:195-447). -/
def callStep (m : Shared) : Call → Pc → Shared × Pc
  | .add ord v, .add p => ((addStep cf un ord v m p).1, .add (addStep cf un ord v m p).2)
  | .discard ord v, .discard p =>
    ((discardStep cf un ord v m p).1, .discard (discardStep cf un ord v m p).2)
  | .find ord q k ms, .find p => (m, .find (findStep cf un ord q k ms m p))
  | _, p => (m, p)

/-- The thread `i` makes a step of its call (nmd/nmd_word_set.py:195-447). -/
def Sys.step (C : ℕ → Call) (s : Sys) (i : ℕ) : Sys :=
  { mem := (callStep cf un s.mem (C i) (s.pc i)).1
    pc := fun j => if j = i then (callStep cf un s.mem (C i) (s.pc i)).2 else s.pc j }

/-- A schedule: which thread makes the next step. -/
def Sys.run (C : ℕ → Call) (s : Sys) (sched : List ℕ) : Sys := sched.foldl (Sys.step cf un C) s

/-- No call has begun (nmd/nmd_word_set.py:195, 234, 300). -/
def Sys.start (C : ℕ → Call) (st : WS) : Sys := ⟨Shared.ofWS st, fun i => (C i).pc⟩

end Conc
end Verif
