import Verif.Conc.ListModel

/-!
# A `lookup` of a `WordList` while other threads call `add_word` (nmd/nmd_index.py)

`lookup` changes none of the attributes, so other lookups cannot be noticed: one reading thread stands for
any number of them. As in `Conc/ListModel`, a step reads one of the shared lists and dictionaries, and what
the thread computes from its local variables belongs to the step before (or is a step of its own, which
allows more interleavings).

* `d.get(g, [])` is a step: if there is no entry the thread iterates over the new empty list. Otherwise it
  iterates over the list in the dictionary, which other threads may extend meanwhile: each `next` is a step
  that reads the item at the position of the iterator, or ends the loop if there is none at that time.
* `possible_word_indices.update(s)` copies a set of integers in one step.
* `self.__n_list`, `self.__filter_n` and `self.__case_insensitive` never change, so reading them does not
  count.
-/

namespace Verif
namespace ListConc

/-- A call `lookup(word, top_k, dim, normalize)` (nmd/nmd_index.py:606), with the order in which it enumerates
the set at nmd/nmd_index.py:541. -/
structure Query where
  word : PyVal
  topK : PyVal
  normalize : Bool
  grams : List (List Char) → List (List Char)

/-- An iteration of the loops of the first pass (nmd/nmd_index.py:546-547): `n`, `n_idx`, `n_gram`, `count`. -/
structure CountItem where
  n : ℤ
  k : ℕ
  g : List Char
  c : ℕ
deriving DecidableEq

/-- An iteration of the inner loop of the second pass (nmd/nmd_index.py:583): `n_idx`, `n_gram`,
`locations`. -/
structure PosItem where
  k : ℕ
  g : List Char
  l : List ℚ
deriving DecidableEq

/-- The iterations of the first pass, nmd/nmd_index.py:546-547. -/
def countItems (ns : List ℤ) (q : List Char) : List CountItem :=
  ns.zipIdx.flatMap fun nk => (counter (getNGrams q nk.1)).map fun gc => ⟨nk.1, nk.2, gc.1, gc.2⟩

/-- Where a lookup is. `q` is the folded word and `k` is `top_k` (nmd/nmd_index.py:526-634). -/
inductive RPc (S : Type) where
  /-- Lines 614–626. -/
  | enter
  /-- Line 542: `self.__ngram_filter.get(n_gram, set())`. -/
  | filterGet (q : List Char) (k : ℕ) (gs : List (List Char)) (poss : List ℕ)
  /-- Line 542: `possible_word_indices.update`. -/
  | filterUpd (q : List Char) (k : ℕ) (g : List Char) (gs : List (List Char)) (poss : List ℕ)
  /-- Line 548: `self.__ngram_counts.get(n_gram, [])`. -/
  | countGet (q : List Char) (k : ℕ) (todo : List CountItem) (poss : List ℕ) (ms : Dict ℕ (List ℚ))
  /-- Line 548: the next item of the list. -/
  | countNext (q : List Char) (k : ℕ) (cur : CountItem) (pos : ℕ) (todo : List CountItem) (poss : List ℕ)
      (ms : Dict ℕ (List ℚ))
  /-- Line 554: `self.__word_num_grams[other_word_index]`. -/
  | countNum (q : List Char) (k : ℕ) (cur : CountItem) (e : ℕ × ℕ) (pos : ℕ) (todo : List CountItem)
      (poss : List ℕ) (ms : Dict ℕ (List ℚ))
  /-- Lines 577–581: the next size. -/
  | posSize (q : List Char) (k : ℕ) (ns : List (ℤ × ℕ)) (poss : List ℕ) (ms : Dict ℕ (List ℚ))
  /-- Line 584: `self.__ngram_positions.get(n_gram, [])`. -/
  | posGet (q : List Char) (k : ℕ) (todo : List PosItem) (ns : List (ℤ × ℕ)) (poss : List ℕ)
      (ms : Dict ℕ (List ℚ))
  /-- Line 584: the next item of the list. -/
  | posNext (q : List Char) (k : ℕ) (cur : PosItem) (pos : ℕ) (todo : List PosItem) (ns : List (ℤ × ℕ))
      (poss : List ℕ) (ms : Dict ℕ (List ℚ))
  /-- Line 593: `self.__word_lens[other_word_index]`. -/
  | lens (q : List Char) (k : ℕ) (todo acc : List (ℕ × List ℚ))
  /-- Line 631: `self.__word_list[word_index]`. -/
  | words (q : List Char) (k : ℕ) (todo : List (ℕ × S)) (acc : List (ℕ × (S ×ₗ ℚ)))
  /-- Line 634: `self.__word_list[word_index]`. -/
  | pick (todo : List (ℕ × (S ×ₗ ℚ))) (acc : List (List Char × (S ×ₗ ℚ)))
  | done (r : Except PyErr (List (List Char × (S ×ₗ ℚ))))
deriving DecidableEq

variable (cf : List Char → List Char) {S : Type} [LinearOrder S] (agg : List ℚ → S)

/-- Between the passes (nmd/nmd_index.py:559-574): no results, or the words that can be among the best. -/
def afterCounts (ns : List ℤ) (q : List Char) (k : ℕ) (ms : Dict ℕ (List ℚ)) : RPc S :=
  if ms.length = 0 then .done (.ok [])
  else
    match minAcceptable (ms.map (fun p => agg p.2)) k with
    | .error e => .done (.error e)
    | .ok t => .posSize q k ns.zipIdx (survivors agg ms t) []

/-- One step of `lookup`, nmd/nmd_index.py:526-634. -/
def rstep (Q : Query) (m : WL) : RPc S → RPc S
  | .enter =>
    match m.checkLookup cf Q.word Q.topK with
    | .error e => .done (.error e)
    | .ok (q, k) =>
      if m.filterN ≠ 0 then .filterGet q k (Q.grams (getNGrams q m.filterN).dedup) []
      else .countGet q k (countItems m.nList q) [] []
  | .filterGet q k [] poss => .countGet q k (countItems m.nList q) poss []
  | .filterGet q k (g :: gs) poss =>
    if Dict.has m.ngramFilter g then .filterUpd q k g gs poss else .filterGet q k gs poss
  | .filterUpd q k g gs poss => .filterGet q k gs (poss ++ (Dict.get? m.ngramFilter g).getD [])
  | .countGet q k [] _ ms => afterCounts agg m.nList q k ms
  | .countGet q k (it :: todo) poss ms =>
    if Dict.has m.ngramCounts it.g then .countNext q k it 0 todo poss ms else .countGet q k todo poss ms
  | .countNext q k it pos todo poss ms =>
    match ((Dict.get? m.ngramCounts it.g).getD [])[pos]? with
    | none => .countGet q k todo poss ms
    | some e =>
      if m.filterN ≠ 0 ∧ e.1 ∉ poss then .countNext q k it (pos + 1) todo poss ms
      else if Q.normalize then .countNum q k it e pos todo poss ms
      else .countNext q k it (pos + 1) todo poss
        (bump m.nList.length ms e.1 it.k ((min it.c e.2 : ℕ) : ℚ))
  | .countNum q k it e pos todo poss ms =>
    match pyGet m.wordNumGrams e.1 with
    | .error e => .done (.error e)
    | .ok row =>
      match pyGet row it.k with
      | .error e => .done (.error e)
      | .ok wn =>
        if numGrams q.length it.n + wn = 0 then .done (.error .zeroDivisionError)
        else .countNext q k it (pos + 1) todo poss
          (bump m.nList.length ms e.1 it.k
            (((min it.c e.2 : ℕ) : ℚ) / ((numGrams q.length it.n + wn : ℤ) : ℚ)))
  | .posSize q k [] _ ms => .lens q k ms []
  | .posSize q k (nk :: ns) poss ms =>
    match queryLocations (getNGrams q nk.1) with
    | .error e => .done (.error e)
    | .ok locs => .posGet q k (locs.map fun gl => ⟨nk.2, gl.1, gl.2⟩) ns poss ms
  | .posGet q k [] ns poss ms => .posSize q k ns poss ms
  | .posGet q k (it :: todo) ns poss ms =>
    if Dict.has m.ngramPositions it.g then .posNext q k it 0 todo ns poss ms
    else .posGet q k todo ns poss ms
  | .posNext q k it pos todo ns poss ms =>
    match ((Dict.get? m.ngramPositions it.g).getD [])[pos]? with
    | none => .posGet q k todo ns poss ms
    | some e => .posNext q k it (pos + 1) todo ns poss (m.matchStep poss it.k it.l ms e)
  | .lens q k [] acc => .words q k (mostCommon (acc.map fun p => (p.1, agg p.2)) (k * 2)) []
  | .lens q k (p :: todo) acc =>
    match m.normalizeRow q Q.normalize p with
    | .error e => .done (.error e)
    | .ok r => .lens q k todo (acc ++ [r])
  | .words _ k [] acc => .pick (mostCommon acc k) []
  | .words q k (p :: todo) acc =>
    match m.rescore q Q.normalize p with
    | .error e => .done (.error e)
    | .ok r => .words q k todo (acc ++ [r])
  | .pick [] acc => .done (.ok acc)
  | .pick (p :: todo) acc =>
    match pyGet m.wordList p.1 with
    | .error e => .done (.error e)
    | .ok w => .pick todo (acc ++ [(w, p.2)])
  | .done r => .done r

/-- Threads that call `add_word`, and one that calls `lookup`. -/
structure RSys (S : Type) where
  sys : Sys
  pc : RPc S

/-- A step of the reading thread (`none`) or of one of the others (nmd/nmd_index.py:457-634). -/
def RSys.step (C : ℕ → Call) (Q : Query) (s : RSys S) : Option ℕ → RSys S
  | none => ⟨s.sys, rstep cf agg Q s.sys.mem s.pc⟩
  | some i => ⟨s.sys.step cf C i, s.pc⟩

/-- A schedule: which thread makes the next step. -/
def RSys.run (C : ℕ → Call) (Q : Query) (s : RSys S) (sched : List (Option ℕ)) : RSys S :=
  sched.foldl (RSys.step cf agg C Q) s

end ListConc
end Verif
