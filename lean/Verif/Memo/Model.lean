import Verif.Index.V3Model
import Verif.Index.V5bModel
import Mathlib.Data.List.DropRight
import Mathlib.Algebra.Order.Floor.Ring
import Mathlib.Data.Rat.Floor

/-!
# Model of the two memoised functions of `nmd/nmd_index.py`

`get_n_grams` and `num_grams` are decorated with `functools.lru_cache(maxsize=0xFFFF)`
(nmd/nmd_index.py:15, 28). The caches are global: all word lists of the process share them, and
`get_n_grams` hands out the very list that it keeps. The other models treat both functions as
plain functions (`getNGrams`, `numGrams`); here the caches are part of the state.

A cache key is the tuple of the positional arguments, compared with `==`: the keys of
`num_grams(3, 2)` and `num_grams(3, 2.0)` are the same. `M` stands for `maxsize`.
-/

namespace Verif.Memo

/-- An `int` or a finite `float`. -/
inductive Num where
  | int (z : ℤ)
  | float (q : ℚ)
deriving DecidableEq

/-- The value of a number; numbers of equal value are equal keys. -/
def Num.val : Num → ℚ
  | .int z => z
  | .float q => q

/-- The number as an integer; only used where the number is the sum of ints, or a float that is
equal to it. -/
def Num.toInt : Num → ℤ
  | .int z => z
  | .float q => ⌊q⌋

/-- The body of `get_n_grams(word, n)`, nmd/nmd_index.py:20-25: `range` raises `TypeError` for a
float. -/
def gramsBody (w : List Char) : Num → Except PyErr (List (List Char))
  | .int z => .ok (getNGrams w z)
  | .float q => if q > 1 then .error .typeError else .ok (w.map (fun c => [c]))

/-- The body of `num_grams(len_word, n)`, nmd/nmd_index.py:29-33: a float if `n` is a float greater
than 1. (The sum of small numbers is not rounded.) -/
def numsBody (l : ℕ) : Num → Num
  | .int z => .int (numGrams l z)
  | .float q => if q > 1 then .float (l + 2 + 1 - q) else .int (l + 2)

/-- The two caches (entries from the most recently used one on) and the lists that `get_n_grams`
has made so far. A list object is named by its position. -/
structure Caches where
  heap : List (List (List Char))
  grams : List ((List Char × ℚ) × ℕ)
  nums : List ((ℕ × ℚ) × Num)
deriving DecidableEq

/-- Both caches after the import of the module, nmd/nmd_index.py:15, 28. -/
def Caches.empty : Caches := ⟨[], [], []⟩

/-- A miss of an `lru_cache`: the new entry comes first; if the cache is full, the entry that has
not been used for the longest time is dropped, nmd/nmd_index.py:15, 28. -/
def remember {κ ν : Type} (M : ℕ) (c : List (κ × ν)) (k : κ) (v : ν) : List (κ × ν) :=
  (k, v) :: c.take (M - 1)

/-- A hit of an `lru_cache`: the entry comes first, nmd/nmd_index.py:15, 28. -/
def refresh {κ ν : Type} [DecidableEq κ] (c : List (κ × ν)) (k : κ) (v : ν) : List (κ × ν) :=
  (k, v) :: Dict.erase c k

/-- `get_n_grams(word, n)`, nmd/nmd_index.py:15-25: the list object returned. Exceptions are not
remembered. -/
def callGrams (M : ℕ) (c : Caches) (w : List Char) (n : Num) : Except PyErr ℕ × Caches :=
  match Dict.get? c.grams (w, n.val) with
  | some a => (.ok a, { c with grams := refresh c.grams (w, n.val) a })
  | none =>
    match gramsBody w n with
    | .error e => (.error e, c)
    | .ok l => (.ok c.heap.length,
        { c with heap := c.heap ++ [l], grams := remember M c.grams (w, n.val) c.heap.length })

/-- `num_grams(len_word, n)`, nmd/nmd_index.py:28-33. -/
def callNums (M : ℕ) (c : Caches) (l : ℕ) (n : Num) : Num × Caches :=
  match Dict.get? c.nums (l, n.val) with
  | some v => (v, { c with nums := refresh c.nums (l, n.val) v })
  | none => (numsBody l n, { c with nums := remember M c.nums (l, n.val) (numsBody l n) })

/-- Code that calls `get_n_grams` and `num_grams`. Every method reads the list that `get_n_grams`
returns before anything else happens and never changes it (nmd/nmd_index.py:279, 283-292, 313,
319, 350-353, 506, 510-519, 541, 547, 578-581;
experiments/gemini_optimized_v5.py:211, 218-228, 272, 290-300), so a call delivers the contents of the list. -/
inductive Prog (α : Type) : Type where
  | ret (a : α)
  | grams (w : List Char) (n : Num) (k : Except PyErr (List (List Char)) → Prog α)
  | nums (l : ℕ) (n : Num) (k : Num → Prog α)

/-- Sequencing. -/
def Prog.bind {α β : Type} : Prog α → (α → Prog β) → Prog β
  | .ret a, f => f a
  | .grams w n k, f => .grams w n (fun r => (k r).bind f)
  | .nums l n k, f => .nums l n (fun v => (k v).bind f)

instance : Monad Prog where
  pure := .ret
  bind := Prog.bind

/-- Executing code with the caches, nmd/nmd_index.py:15-33. -/
def Prog.exec {α : Type} (M : ℕ) : Prog α → Caches → α × Caches
  | .ret a, c => (a, c)
  | .grams w n k, c =>
    match callGrams M c w n with
    | (.ok a, c') => (k (.ok (c'.heap.getD a []))).exec M c'
    | (.error e, c') => (k (.error e)).exec M c'
  | .nums l n k, c =>
    let r := callNums M c l n
    (k r.1).exec M r.2

/-- A call of `get_n_grams`. -/
def askGrams (w : List Char) (n : Num) : Prog (Except PyErr (List (List Char))) :=
  .grams w n .ret

/-- A call of `num_grams`. -/
def askNums (l : ℕ) (n : Num) : Prog Num := .nums l n .ret

/-- Code that may raise. -/
abbrev P := ExceptT PyErr Prog

/-- A call of `get_n_grams` whose exception is passed on. -/
def tryGrams (w : List Char) (n : ℤ) : P (List (List Char)) := ExceptT.mk (askGrams w (.int n))

/-- A call of `num_grams` whose result is used as a number. -/
def tryNums (l : ℕ) (n : ℤ) : P ℤ :=
  ExceptT.mk (.nums l (.int n) (fun v => .ret (.ok v.toInt)))

/-- Code without calls of the two functions. -/
def liftE {α : Type} (r : Except PyErr α) : P α := ExceptT.mk (.ret r)

/-! ## `ApproxWordListV6` and `ApproxWordListV5` -/

/-- `tuple(num_grams(len(word), n) for n in self.__n_list)`, nmd/nmd_index.py:252, 479. -/
def numsP (l : ℕ) : List ℤ → Prog (List ℤ)
  | [] => pure []
  | n :: ns => .nums l (.int n) (fun v => do return v.toInt :: (← numsP l ns))

/-- `_resolve_word_index(word)`, nmd/nmd_index.py:457-485 (V5: 230-258), see `WL.resolve`. -/
def resolveP (cf : List Char → List Char) (st : WL) (w : List Char) :
    Prog (WL × Except PyErr ℕ) :=
  if w.length = 0 then pure (st, .error .valueError)
  else
    let w := st.fold cf w
    match Dict.get? st.wordIndices w with
    | some i => pure (st, .ok i)
    | none => do
      let idx := st.wordList.length
      let ns ← numsP w.length st.nList
      let st' := { st with
        wordIndices := Dict.set st.wordIndices w idx
        wordList := st.wordList ++ [w]
        wordLens := st.wordLens ++ [w.length]
        wordNumGrams := st.wordNumGrams ++ [ns] }
      if st'.wordIndices.length = st'.wordList.length ∧ st'.wordList.length = idx + 1 ∧
          st'.wordList[idx]? = some w ∧ st'.wordLens[idx]? = some w.length then
        pure (st', .ok idx)
      else pure (st', .error .assertionError)

/-- Filling the n-gram filter, nmd/nmd_index.py:505-507 (V5: 278-280), see `WL.addFilter`. -/
def addFilterP (st : WL) (w : List Char) (idx : ℕ) : Prog (WL × Except PyErr Unit) :=
  if st.filterN ≠ 0 then do
    match ← askGrams w (.int st.filterN) with
    | .error e => pure (st, .error e)
    | .ok gs =>
      pure ({ st with
        ngramFilter := (gs.dedup).foldl (fun d g => addToSet d g idx) st.ngramFilter }, .ok ())
  else pure (st, .ok ())

/-- The loop over `n`, nmd/nmd_index.py:509-522 (V5: 282-295), see `WL.addGrams`. -/
def addGramsP (w : List Char) (idx : ℕ) : List ℤ → WL → Prog (WL × Except PyErr Unit)
  | [], st => pure (st, .ok ())
  | n :: ns, st => do
    match ← askGrams w (.int n) with
    | .error e => pure (st, .error e)
    | .ok gs => addGramsP w idx ns ((addLocations gs).foldl (WL.addItem idx) st)

/-- `add_word(word)`, nmd/nmd_index.py:487-524 (V5: 260-297), see `WL.addWord`. -/
def addWordP (cf : List Char → List Char) (st : WL) (word : PyVal) :
    Prog (WL × Except PyErr Unit) :=
  match word with
  | .str w =>
    if w.length = 0 then pure (st, .error .valueError)
    else
      let w := st.fold cf w
      if Dict.has st.wordIndices w then pure (st, .ok ())
      else if '\x02' ∈ w ∨ '\x03' ∈ w then pure (st, .error .assertionError)
      else do
        match ← resolveP cf st w with
        | (st', .error e) => pure (st', .error e)
        | (st', .ok idx) =>
          match ← addFilterP st' w idx with
          | (st', .error e) => pure (st', .error e)
          | (st', .ok ()) => addGramsP w idx st'.nList st'
  | _ => pure (st, .error .typeError)

/-- Candidates of the filter, nmd/nmd_index.py:539-542 (V5: 311-314). -/
def filterP (st : WL) (q : List Char) : P (List ℕ) :=
  if st.filterN ≠ 0 then do
    let gs ← tryGrams q st.filterN
    return (gs.dedup).flatMap (fun g => (Dict.get? st.ngramFilter g).getD [])
  else return []

/-- Innermost body of the counting loop, nmd/nmd_index.py:548-557 (V5: 320-329). -/
def minStepP (st : WL) (q : List Char) (normalize : Bool) (possible : List ℕ)
    (n : ℤ) (k : ℕ) (c : ℕ) (ms : Dict ℕ (List ℚ)) (e : ℕ × ℕ) : P (Dict ℕ (List ℚ)) :=
  if st.filterN ≠ 0 ∧ e.1 ∉ possible then return ms
  else if normalize then do
    let qn ← tryNums q.length n
    let row ← liftE (pyGet st.wordNumGrams e.1)
    let wn ← liftE (pyGet row k)
    let den : ℤ := qn + wn
    if den = 0 then liftE (.error .zeroDivisionError)
    else return bump st.nList.length ms e.1 k (((min c e.2 : ℕ) : ℚ) / den)
  else return bump st.nList.length ms e.1 k ((min c e.2 : ℕ) : ℚ)

/-- "count matching n-grams", nmd/nmd_index.py:539-557 (V5: 311-329). -/
def minScoresP (st : WL) (q : List Char) (normalize : Bool) : P (Dict ℕ (List ℚ)) := do
  let possible ← filterP st q
  st.nList.zipIdx.foldlM (fun ms nk => do
    let gs ← tryGrams q nk.1
    (counter gs).foldlM (fun ms gc =>
      ((Dict.get? st.ngramCounts gc.1).getD []).foldlM
        (minStepP st q normalize possible nk.1 nk.2 gc.2) ms) ms) []

/-- "count matching n-grams" (second pass), nmd/nmd_index.py:575-589 (V5: 347-361). -/
def matchScoresP (st : WL) (q : List Char) (possible : List ℕ) : P (Dict ℕ (List ℚ)) :=
  st.nList.zipIdx.foldlM (fun ms nk => do
    let gs ← tryGrams q nk.1
    let locs ← liftE (queryLocations gs)
    return locs.foldl (fun ms gl =>
      ((Dict.get? st.ngramPositions gl.1).getD []).foldl
        (st.matchStep possible nk.2 gl.2) ms) ms) []

/-- "normalize scores", nmd/nmd_index.py:591-601 (V5: 363-373), for one word. -/
def normalizeRowP (st : WL) (q : List Char) (normalize : Bool) (p : ℕ × List ℚ) :
    P (ℕ × List ℚ) := do
  let otherLen ← liftE (pyGet st.wordLens p.1)
  if normalize then
    let norm ← st.nList.zipIdx.mapM (fun nk => do
      let x ← liftE (pyGet p.2 nk.2)
      let a ← tryNums q.length nk.1
      let b ← tryNums otherLen nk.1
      let den : ℤ := a + b
      if den = 0 then liftE (.error PyErr.zeroDivisionError) else return x / (den : ℚ))
    return (p.1, norm)
  else return p

/-- `__lookup_similarity(word, dim, top_k, normalize)`, nmd/nmd_index.py:526-604 (V5: 299-376). -/
def lookupSimilarityP {S : Type} [LinearOrder S] (agg : List ℚ → S) (st : WL) (q : List Char)
    (topK : ℕ) (normalize : Bool) : P (List (ℕ × S)) := do
  if ¬ topK ≥ 1 then liftE (.error PyErr.assertionError)
  else
    let ms ← minScoresP st q normalize
    if ms.length = 0 then return []
    else
      let t ← liftE (minAcceptable (ms.map (fun p => agg p.2)) topK)
      let matches' ← matchScoresP st q (survivors agg ms t)
      let normed ← matches'.mapM (normalizeRowP st q normalize)
      return normed.map (fun p => (p.1, agg p.2))

/-- `ApproxWordListV6.lookup`, nmd/nmd_index.py:606-634, see `WL.lookup`. -/
def lookupP {S : Type} [LinearOrder S] (agg : List ℚ → S) (cf : List Char → List Char) (st : WL)
    (word topK : PyVal) (normalize : Bool) : P (List (List Char × (S ×ₗ ℚ))) := do
  let qk ← liftE (st.checkLookup cf word topK)
  let scored ← lookupSimilarityP agg st qk.1 qk.2 normalize
  liftE (do
    let items ← (mostCommon scored (qk.2 * 2)).mapM (st.rescore qk.1 normalize)
    (mostCommon items qk.2).mapM (fun p => do return (← pyGet st.wordList p.1, p.2)))

/-- `ApproxWordListV5.lookup`, nmd/nmd_index.py:378-412, see `WL.lookupV5`. -/
def lookupV5P {S : Type} [Ring S] [LinearOrder S] (agg : List ℚ → S)
    (cf : List Char → List Char) (st : WL) (word topK : PyVal) (invert normalize : Bool) :
    P (List (List Char × S)) := do
  let qk ← liftE (st.checkLookup cf word topK)
  let scored ← lookupSimilarityP agg st qk.1 qk.2 normalize
  liftE (do
    let out ← (mostCommon scored (qk.2 * 2)).mapM (fun p => do
      return (← pyGet st.wordList p.1,
        if invert then p.2 else (if normalize then 1 else 0) - p.2))
    return sortDesc Prod.snd out)

/-! ## `ApproxWordListV3`

Its constructor does not look at the elements of `n` (nmd/nmd_index.py:42-47): `ns` is a list of
numbers. The rest of the state is that of `V3` (whose own `nList` is not used here). -/

/-- `[f'\2{word}\3'[i:i + n] for i in range(num_grams(len(word), n))]`, nmd/nmd_index.py:113, 134,
where `v` is what `num_grams` returned: neither `range` nor a slice takes a float. -/
def windows (w : List Char) (n v : Num) : Except PyErr (List (List Char)) :=
  match v, n with
  | .float _, _ => .error .typeError
  | .int m, .int z => .ok ((List.range m.toNat).map (fun i => pySliceZ (pad w) i (i + z)))
  | .int m, .float _ => if m.toNat = 0 then .ok [] else .error .typeError

/-- The n-grams of an added word, nmd/nmd_index.py:111-116, see `v3AddGrams`. -/
def v3GramsP (w : List Char) (n : Num) : P (List (List Char)) :=
  if n.val > 1 then ExceptT.mk (.nums w.length n (fun v => .ret (windows w n v)))
  else return w.map (fun c => [c])

/-- `set(self.__n_list)`, nmd/nmd_index.py:110: of equal numbers the first one is kept. -/
def numSet (ns : List Num) : List Num :=
  (ns.pwFilter (fun a b => a.val ≠ b.val)).map
    (fun x => (ns.find? (fun y => y.val = x.val)).getD x)

/-- The loop over `n`, nmd/nmd_index.py:110-126; what was stored before an exception remains. -/
def v3AddGramsP (w : List Char) (idx : ℕ) : List Num → V3 → Prog (V3 × Except PyErr Unit)
  | [], st => pure (st, .ok ())
  | n :: ns, st => do
    match ← (v3GramsP w n).run with
    | .error e => pure (st, .error e)
    | .ok gs => v3AddGramsP w idx ns { st with
        ngramIndices := (addLocations gs).foldl
          (fun d it => Dict.appendTo d it.1 (idx, it.2)) st.ngramIndices }

/-- `add_word(word)`, nmd/nmd_index.py:92-128, see `V3.addWord`. -/
def v3AddWordP (cf : List Char → List Char) (ns : List Num) (st : V3) (word : PyVal) :
    Prog (V3 × Except PyErr Unit) :=
  match word with
  | .str w =>
    if w.length = 0 then pure (st, .error .valueError)
    else
      let w := st.fold cf w
      if Dict.has st.vocabIndices w then pure (st, .ok ())
      else if '\x02' ∈ w ∨ '\x03' ∈ w then pure (st, .error .assertionError)
      else
        match st.resolve cf w true with
        | (st', .error e) => pure (st', .error e)
        | (st', .ok idx) => v3AddGramsP w (idx.getD 0) (numSet ns) st'
  | _ => pure (st, .error .typeError)

/-- "count matching n-grams", nmd/nmd_index.py:131-144, see `V3.matches`. -/
def v3MatchesP (ns : List Num) (st : V3) (q : List Char) : P (Dict ℕ (List ℚ)) :=
  ns.zipIdx.foldlM (fun ms nk => do
    let gs ← (ExceptT.mk (.nums q.length nk.1 (fun v => .ret (windows q nk.1 v))) : P _)
    let locs ← liftE (queryLocations gs)
    return locs.foldl (fun ms gl =>
      ((Dict.get? st.ngramIndices gl.1).getD []).foldl (fun ms e =>
        bump ns.length ms e.1 nk.2
          (max (gl.2.length : ℚ) e.2.length - emd gl.2 e.2)) ms) ms) []

/-- "normalize scores", nmd/nmd_index.py:147-150, for one word. -/
def v3NormalizeRowP (ns : List Num) (q : List Char) (p : ℕ × List ℚ) : P (ℕ × List ℚ) := do
  let norm ← ns.zipIdx.mapM (fun nk => do
    let x ← liftE (pyGet p.2 nk.2)
    let v ← (ExceptT.mk (.nums q.length nk.1 (fun v => .ret (.ok v.val))) : P ℚ)
    if v = 0 then liftE (.error PyErr.zeroDivisionError) else return x / v)
  return (p.1, norm)

/-- `lookup(word, top_k, dim)`, nmd/nmd_index.py:130-186, see `V3.lookup`. -/
def v3LookupP {S : Type} [LinearOrder S] (agg : List ℚ → S) (cf : List Char → List Char)
    (ns : List Num) (st : V3) (word : PyVal) (topK : Option ℤ) :
    P (List (List Char × S × ℚ)) :=
  match word with
  | .str w =>
    if w.length = 0 then liftE (.error .valueError)
    else
      let q := st.fold cf w
      if '\x02' ∈ q ∨ '\x03' ∈ q then liftE (.error .assertionError)
      else do
        let ms ← v3MatchesP ns st q
        let normed ← ms.mapM (v3NormalizeRowP ns q)
        let counter := normed.map (fun p => (p.1, agg p.2))
        liftE (do
          let _ ← pyGet (mostCommon counter 1) 0
          let k := v3TopK topK counter.length
          let out ← (mostCommon counter (k * 2)).mapM (fun p => do
            let v ← pyGet st.vocabulary p.1
            let s ← nmd (.str q) (.str v) (.int 2) true true
            return (v, p.2, s))
          return out.take k)
  | _ => liftE (.error .typeError)

/-! ## `ApproxWordListV5b` -/

/-- `_resolve_word_index(normalized_word, auto_add=True)`,
experiments/gemini_optimized_v5.py:142-174, see `WL.v5bResolve`. -/
def v5bResolveP (st : WL) (w : List Char) : Prog (WL × Option ℕ) :=
  if w.length = 0 then pure (st, none)
  else
    match Dict.get? st.wordIndices w with
    | some i => pure (st, some i)
    | none => do
      let idx := st.wordList.length
      let ns ← numsP w.length st.nList
      pure ({ st with
        wordIndices := Dict.set st.wordIndices w idx
        wordList := st.wordList ++ [w]
        wordLens := st.wordLens ++ [w.length]
        wordNumGrams := st.wordNumGrams ++ [ns] }, some idx)

/-- The loop over `n`, experiments/gemini_optimized_v5.py:217-234, see `WL.v5bAddGrams`. -/
def v5bAddGramsP (w : List Char) (idx : ℕ) : List ℤ → WL → Prog (WL × Except PyErr Unit)
  | [], st => pure (st, .ok ())
  | n :: ns, st => do
    match ← askGrams w (.int n) with
    | .error e => pure (st, .error e)
    | .ok gs =>
      v5bAddGramsP w idx ns
        (if gs.length = 0 then st else (v5bLocations gs).foldl (WL.addItem idx) st)

/-- `add_word(word)`, experiments/gemini_optimized_v5.py:177-234, see `WL.v5bAddWord`. -/
def v5bAddWordP (cf : List Char → List Char) (st : WL) (word : PyVal) :
    Prog (WL × Except PyErr Unit) :=
  match word with
  | .str w =>
    if w.length = 0 then pure (st, .error .valueError)
    else
      let w := st.fold cf w
      if w.length = 0 then pure (st, .error .valueError)
      else if '\x02' ∈ w ∨ '\x03' ∈ w then pure (st, .error .valueError)
      else if Dict.has st.wordIndices w then pure (st, .ok ())
      else do
        match ← v5bResolveP st w with
        | (st', none) => pure (st', .error .typeError)
        | (st', some idx) =>
          match ← addFilterP st' w idx with
          | (st', .error e) => pure (st', .error e)
          | (st', .ok ()) => v5bAddGramsP w idx st'.nList st'
  | _ => pure (st, .error .valueError)

/-- `query_num_grams_tuple` and the lists from which `query_counters` and `query_locations` are
made, experiments/gemini_optimized_v5.py:284-302: one pair for every `n`. -/
def v5bQueryP (q : List Char) (ns : List ℤ) : P (List (ℤ × List (List Char))) := do
  let nums ← ns.mapM (tryNums q.length)
  (ns.zip nums).mapM (fun p =>
    if p.2 = 0 then return (p.2, [])
    else do return (p.2, ← tryGrams q p.1))

/-- Lower bounds, experiments/gemini_optimized_v5.py:335-360, see `WL.v5bMinScores`. -/
def v5bMinScoresOf (st : WL) (info : List (ℤ × List (List Char))) (normalize : Bool)
    (cand : List ℕ) : Except PyErr (Dict ℕ (List ℚ)) :=
  info.zipIdx.foldlM (fun ms nk =>
    if nk.1.1 = 0 then .ok ms
    else (counter nk.1.2).foldlM (fun ms gc =>
      ((Dict.get? st.ngramCounts gc.1).getD []).foldlM (fun ms e =>
        if e.1 ∉ cand then .ok ms
        else do
          let row ← pyGet st.wordNumGrams e.1
          let wn ← pyGet row nk.2
          let den : ℤ := nk.1.1 + wn
          if den > 0 then
            return bump st.nList.length ms e.1 nk.2
              (if normalize then ((min gc.2 e.2 : ℕ) : ℚ) / den else ((min gc.2 e.2 : ℕ) : ℚ))
          else return ms) ms) ms) []

/-- Scores of the finalists, experiments/gemini_optimized_v5.py:401-429, see
`WL.v5bMatchScores`. -/
def v5bMatchScoresOf (st : WL) (info : List (ℤ × List (List Char))) (normalize : Bool)
    (finalists : List ℕ) : Except PyErr (Dict ℕ (List ℚ)) :=
  info.zipIdx.foldlM (fun ms nk =>
    if nk.1.1 = 0 then .ok ms
    else (v5bLocations nk.1.2).foldlM (fun ms gl =>
      ((Dict.get? st.ngramPositions gl.1).getD []).foldlM (fun ms e =>
        if e.1 ∉ finalists then .ok ms
        else
          let sim : ℚ := ((gl.2.length + e.2.length : ℕ) : ℚ) - emd gl.2 e.2
          if normalize then do
            let row ← pyGet st.wordNumGrams e.1
            let wn ← pyGet row nk.2
            let den : ℤ := nk.1.1 + wn
            if den > 0 then return bump st.nList.length ms e.1 nk.2 (sim / den) else return ms
          else return bump st.nList.length ms e.1 nk.2 sim) ms) ms) []

/-- `set(get_n_grams(normalized_query_word, self.__filter_n))`,
experiments/gemini_optimized_v5.py:270-274; `none` if there is no filter. -/
def v5bFilterGramsP (st : WL) (q : List Char) : P (Option (List (List Char))) :=
  if st.filterN ≠ 0 then do return some (← tryGrams q st.filterN).dedup
  else return none

/-- Initial filtering, experiments/gemini_optimized_v5.py:304-324, see `WL.v5bCandidates`. -/
def v5bCandidatesOf (st : WL) : Option (List (List Char)) → Option (List ℕ)
  | some fg =>
    let c := fg.flatMap (fun g => (Dict.get? st.ngramFilter g).getD [])
    if c.isEmpty then none else some c
  | none => if st.wordList.isEmpty then none else some (List.range st.wordList.length)

/-- `__lookup_similarity`, experiments/gemini_optimized_v5.py:237-438, see
`WL.v5bLookupSimilarity`. The two early returns for filter n-grams come before and after the
collection of the query's n-grams, as in the code. -/
def v5bLookupSimilarityP {S : Type} [LinearOrder S] (agg : List ℚ → S) (st : WL) (q : List Char)
    (topK : ℕ) (normalize : Bool) : P (List (ℕ × S)) :=
  if q.length = 0 then return []
  else do
    let fg ← v5bFilterGramsP st q
    if fg = some [] then return []
    else
      let info ← v5bQueryP q st.nList
      liftE (match v5bCandidatesOf st fg with
        | none => return []
        | some cand => do
          let ms ← v5bMinScoresOf st info normalize cand
          if ms.isEmpty then return []
          let actualK := min topK ms.length
          if actualK = 0 then return []
          let t ← v5bThreshold (ms.map (fun p => agg p.2)) actualK
          let finalists := survivors agg ms t
          if finalists.isEmpty then return []
          let sc ← v5bMatchScoresOf st info normalize finalists
          return sc.map (fun p => (p.1, agg p.2)))

/-- `lookup(word, top_k, dim, normalize)`, experiments/gemini_optimized_v5.py:440-491, see
`WL.v5bLookup`. -/
def v5bLookupP {S : Type} [LinearOrder S] (agg : List ℚ → S) (cf : List Char → List Char)
    (st : WL) (word topK : PyVal) (normalize : Bool) : P (List (List Char × S)) :=
  match word with
  | .str w =>
    if w.length = 0 then liftE (.error .valueError)
    else
      match topK with
      | .int k =>
        if k ≤ 0 then liftE (.error .valueError)
        else
          let q := st.fold cf w
          if q.length = 0 then return []
          else if '\x02' ∈ q ∨ '\x03' ∈ q then return []
          else do
            let scored ← v5bLookupSimilarityP agg st q k.toNat normalize
            liftE ((mostCommon scored k.toNat).mapM
              (fun p => do return (← pyGet st.wordList p.1, p.2)))
      | _ => liftE (.error .valueError)
  | _ => liftE (.error .valueError)

/-! ## A process -/

/-- What a program that uses the package may do. Objects are named in the order of their
creation. -/
inductive Op where
  /-- `get_n_grams(w, n)`, nmd/nmd_index.py:15-25 -/
  | grams (w : List Char) (n : Num)
  /-- changing a list that `get_n_grams` returned: from now on list object `a` contains `l` -/
  | write (a : ℕ) (l : List (List Char))
  /-- `num_grams(l, n)`, nmd/nmd_index.py:28-33 -/
  | nums (l : ℕ) (n : Num)
  /-- `get_n_grams.cache_clear()`, nmd/nmd_index.py:15 -/
  | clearGrams
  /-- `num_grams.cache_clear()`, nmd/nmd_index.py:28 -/
  | clearNums
  /-- `ApproxWordListV6(n, case_sensitive, filter_n)` or V5, nmd/nmd_index.py:189-222, 416-451 -/
  | newList (n : NArg) (caseSensitive : Bool) (filterN : ℤ)
  /-- `add_word`, nmd/nmd_index.py:260-297, 487-524 -/
  | add (i : ℕ) (word : PyVal)
  /-- `ApproxWordListV6.lookup`, nmd/nmd_index.py:606-634 -/
  | lookup (i : ℕ) (word topK : PyVal) (normalize : Bool)
  /-- `ApproxWordListV5.lookup`, nmd/nmd_index.py:378-412 -/
  | lookupV5 (i : ℕ) (word topK : PyVal) (invert normalize : Bool)
  /-- `ApproxWordListV5b(n, case_sensitive, filter_n)`, experiments/gemini_optimized_v5.py:43-110 -/
  | newV5b (n : NArg) (caseSensitive : Option Bool) (filterN : Option PyVal)
  /-- `ApproxWordListV5b.add_word`, experiments/gemini_optimized_v5.py:177-234 -/
  | addV5b (i : ℕ) (word : PyVal)
  /-- `ApproxWordListV5b.lookup`, experiments/gemini_optimized_v5.py:440-491 -/
  | lookupV5b (i : ℕ) (word topK : PyVal) (normalize : Bool)
  /-- `ApproxWordListV3(ns, case_sensitive)`, nmd/nmd_index.py:41-59 -/
  | newV3 (ns : List Num) (caseSensitive : Bool)
  /-- `ApproxWordListV3.add_word`, nmd/nmd_index.py:92-128 -/
  | addV3 (i : ℕ) (word : PyVal)
  /-- `ApproxWordListV3.lookup`, nmd/nmd_index.py:156-186 -/
  | lookupV3 (i : ℕ) (word : PyVal) (topK : Option ℤ)

/-- What the program gets back. -/
inductive Out (S : Type) where
  | list (r : Except PyErr (ℕ × List (List Char)))
  | num (v : Num)
  | unit (r : Except PyErr Unit)
  | found (r : Except PyErr (List (List Char × (S ×ₗ ℚ))))
  | foundV5 (r : Except PyErr (List (List Char × S)))
  | foundV3 (r : Except PyErr (List (List Char × S × ℚ)))
  | noObject

/-- The caches and the objects of a process. The word lists V5, V6 and V5b have the same state and
are in one list; that an object has only the methods of its own class is not represented. -/
structure Proc where
  caches : Caches
  wls : List WL
  v3s : List (List Num × V3)

/-- A process that has just imported the package. -/
def Proc.start : Proc := ⟨.empty, [], []⟩

/-- A new `ApproxWordListV3`, nmd/nmd_index.py:41-59. -/
def v3New (ns : List Num) (caseSensitive : Bool) : V3 :=
  { nList := ns.map Num.toInt, caseInsensitive := !caseSensitive, vocabulary := [],
    vocabIndices := [], ngramIndices := [] }

/-- One action of the program, nmd/nmd_index.py:15-634 and
experiments/gemini_optimized_v5.py:43-491. -/
def Proc.step {S : Type} [Ring S] [LinearOrder S] (M : ℕ) (agg : List ℚ → S)
    (cf : List Char → List Char) (p : Proc) : Op → Proc × Out S
  | .grams w n =>
    match callGrams M p.caches w n with
    | (.ok a, c) => ({ p with caches := c }, .list (.ok (a, c.heap.getD a [])))
    | (.error e, c) => ({ p with caches := c }, .list (.error e))
  | .write a l =>
    ({ p with caches := { p.caches with heap := p.caches.heap.set a l } }, .unit (.ok ()))
  | .nums l n =>
    let r := callNums M p.caches l n
    ({ p with caches := r.2 }, .num r.1)
  | .clearGrams => ({ p with caches := { p.caches with grams := [] } }, .unit (.ok ()))
  | .clearNums => ({ p with caches := { p.caches with nums := [] } }, .unit (.ok ()))
  | .newList n cs f =>
    match WL.new n cs f with
    | .ok st => ({ p with wls := p.wls ++ [st] }, .unit (.ok ()))
    | .error e => (p, .unit (.error e))
  | .add i word =>
    match p.wls[i]? with
    | none => (p, .noObject)
    | some st =>
      let r := (addWordP cf st word).exec M p.caches
      ({ p with caches := r.2, wls := p.wls.set i r.1.1 }, .unit r.1.2)
  | .lookup i word topK normalize =>
    match p.wls[i]? with
    | none => (p, .noObject)
    | some st =>
      let r := (lookupP agg cf st word topK normalize).run.exec M p.caches
      ({ p with caches := r.2 }, .found r.1)
  | .lookupV5 i word topK invert normalize =>
    match p.wls[i]? with
    | none => (p, .noObject)
    | some st =>
      let r := (lookupV5P agg cf st word topK invert normalize).run.exec M p.caches
      ({ p with caches := r.2 }, .foundV5 r.1)
  | .newV5b n cs f =>
    match WL.v5bNew n cs f with
    | .ok st => ({ p with wls := p.wls ++ [st] }, .unit (.ok ()))
    | .error e => (p, .unit (.error e))
  | .addV5b i word =>
    match p.wls[i]? with
    | none => (p, .noObject)
    | some st =>
      let r := (v5bAddWordP cf st word).exec M p.caches
      ({ p with caches := r.2, wls := p.wls.set i r.1.1 }, .unit r.1.2)
  | .lookupV5b i word topK normalize =>
    match p.wls[i]? with
    | none => (p, .noObject)
    | some st =>
      let r := (v5bLookupP agg cf st word topK normalize).run.exec M p.caches
      ({ p with caches := r.2 }, .foundV5 r.1)
  | .newV3 ns cs => ({ p with v3s := p.v3s ++ [(ns, v3New ns cs)] }, .unit (.ok ()))
  | .addV3 i word =>
    match p.v3s[i]? with
    | none => (p, .noObject)
    | some o =>
      let r := (v3AddWordP cf o.1 o.2 word).exec M p.caches
      ({ p with caches := r.2, v3s := p.v3s.set i (o.1, r.1.1) }, .unit r.1.2)
  | .lookupV3 i word topK =>
    match p.v3s[i]? with
    | none => (p, .noObject)
    | some o =>
      let r := (v3LookupP agg cf o.1 o.2 word topK).run.exec M p.caches
      ({ p with caches := r.2 }, .foundV3 r.1)

/-- A run of the program: the process afterwards and what the actions returned. -/
def Proc.run {S : Type} [Ring S] [LinearOrder S] (M : ℕ) (agg : List ℚ → S)
    (cf : List Char → List Char) : Proc → List Op → Proc × List (Out S)
  | p, [] => (p, [])
  | p, op :: ops =>
    let r := p.step M agg cf op
    let rs := Proc.run M agg cf r.1 ops
    (rs.1, r.2 :: rs.2)

end Verif.Memo
