import Verif.Index.Model

/-!
# Model of `nmd/nmd_word_set.py`: `WordSet`

* `cf` stands for `str.casefold`; `un` for the `unicode_normalizer` (`none`: disabled; the function
  returns `none` when the Python callable raises). Both are deterministic functions.
* `BitMap` is a list of ids; only membership and emptiness are observed, and the order in which the
  ids are enumerated is irrelevant because the scored ids are sorted afterwards.
* Methods that mutate return the new state together with the result or exception.
-/

namespace Verif

/-- Value stored in `_word_info`, nmd/nmd_word_set.py:168-191 (`norm_len` is never read again). -/
structure WordInfo where
  numGrams : List ℕ
  ngramsPos : Dict (List Char) (List ℚ)
  filterGrams : List (List Char)
deriving DecidableEq

/-- Attributes of a `WordSet`, nmd/nmd_word_set.py:92-132. -/
structure WS where
  caseSensitive : Bool
  nList : List ℤ
  filterN : Option ℤ
  vocab : Dict (List Char) ℕ
  originals : Dict ℕ (List Char)
  counter : ℕ
  info : Dict ℕ WordInfo
  filterIndex : Dict (List Char) (List ℕ)
deriving DecidableEq

/-- `unicode_normalizer`: `None`, or a callable that may raise. -/
abbrev Normalizer := Option (List Char → Option (List Char))

/-- Validation of `ngram_sizes`, nmd/nmd_word_set.py:101-113. The `ValueError` raised inside the
`try` is converted to `TypeError`. (`int(val)` of the elements is taken as already done.) -/
def mkSizes : NArg → Except PyErr (List ℤ)
  | .int n => if n ≤ 0 then .error .valueError else .ok [n]
  | .iter ns =>
    let l := (ns.dedup).insertionSort (· ≤ ·)
    if l = [] ∨ l.any (fun n => decide (n ≤ 0)) then .error .typeError else .ok l
  | .other => .error .typeError

/-- `_effective_filter_n`, nmd/nmd_word_set.py:117-122. -/
def effectiveFilter (ns : List ℤ) : Except PyErr (Option ℤ) :=
  if 3 ∈ ns then .ok (some 3)
  else do
    let m ← pyGet ns 0
    return if m ≤ 4 then some m else none

/-- `WordSet(case_sensitive=…, ngram_sizes=…)`, nmd/nmd_word_set.py:71-132. `case_sensitive` is
`none` if it is not a `bool`; `callable` tells whether `unicode_normalizer` is callable or `None`. -/
def WS.new (caseSensitive : Option Bool) (callable : Bool) (sizes : NArg) : Except PyErr WS := do
  let cs ← match caseSensitive with
    | some b => pure b
    | none => throw PyErr.typeError
  if ¬ callable then throw PyErr.typeError
  let ns ← mkSizes sizes
  let f ← effectiveFilter ns
  return { caseSensitive := cs, nList := ns, filterN := f, vocab := [], originals := [],
           counter := 0, info := [], filterIndex := [] }

/-- `_normalize_word`, nmd/nmd_word_set.py:136-149. -/
def WS.normalizeWord (cf : List Char → List Char) (un : Normalizer) (st : WS) (w : List Char) :
    Except PyErr (List Char) := do
  let w := if st.caseSensitive then w else cf w
  let w ← match un with
    | none => pure w
    | some f =>
      match f w with
      | some w' => pure w'
      | none => throw PyErr.valueError
  if '\x00' ∈ w then throw PyErr.valueError else return w

/-- `_get_n_grams_list`, nmd/nmd_word_set.py:151-159. -/
def wsGrams (w : List Char) (n : ℤ) : List (List Char) :=
  if n ≤ 0 then []
  else
    let m : ℤ := (pad w).length - n + 1
    if m ≤ 0 then []
    else (List.range m.toNat).map (fun i => pySlice (pad w) i (i + n.toNat))

/-- `_get_num_grams`, nmd/nmd_word_set.py:161-166. -/
def wsNumGrams (len : ℕ) (n : ℤ) : ℕ :=
  if n ≤ 0 then 0 else (max 0 ((len : ℤ) + 2 - n + 1)).toNat

/-- One round of the loop over the sizes, nmd/nmd_word_set.py:176-182. -/
def wsAddPositions (w : List Char) (d : Dict (List Char) (List ℚ)) (n : ℤ) :
    Dict (List Char) (List ℚ) :=
  let gs := wsGrams w n
  if gs.length > 0 then
    gs.zipIdx.foldl
      (fun d p => Dict.appendTo d p.1 ((p.2 : ℚ) / (max 1 ((gs.length : ℤ) - 1) : ℤ))) d
  else d

/-- `_compute_word_info`, nmd/nmd_word_set.py:168-191. -/
def WS.computeInfo (st : WS) (w : List Char) : WordInfo :=
  { numGrams := st.nList.map (wsNumGrams w.length)
    ngramsPos := st.nList.foldl (wsAddPositions w) []
    filterGrams :=
      match st.filterN with
      | some f => (wsGrams w f).dedup
      | none => [] }

/-- Adding an id to the bitmap of a filter n-gram, nmd/nmd_word_set.py:229-232. -/
def indexGram (id : ℕ) (d : Dict (List Char) (List ℕ)) (g : List Char) :
    Dict (List Char) (List ℕ) :=
  let bm := (Dict.get? d g).getD []
  Dict.set d g (if id ∈ bm then bm else bm ++ [id])

/-- `add(word)`, nmd/nmd_word_set.py:195-232. -/
def WS.add (cf : List Char → List Char) (un : Normalizer) (st : WS) (word : PyVal) :
    WS × Except PyErr Unit :=
  match word with
  | .str w =>
    if w = [] then (st, .error .valueError)
    else
      match st.normalizeWord cf un w with
      | .error e => (st, .error e)
      | .ok nw =>
        if nw = [] then (st, .error .valueError)
        else if Dict.has st.vocab nw then (st, .ok ())
        else
          let id := st.counter
          let info := st.computeInfo nw
          ({ st with
              counter := st.counter + 1
              vocab := Dict.set st.vocab nw id
              originals := Dict.set st.originals id w
              info := Dict.set st.info id info
              filterIndex :=
                if st.filterN.isSome then info.filterGrams.foldl (indexGram id) st.filterIndex
                else st.filterIndex }, .ok ())
  | _ => (st, .error .typeError)

/-- Removing an id from the bitmap of a filter n-gram, nmd/nmd_word_set.py:254-259. -/
def unindexGram (id : ℕ) (d : Dict (List Char) (List ℕ)) (g : List Char) :
    Dict (List Char) (List ℕ) :=
  match Dict.get? d g with
  | none => d
  | some bm =>
    let bm' := bm.filter (fun i => i ≠ id)
    if bm' = [] then Dict.erase d g else Dict.set d g bm'

/-- `discard(word)`, nmd/nmd_word_set.py:234-259. The `KeyError`s of `del` and `pop` are kept. -/
def WS.discard (cf : List Char → List Char) (un : Normalizer) (st : WS) (word : PyVal) :
    WS × Except PyErr Unit :=
  match word with
  | .str w =>
    match st.normalizeWord cf un w with
    | .error e => (st, .error e)
    | .ok nw =>
      match Dict.get? st.vocab nw with
      | none => (st, .ok ())
      | some id =>
        let st := { st with vocab := Dict.erase st.vocab nw }
        if Dict.has st.originals id then
          let st := { st with originals := Dict.erase st.originals id }
          match Dict.get? st.info id with
          | none => (st, .error .keyError)
          | some info =>
            ({ st with
                info := Dict.erase st.info id
                filterIndex :=
                  if st.filterN.isSome then info.filterGrams.foldl (unindexGram id) st.filterIndex
                  else st.filterIndex }, .ok ())
        else (st, .error .keyError)
  | _ => (st, .error .typeError)

/-- `word in ws`, nmd/nmd_word_set.py:261-266. -/
def WS.contains (cf : List Char → List Char) (un : Normalizer) (st : WS) (word : PyVal) :
    Except PyErr Bool :=
  match word with
  | .str w =>
    match st.normalizeWord cf un w with
    | .error e => .error e
    | .ok nw => .ok (Dict.has st.vocab nw)
  | _ => .ok false

/-- `len(ws)`, nmd/nmd_word_set.py:268-270. -/
def WS.len (st : WS) : ℕ := st.vocab.length

/-- `list(ws)`, nmd/nmd_word_set.py:272-274. -/
def WS.iter (st : WS) : List (List Char) := Dict.values st.originals

/-- `remove(word)`, nmd/nmd_word_set.py:278-288. -/
def WS.remove (cf : List Char → List Char) (un : Normalizer) (st : WS) (word : PyVal) :
    WS × Except PyErr Unit :=
  match word with
  | .str w =>
    match st.normalizeWord cf un w with
    | .error e => (st, .error e)
    | .ok nw => if Dict.has st.vocab nw then st.discard cf un word else (st, .error .keyError)
  | _ => (st, .error .typeError)

/-- `clear()`, nmd/nmd_word_set.py:290-296. -/
def WS.clear (st : WS) : WS :=
  { st with vocab := [], originals := [], info := [], filterIndex := [], counter := 0 }

/-- `pop()`, inherited from `collections.abc.MutableSet` (class statement
nmd/nmd_word_set.py:55): take the first element of the iterator, discard it, return it;
`KeyError` if there is none. -/
def WS.pop (cf : List Char → List Char) (un : Normalizer) (st : WS) :
    WS × Except PyErr (List Char) :=
  match st.iter with
  | [] => (st, .error .keyError)
  | w :: _ =>
    match st.discard cf un (.str w) with
    | (st, .ok _) => (st, .ok w)
    | (st, .error e) => (st, .error e)

/-- `for v in it: f(v)` on a mutable set; stops at the first exception, keeping the changes. -/
def WS.forEach (f : WS → PyVal → WS × Except PyErr Unit) : WS → List PyVal → WS × Except PyErr Unit
  | st, [] => (st, .ok ())
  | st, v :: vs =>
    match f st v with
    | (st, .ok _) => WS.forEach f st vs
    | (st, .error e) => (st, .error e)

/-- `ws |= it`, inherited from `MutableSet.__ior__` (nmd/nmd_word_set.py:55). -/
def WS.ior (cf : List Char → List Char) (un : Normalizer) (st : WS) (it : List PyVal) :
    WS × Except PyErr Unit := WS.forEach (WS.add cf un) st it

/-- `ws -= it` for another iterable, inherited from `MutableSet.__isub__`
(nmd/nmd_word_set.py:55). -/
def WS.isub (cf : List Char → List Char) (un : Normalizer) (st : WS) (it : List PyVal) :
    WS × Except PyErr Unit := WS.forEach (WS.discard cf un) st it

/-- `all(x in other for x in ws)` with the length check: `Set.__le__`, inherited
(nmd/nmd_word_set.py:55), for two `WordSet`s with their own normalisers. -/
def WS.le (st : WS) (cf' : List Char → List Char) (un' : Normalizer) (st' : WS) :
    Except PyErr Bool :=
  if st.len > st'.len then .ok false
  else st.iter.foldr (fun w r => do
    if ← st'.contains cf' un' (.str w) then r else return false) (.ok true)

/-- `ws == other`: `Set.__eq__`, inherited (nmd/nmd_word_set.py:55), for two `WordSet`s. -/
def WS.eq (st : WS) (cf' : List Char → List Char) (un' : Normalizer) (st' : WS) :
    Except PyErr Bool :=
  if st.len = st'.len then st.le cf' un' st' else .ok false

/-- The argument `min_similarity`: `None`, a number, or anything else (NaN included: it fails the
range test). -/
inductive MinSim where
  | none
  | num (x : ℚ)
  | bad
deriving DecidableEq

/-- Range test on `min_similarity`, nmd/nmd_word_set.py:321-323. -/
def MinSim.accepted : MinSim → Bool
  | .none => true
  | .num x => decide (0 ≤ x ∧ x ≤ 1)
  | .bad => false

/-- `d[k]`, raising `KeyError`. -/
def pyKey {κ ν : Type} [DecidableEq κ] (d : Dict κ ν) (k : κ) : Except PyErr ν :=
  match Dict.get? d k with
  | some v => .ok v
  | none => .error .keyError

/-- Union of the bitmaps of the query's filter n-grams, nmd/nmd_word_set.py:346-353. -/
def WS.candidateIds (st : WS) (gs : List (List Char)) : List ℕ :=
  gs.foldl (fun bm g => (bm ++ (Dict.get? st.filterIndex g).getD []).dedup) []

/-- Similarity of the common n-grams of two words, nmd/nmd_word_set.py:376-399. (The loop at
381-389 has no effect.) -/
def wsSimilarity (q w : Dict (List Char) (List ℚ)) : Except PyErr ℚ :=
  let iterKeys := if q.length ≤ w.length then Dict.keys q else Dict.keys w
  let checkDict := if q.length ≤ w.length then w else q
  iterKeys.foldlM (fun s g =>
    if Dict.has checkDict g then do
      let p ← pyKey q g
      let p' ← pyKey w g
      return s + ((p.length : ℚ) + p'.length - emd p p')
    else return s) 0

/-- One candidate of the scoring loop, nmd/nmd_word_set.py:367-406. -/
def WS.scoreStep (st : WS) (qi : WordInfo) (acc : List (ℚ × ℕ)) (id : ℕ) :
    Except PyErr (List (ℚ × ℕ)) := do
  let wi ← pyKey st.info id
  let total ← wsSimilarity qi.ngramsPos wi.ngramsPos
  let norm := qi.numGrams.sum + wi.numGrams.sum
  if norm > 0 then return acc ++ [(-(max 0 (min 1 (total / (norm : ℚ)))), id)]
  else return acc

/-- Tuple comparison used by `candidate_approx_scores.sort()`, nmd/nmd_word_set.py:409. -/
def tupleLe (a b : ℚ × ℕ) : Prop := a.1 < b.1 ∨ (a.1 = b.1 ∧ a.2 ≤ b.2)

instance (a b : ℚ × ℕ) : Decidable (tupleLe a b) := by unfold tupleLe; infer_instance

/-- Scoring, sorting and selecting, nmd/nmd_word_set.py:361-447. -/
def WS.rank (st : WS) (nq : List Char) (ids : List ℕ) (k : ℕ) :
    Except PyErr (List (List Char × ℚ)) := do
  let scored ← ids.foldlM (st.scoreStep (st.computeInfo nq)) []
  ((scored.insertionSort tupleLe).take k).mapM (fun p => do
    return (← pyKey st.originals p.2, -p.1))

/-- `find_similar(query, k, min_similarity)`, nmd/nmd_word_set.py:300-447. -/
def WS.findSimilar (cf : List Char → List Char) (un : Normalizer) (st : WS) (query k : PyVal)
    (minSim : MinSim) : Except PyErr (List (List Char × ℚ)) :=
  match query with
  | .str q =>
    match k with
    | .int k =>
      if k ≤ 0 then .error .valueError
      else
        match minSim.accepted with
        | false => .error .valueError
        | true =>
          if q = [] ∨ st.vocab = [] then .ok []
          else
            match st.normalizeWord cf un q with
            | .error e => .error e
            | .ok nq =>
              if nq = [] then .ok []
              else
                match st.filterN with
                | some f =>
                  let gs := (wsGrams nq f).dedup
                  if gs = [] then .ok []
                  else
                    let ids := st.candidateIds gs
                    if ids = [] then .ok [] else st.rank nq ids k.toNat
                | none => st.rank nq (Dict.keys st.info) k.toNat
    | _ => .error .valueError
  | _ => .error .typeError

/-- `suggest(query, k)`, nmd/nmd_word_set.py:449-456. -/
def WS.suggest (cf : List Char → List Char) (un : Normalizer) (st : WS) (query k : PyVal) :
    Except PyErr (List (List Char)) := do
  let r ← st.findSimilar cf un query k .none
  return r.map Prod.fst

end Verif
