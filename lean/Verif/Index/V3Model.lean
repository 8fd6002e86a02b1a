import Verif.Index.Model

/-!
# Model of `nmd/nmd_index.py`: `ApproxWordListV3`

Conventions as in `Verif.Index.Model`: `cf` stands for `str.casefold`, `agg` for
`fun v => mean(v, dim)`.
-/

namespace Verif

/-- `w[a:b]` for a non-negative start and any integer stop. -/
def pySliceZ {α : Type} (w : List α) (a : ℕ) (b : ℤ) : List α :=
  pySlice w a (if b < 0 then (w.length : ℤ) + b else b).toNat

/-- Attributes of an `ApproxWordListV3` object, nmd/nmd_index.py:41-59. -/
structure V3 where
  nList : List ℤ
  caseInsensitive : Bool
  vocabulary : List (List Char)
  vocabIndices : Dict (List Char) ℕ
  ngramIndices : Dict (List Char) (List (ℕ × List ℚ))
deriving DecidableEq

/-- `ApproxWordListV3(n, case_sensitive)`, nmd/nmd_index.py:41-59; `n` is neither checked nor
sorted nor deduplicated. -/
def V3.new (n : NArg) (caseSensitive : Bool) : Except PyErr V3 :=
  let mk : List ℤ → V3 := fun ns =>
    { nList := ns, caseInsensitive := !caseSensitive, vocabulary := [], vocabIndices := [],
      ngramIndices := [] }
  match n with
  | .int n => .ok (mk [n])
  | .iter ns => .ok (mk ns)
  | .other => .error .typeError

/-- The property `vocabulary`, nmd/nmd_index.py:61-63, under a recursion limit: it reads itself. -/
def V3.vocabularyProperty (st : V3) : ℕ → Except PyErr (List (List Char))
  | 0 => .error .recursionError
  | limit + 1 => do
    let l ← V3.vocabularyProperty st limit
    return l.insertionSort (· ≤ ·)

/-- `word.casefold()` if case-insensitive, nmd/nmd_index.py:72-73, 98-99, 163-164. -/
def V3.fold (cf : List Char → List Char) (st : V3) (w : List Char) : List Char :=
  if st.caseInsensitive then cf w else w

/-- `_resolve_word_index(word, auto_add)`, nmd/nmd_index.py:65-90, on a string. -/
def V3.resolve (cf : List Char → List Char) (st : V3) (w : List Char) (autoAdd : Bool) :
    V3 × Except PyErr (Option ℕ) :=
  if w.length = 0 then (st, .error .valueError)
  else
    let w := st.fold cf w
    match Dict.get? st.vocabIndices w with
    | some i => (st, .ok (some i))
    | none =>
      if !autoAdd then (st, .ok none)
      else
        let idx := st.vocabulary.length
        let st' := { st with
          vocabIndices := Dict.set st.vocabIndices w idx
          vocabulary := st.vocabulary ++ [w] }
        if st'.vocabIndices.length = st'.vocabulary.length ∧ st'.vocabulary.length = idx + 1 ∧
            st'.vocabulary[idx]? = some w then (st', .ok (some idx))
        else (st', .error .assertionError)

/-- The n-grams stored for a word, nmd/nmd_index.py:111-116. -/
def v3AddGrams (w : List Char) (n : ℤ) : List (List Char) :=
  if n > 1 then (List.range (numGrams w.length n).toNat).map (fun i => pySliceZ (pad w) i (i + n))
  else w.map (fun c => [c])

/-- The loop over `n`, nmd/nmd_index.py:110-126 (`set(self.__n_list)`; for positive `n` the order
does not matter, see `V3Inv`). The locations are computed as in `addLocations`. -/
def V3.addGrams (st : V3) (w : List Char) (idx : ℕ) : V3 :=
  { st with
    ngramIndices := st.nList.dedup.foldl (fun d n =>
      (addLocations (v3AddGrams w n)).foldl (fun d it => Dict.appendTo d it.1 (idx, it.2)) d)
      st.ngramIndices }

/-- `add_word(word)`, nmd/nmd_index.py:92-128. -/
def V3.addWord (cf : List Char → List Char) (st : V3) (word : PyVal) : V3 × Except PyErr Unit :=
  match word with
  | .str w =>
    if w.length = 0 then (st, .error .valueError)
    else
      let w := st.fold cf w
      if Dict.has st.vocabIndices w then (st, .ok ())
      else if '\x02' ∈ w ∨ '\x03' ∈ w then (st, .error .assertionError)
      else
        match st.resolve cf w true with
        | (st', .error e) => (st', .error e)
        | (st', .ok idx) => (st'.addGrams w (idx.getD 0), .ok ())
  | _ => (st, .error .typeError)

/-- The n-grams of the query, nmd/nmd_index.py:134: markers are added also for `n = 1`. -/
def v3QueryGrams (q : List Char) (n : ℤ) : List (List Char) :=
  (List.range (numGrams q.length n).toNat).map (fun i => pySliceZ (pad q) i (i + n))

/-- "count matching n-grams", nmd/nmd_index.py:131-144. -/
def V3.matches (st : V3) (q : List Char) : Except PyErr (Dict ℕ (List ℚ)) :=
  st.nList.zipIdx.foldlM (fun ms nk => do
    let locs ← queryLocations (v3QueryGrams q nk.1)
    return locs.foldl (fun ms gl =>
      ((Dict.get? st.ngramIndices gl.1).getD []).foldl (fun ms e =>
        bump st.nList.length ms e.1 nk.2
          (max (gl.2.length : ℚ) e.2.length - emd gl.2 e.2)) ms) ms) []

/-- "normalize scores", nmd/nmd_index.py:147-150, for one word. -/
def V3.normalizeRow (st : V3) (q : List Char) (p : ℕ × List ℚ) : Except PyErr (ℕ × List ℚ) := do
  let norm ← st.nList.zipIdx.mapM (fun nk => do
    let x ← pyGet p.2 nk.2
    let den : ℤ := numGrams q.length nk.1
    if den = 0 then throw PyErr.zeroDivisionError else return x / (den : ℚ))
  return (p.1, norm)

/-- `__lookup(word, dim)`, nmd/nmd_index.py:130-154. -/
def V3.lookupScores {S : Type} (agg : List ℚ → S) (st : V3) (q : List Char) :
    Except PyErr (List (ℕ × S)) := do
  let ms ← st.matches q
  let normed ← ms.mapM (st.normalizeRow q)
  return normed.map (fun p => (p.1, agg p.2))

/-- `if not top_k or top_k < 0: top_k = len(counter)`, nmd/nmd_index.py:172-173; `top_k` is `None`
or an int. -/
def v3TopK (topK : Option ℤ) (all : ℕ) : ℕ :=
  match topK with
  | none => all
  | some k => if k = 0 ∨ k < 0 then all else k.toNat

/-- `lookup(word, top_k, dim)`, nmd/nmd_index.py:156-186. -/
def V3.lookup {S : Type} [LinearOrder S] (agg : List ℚ → S) (cf : List Char → List Char) (st : V3)
    (word : PyVal) (topK : Option ℤ) : Except PyErr (List (List Char × S × ℚ)) :=
  match word with
  | .str w =>
    if w.length = 0 then .error .valueError
    else
      let q := st.fold cf w
      if '\x02' ∈ q ∨ '\x03' ∈ q then .error .assertionError
      else do
        let counter ← st.lookupScores agg q
        let _ ← pyGet (mostCommon counter 1) 0
        let k := v3TopK topK counter.length
        let out ← (mostCommon counter (k * 2)).mapM (fun p => do
          let v ← pyGet st.vocabulary p.1
          let s ← nmd (.str q) (.str v) (.int 2) true true
          return (v, p.2, s))
        return out.take k
  | _ => .error .typeError

end Verif
