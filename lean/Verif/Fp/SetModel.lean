import Verif.WordSet.Machine
import Verif.Fp.Model

/-!
# `WordSet` in rounded arithmetic

The same code as in `Verif.WordSet.Model`, nmd/nmd_word_set.py, with every arithmetic operation on
floats rounded. The attributes are those of `Verif.WS`; the stored positions are floats now. The
methods that neither compute nor read positions (`discard`, `remove`, `clear`, `pop`, `in`, `len`,
iteration) are those of `Verif.WordSet.Model`.

Conversions of lengths to floats (`float(max(1, num_grams_for_n - 1))`, the integers in
`len(q_pos) + len(w_pos) - emd` and in the quotient) are taken as exact, which they are up to `2 ^ 53`.
-/

namespace Verif
namespace Fp

variable (R : FOps)

/-- One round of the loop over the sizes, nmd/nmd_word_set.py:176-182. -/
def wsAddPositionsF (w : List Char) (d : Dict (List Char) (List ℚ)) (n : ℤ) :
    Dict (List Char) (List ℚ) :=
  let gs := wsGrams w n
  if gs.length > 0 then
    gs.zipIdx.foldl
      (fun d p => Dict.appendTo d p.1 (R.fl ((p.2 : ℚ) / (max 1 ((gs.length : ℤ) - 1) : ℤ)))) d
  else d

/-- `_compute_word_info`, nmd/nmd_word_set.py:168-191. -/
def computeInfoF (st : WS) (w : List Char) : WordInfo :=
  { numGrams := st.nList.map (wsNumGrams w.length)
    ngramsPos := st.nList.foldl (wsAddPositionsF R w) []
    filterGrams :=
      match st.filterN with
      | some f => (wsGrams w f).dedup
      | none => [] }

/-- `add(word)`, nmd/nmd_word_set.py:195-232. -/
def addSetF (cf : List Char → List Char) (un : Normalizer) (st : WS) (word : PyVal) :
    WS × Except PyErr Unit :=
  match word with
  | .str w =>
    if w = [] then (st, .error .valueError)
    else
      match st.normalizeWord cf un w with
      | .error e => (st, .error e)
      | .ok nw =>
        if nw = [] then (st, .error .valueError)
        else if Dict.has st.vocab nw then (st, .ok ())
        else
          let id := st.counter
          let info := computeInfoF R st nw
          ({ st with
              counter := st.counter + 1
              vocab := Dict.set st.vocab nw id
              originals := Dict.set st.originals id w
              info := Dict.set st.info id info
              filterIndex :=
                if st.filterN.isSome then info.filterGrams.foldl (indexGram id) st.filterIndex
                else st.filterIndex }, .ok ())
  | _ => (st, .error .typeError)

/-- Similarity of the common n-grams of two words, nmd/nmd_word_set.py:376-399: a rounded
subtraction and a rounded addition for every common n-gram. -/
def wsSimilarityF (q w : Dict (List Char) (List ℚ)) : Except PyErr ℚ :=
  let iterKeys := if q.length ≤ w.length then Dict.keys q else Dict.keys w
  let checkDict := if q.length ≤ w.length then w else q
  iterKeys.foldlM (fun s g =>
    if Dict.has checkDict g then do
      let p ← pyKey q g
      let p' ← pyKey w g
      return R.fl (s + R.fl ((p.length : ℚ) + p'.length - emdF R p p'))
    else return s) 0

/-- One candidate of the scoring loop, nmd/nmd_word_set.py:367-406. -/
def scoreStepF (st : WS) (qi : WordInfo) (acc : List (ℚ × ℕ)) (id : ℕ) :
    Except PyErr (List (ℚ × ℕ)) := do
  let wi ← pyKey st.info id
  let total ← wsSimilarityF R qi.ngramsPos wi.ngramsPos
  let norm := qi.numGrams.sum + wi.numGrams.sum
  if norm > 0 then return acc ++ [(-(max 0 (min 1 (R.fl (total / (norm : ℚ))))), id)]
  else return acc

/-- Scoring, sorting and selecting, nmd/nmd_word_set.py:361-447. -/
def rankF (st : WS) (nq : List Char) (ids : List ℕ) (k : ℕ) :
    Except PyErr (List (List Char × ℚ)) := do
  let scored ← ids.foldlM (scoreStepF R st (computeInfoF R st nq)) []
  ((scored.insertionSort tupleLe).take k).mapM (fun p => do
    return (← pyKey st.originals p.2, -p.1))

/-- `find_similar(query, k, min_similarity)`, nmd/nmd_word_set.py:300-447. -/
def findSimilarF (cf : List Char → List Char) (un : Normalizer) (st : WS) (query k : PyVal)
    (minSim : MinSim) : Except PyErr (List (List Char × ℚ)) :=
  match query with
  | .str q =>
    match k with
    | .int k =>
      if k ≤ 0 then .error .valueError
      else
        match minSim.accepted with
        | false => .error .valueError
        | true =>
          if q = [] ∨ st.vocab = [] then .ok []
          else
            match st.normalizeWord cf un q with
            | .error e => .error e
            | .ok nq =>
              if nq = [] then .ok []
              else
                match st.filterN with
                | some f =>
                  let gs := (wsGrams nq f).dedup
                  if gs = [] then .ok []
                  else
                    let ids := st.candidateIds gs
                    if ids = [] then .ok [] else rankF R st nq ids k.toNat
                | none => rankF R st nq (Dict.keys st.info) k.toNat
    | _ => .error .valueError
  | _ => .error .typeError

/-- `suggest(query, k)`, nmd/nmd_word_set.py:449-456. -/
def suggestF (cf : List Char → List Char) (un : Normalizer) (st : WS) (query k : PyVal) :
    Except PyErr (List (List Char)) := do
  let r ← findSimilarF R cf un st query k .none
  return r.map Prod.fst

/-- `ws |= it`, inherited from `MutableSet.__ior__` (nmd/nmd_word_set.py:55). -/
def iorF (cf : List Char → List Char) (un : Normalizer) (st : WS) (it : List PyVal) :
    WS × Except PyErr Unit := WS.forEach (addSetF R cf un) st it

/-- One call on the modelled object. -/
def setStepF (cf : List Char → List Char) (un : Normalizer) (st : WS) : WSOp → WS × WSOut
  | .add v => ((addSetF R cf un st v).1, .unit (addSetF R cf un st v).2)
  | .discard v => ((st.discard cf un v).1, .unit (st.discard cf un v).2)
  | .remove v => ((st.remove cf un v).1, .unit (st.remove cf un v).2)
  | .clear => (st.clear, .unit (.ok ()))
  | .pop => ((st.pop cf un).1, .word (st.pop cf un).2)
  | .ior vs => ((iorF R cf un st vs).1, .unit (iorF R cf un st vs).2)
  | .isub vs => ((st.isub cf un vs).1, .unit (st.isub cf un vs).2)
  | .contains v => (st, .bool (st.contains cf un v))
  | .len => (st, .nat st.len)
  | .iter => (st, .words st.iter)
  | .findSimilar q k ms => (st, .found (findSimilarF R cf un st q k ms))
  | .suggest q k => (st, .names (suggestF R cf un st q k))

/-- State after a sequence of calls. -/
def setRunF (cf : List Char → List Char) (un : Normalizer) (st : WS) (ops : List WSOp) : WS :=
  ops.foldl (fun st op => (setStepF R cf un st op).1) st

/-- Observations made by a sequence of calls. -/
def setOutputsF (cf : List Char → List Char) (un : Normalizer) : WS → List WSOp → List WSOut
  | _, [] => []
  | st, op :: ops =>
    (setStepF R cf un st op).2 :: setOutputsF cf un (setStepF R cf un st op).1 ops

/-- States reachable from the constructor, nmd/nmd_word_set.py:71-132, by calls of the public
interface. -/
def SetReachableF (cf : List Char → List Char) (un : Normalizer) (st : WS) : Prop :=
  ∃ cs cb sizes st₀ ops, WS.new cs cb sizes = .ok st₀ ∧ st = setRunF R cf un st₀ ops

end Fp
end Verif
