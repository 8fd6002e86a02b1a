import Verif.Fp.SetModel
import Verif.Fp.IndexState

/-!
# The state of a word set with floats: the exact state with rounded positions
-/

namespace Verif
namespace Fp

open GramSpec WordSetSpec

variable {R : FOps} {cf : List Char → List Char} {un : Normalizer}

/-! ## Mapping the values of a dictionary -/

/-- The dictionary with all values changed. -/
def mapVals {κ ν μ : Type} (f : ν → μ) (d : Dict κ ν) : Dict κ μ := d.map fun p => (p.1, f p.2)

section
variable {κ ν μ : Type} [DecidableEq κ] (f : ν → μ)

theorem get?_mapVals (d : Dict κ ν) (k : κ) :
    Dict.get? (mapVals f d) k = (Dict.get? d k).map f := by
  induction d with
  | nil => rfl
  | cons e d ih =>
    obtain ⟨k', v⟩ := e
    simp only [mapVals, List.map_cons, Dict.get?]
    split
    · rfl
    · exact ih

theorem set_mapVals (d : Dict κ ν) (k : κ) (v : ν) :
    Dict.set (mapVals f d) k (f v) = mapVals f (Dict.set d k v) := by
  induction d with
  | nil => rfl
  | cons e d ih =>
    obtain ⟨k', v'⟩ := e
    simp only [mapVals, List.map_cons, Dict.set]
    split
    · rfl
    · rw [List.map_cons]
      congr 1

theorem erase_mapVals (d : Dict κ ν) (k : κ) :
    Dict.erase (mapVals f d) k = mapVals f (Dict.erase d k) := by
  unfold Dict.erase mapVals
  rw [List.filter_map]
  rfl

omit [DecidableEq κ] in
theorem keys_mapVals (d : Dict κ ν) : Dict.keys (mapVals f d) = Dict.keys d := by
  unfold Dict.keys mapVals
  rw [List.map_map]
  rfl

omit [DecidableEq κ] in
theorem length_mapVals (d : Dict κ ν) : (mapVals f d).length = d.length := by
  unfold mapVals; rw [List.length_map]

theorem has_mapVals (d : Dict κ ν) (k : κ) : Dict.has (mapVals f d) k = Dict.has d k := by
  rw [Bool.eq_iff_iff, Dict.has_iff, Dict.has_iff, keys_mapVals]

end

theorem appendTo_mapVals {κ : Type} [DecidableEq κ] (f : ℚ → ℚ) (d : Dict κ (List ℚ)) (k : κ)
    (x : ℚ) :
    Dict.appendTo (mapVals (List.map f) d) k (f x) = mapVals (List.map f) (Dict.appendTo d k x) := by
  unfold Dict.appendTo
  rw [get?_mapVals, ← set_mapVals]
  congr 1
  cases Dict.get? d k <;> simp

/-! ## The state -/

/-- The data of a word with rounded positions. -/
def flInfo (R : FOps) (i : WordInfo) : WordInfo :=
  { i with ngramsPos := mapVals (List.map R.fl) i.ngramsPos }

/-- The state with rounded positions. -/
def flWS (R : FOps) (st : WS) : WS := { st with info := mapVals (flInfo R) st.info }

theorem wsAddPositionsF_eq (w : List Char) (d : Dict (List Char) (List ℚ)) (n : ℤ) :
    wsAddPositionsF R w (mapVals (List.map R.fl) d) n =
      mapVals (List.map R.fl) (wsAddPositions w d n) := by
  unfold wsAddPositionsF wsAddPositions
  simp only
  split
  · generalize (wsGrams w n).zipIdx = L
    induction L generalizing d with
    | nil => rfl
    | cons p L ih => rw [List.foldl_cons, List.foldl_cons, appendTo_mapVals, ih]
  · rfl

theorem computeInfoF_eq (st : WS) (w : List Char) :
    computeInfoF R st w = flInfo R (st.computeInfo w) := by
  unfold computeInfoF flInfo WS.computeInfo
  congr 1
  simp only
  have key : ∀ (ns : List ℤ) (d : Dict (List Char) (List ℚ)),
      ns.foldl (wsAddPositionsF R w) (mapVals (List.map R.fl) d) =
        mapVals (List.map R.fl) (ns.foldl (wsAddPositions w) d) := by
    intro ns
    induction ns with
    | nil => intro d; rfl
    | cons n ns ih => intro d; rw [List.foldl_cons, List.foldl_cons, wsAddPositionsF_eq, ih]
  exact key _ []

theorem addSetF_eq (st : WS) (v : PyVal) :
    addSetF R cf un (flWS R st) v = (flWS R (st.add cf un v).1, (st.add cf un v).2) := by
  cases v with
  | int i => rfl
  | other => rfl
  | str w =>
    unfold addSetF WS.add
    simp only [computeInfoF_eq]
    have hn : (flWS R st).normalizeWord cf un w = st.normalizeWord cf un w := rfl
    rw [hn]
    split
    · rfl
    cases st.normalizeWord cf un w with
    | error e => rfl
    | ok nw =>
      simp only
      split
      · rfl
      have hv : (flWS R st).vocab = st.vocab := rfl
      rw [hv]
      split
      · rfl
      · have hi : Dict.set (flWS R st).info (flWS R st).counter
            (flInfo R ((flWS R st).computeInfo nw)) =
            mapVals (flInfo R) (Dict.set st.info st.counter (st.computeInfo nw)) :=
          set_mapVals (flInfo R) st.info st.counter (st.computeInfo nw)
        rw [hi]
        rfl

theorem discard_flWS (st : WS) (v : PyVal) :
    (flWS R st).discard cf un v = (flWS R (st.discard cf un v).1, (st.discard cf un v).2) := by
  cases v with
  | int i => rfl
  | other => rfl
  | str w =>
    unfold WS.discard
    have hn : (flWS R st).normalizeWord cf un w = st.normalizeWord cf un w := rfl
    have hv : (flWS R st).vocab = st.vocab := rfl
    have ho : (flWS R st).originals = st.originals := rfl
    have hi : (flWS R st).info = mapVals (flInfo R) st.info := rfl
    simp only [hn, hv]
    cases st.normalizeWord cf un w with
    | error e => rfl
    | ok nw =>
      simp only
      cases Dict.get? st.vocab nw with
      | none => rfl
      | some id =>
        simp only [ho]
        split
        · rw [hi, get?_mapVals]
          cases Dict.get? st.info id with
          | none => rfl
          | some info =>
            simp only [Option.map_some, erase_mapVals]
            rfl
        · rfl

theorem remove_flWS (st : WS) (v : PyVal) :
    (flWS R st).remove cf un v = (flWS R (st.remove cf un v).1, (st.remove cf un v).2) := by
  cases v with
  | int i => rfl
  | other => rfl
  | str w =>
    unfold WS.remove
    have hn : (flWS R st).normalizeWord cf un w = st.normalizeWord cf un w := rfl
    have hv : (flWS R st).vocab = st.vocab := rfl
    simp only [hn, hv]
    cases st.normalizeWord cf un w with
    | error e => rfl
    | ok nw =>
      simp only
      split
      · exact discard_flWS st _
      · rfl

theorem pop_flWS (st : WS) :
    (flWS R st).pop cf un = (flWS R (st.pop cf un).1, (st.pop cf un).2) := by
  unfold WS.pop
  have hi : (flWS R st).iter = st.iter := rfl
  rw [hi]
  cases st.iter with
  | nil => rfl
  | cons w l =>
    simp only [discard_flWS]
    cases st.discard cf un (.str w) with
    | mk st' r => cases r <;> rfl

theorem forEach_flWS {f g : WS → PyVal → WS × Except PyErr Unit}
    (h : ∀ st v, g (flWS R st) v = (flWS R (f st v).1, (f st v).2)) (st : WS) (vs : List PyVal) :
    WS.forEach g (flWS R st) vs = (flWS R (WS.forEach f st vs).1, (WS.forEach f st vs).2) := by
  induction vs generalizing st with
  | nil => rfl
  | cons v vs ih =>
    unfold WS.forEach
    rw [h]
    cases f st v with
    | mk st' r =>
      cases r with
      | error e => rfl
      | ok u => exact ih st'

theorem setStepF_state (st : WS) (op : WSOp) :
    (setStepF R cf un (flWS R st) op).1 = flWS R (st.step cf un op).1 := by
  cases op with
  | add v => simp only [setStepF, WS.step, addSetF_eq]
  | discard v => simp only [setStepF, WS.step, discard_flWS]
  | remove v => simp only [setStepF, WS.step, remove_flWS]
  | clear => rfl
  | pop => simp only [setStepF, WS.step, pop_flWS]
  | ior vs => simp only [setStepF, WS.step, iorF, WS.ior, forEach_flWS addSetF_eq]
  | isub vs => simp only [setStepF, WS.step, WS.isub, forEach_flWS discard_flWS]
  | contains v => rfl
  | len => rfl
  | iter => rfl
  | findSimilar q k ms => rfl
  | suggest q k => rfl

/-- Calls that return scores or words ordered by scores. -/
def WSOpScored : WSOp → Prop
  | .findSimilar _ _ _ => True
  | .suggest _ _ => True
  | _ => False

theorem setStepF_out (st : WS) {op : WSOp} (h : ¬ WSOpScored op) :
    (setStepF R cf un (flWS R st) op).2 = (st.step cf un op).2 := by
  cases op with
  | add v => simp only [setStepF, WS.step, addSetF_eq]
  | discard v => simp only [setStepF, WS.step, discard_flWS]
  | remove v => simp only [setStepF, WS.step, remove_flWS]
  | clear => rfl
  | pop => simp only [setStepF, WS.step, pop_flWS]
  | ior vs => simp only [setStepF, WS.step, iorF, WS.ior, forEach_flWS addSetF_eq]
  | isub vs => simp only [setStepF, WS.step, WS.isub, forEach_flWS discard_flWS]
  | contains v => rfl
  | len => rfl
  | iter => rfl
  | findSimilar q k ms => exact absurd trivial h
  | suggest q k => exact absurd trivial h

theorem setRunF_eq (st : WS) (ops : List WSOp) :
    setRunF R cf un (flWS R st) ops = flWS R (st.run cf un ops) := by
  induction ops generalizing st with
  | nil => rfl
  | cons op ops ih =>
    have h1 : setRunF R cf un (flWS R st) (op :: ops) =
        setRunF R cf un (setStepF R cf un (flWS R st) op).1 ops := rfl
    have h2 : st.run cf un (op :: ops) = (st.step cf un op).1.run cf un ops := rfl
    rw [h1, h2, setStepF_state, ih]

theorem flWS_new {cs : Option Bool} {cb : Bool} {sizes : NArg} {st : WS}
    (h : WS.new cs cb sizes = .ok st) : flWS R st = st := by
  have := (WSRep.new (cf := fun w => w) (un := none) h).info
  unfold flWS
  rw [this]
  cases st
  simp_all [mapVals]

end Fp
end Verif
