import Verif.Fp.SetProps
import Verif.WordSet.SymProps

/-!
# Property C180 in rounded arithmetic

`R` is any set of (rounded) operations, nothing is assumed about them.
-/

namespace Verif
namespace Fp

open GramSpec WordSetSpec

/-! ### Scores -/

theorem firsts_map {α β : Type} [DecidableEq α] [DecidableEq β] {g : α → β}
    (hg : Function.Injective g) (l : List α) : firsts (l.map g) = (firsts l).map g := by
  have key : ∀ (l acc : List α),
      (l.map g).foldl (fun acc x => if x ∈ acc then acc else acc ++ [x]) (acc.map g) =
        (l.foldl (fun acc x => if x ∈ acc then acc else acc ++ [x]) acc).map g := by
    intro l
    induction l with
    | nil => intro acc; rfl
    | cons x l ih =>
      intro acc
      rw [List.map_cons, List.foldl_cons, List.foldl_cons, ← ih]
      congr 1
      simp only [List.mem_map_of_injective hg]
      split
      · rfl
      · rw [List.map_append]; rfl
  exact key l []

theorem positionsOf_map {f : Char → Char} (hf : Function.Injective f) (hs : f stx = stx)
    (he : f etx = etx) (n : ℕ) (w g : List Char) :
    positionsOf n (w.map f) (g.map f) = positionsOf n w g := by
  have hc : count n (w.map f) = count n w := by rw [count_eq, count_eq, List.length_map]
  unfold positionsOf
  rw [hc]
  congr 1
  apply List.filter_congr
  intro i _
  apply decide_eq_decide.2
  have : gramAt n (w.map f) i = (gramAt n w i).map f := by
    unfold gramAt
    rw [bracketed_map hs he, ← List.map_drop, ← List.map_take]
  rw [this]
  exact (List.map_injective_iff.2 hf).eq_iff

theorem scoreSF_map (R : FOps) {f : Char → Char} (hf : Function.Injective f) (hs : f stx = stx)
    (he : f etx = etx) (ns : List ℕ) (q w : List Char) :
    scoreSF R ns (q.map f) (w.map f) = scoreSF R ns q w := by
  have hfm := List.map_injective_iff.2 hf
  have hall : ∀ w : List Char, allGrams ns (w.map f) = (allGrams ns w).map (List.map f) := by
    intro w
    unfold allGrams
    rw [List.map_flatMap]
    congr 1
    funext n
    exact grams_map hs he n w
  have hfil : ∀ q w : List Char,
      (firsts (allGrams ns (q.map f))).filter (fun g => g ∈ allGrams ns (w.map f)) =
        ((firsts (allGrams ns q)).filter (fun g => g ∈ allGrams ns w)).map (List.map f) := by
    intro q w
    rw [hall, hall, firsts_map hfm, List.filter_map]
    congr 1
    apply List.filter_congr
    intro g _
    exact decide_eq_decide.2 (List.mem_map_of_injective hfm)
  have hvis : visited ns (q.map f) (w.map f) = (visited ns q w).map (List.map f) := by
    have hlen : ∀ w : List Char, (firsts (allGrams ns (w.map f))).length =
        (firsts (allGrams ns w)).length := by
      intro w; rw [hall, firsts_map hfm, List.length_map]
    unfold visited
    rw [hlen, hlen, hfil, hfil]
    split <;> rfl
  have htot : totalCount ns (q.map f) (w.map f) = totalCount ns q w := by
    unfold totalCount
    simp only [count_eq, List.length_map]
  unfold scoreSF simSF
  rw [hvis, htot, List.foldl_map]
  simp only [List.length_map, positionsOf_map hf hs he]

/-! ### Lookups -/

theorem findF_ren {R : FOps} {key : List Char → Option (List Char)} {ns : List ℕ}
    {G : Set (List Char)} {φ : List Char → List Char}
    (h : WordSym key (scoreSF R ns) (Candidate ns) G φ) {s : List Member}
    (hs : MemIn G s) {q : PyVal} (hq : ∀ w, q = .str w → w ∈ G) (k : PyVal) (ms : MinSim) :
    absFindF R key ns (s.map (renMem φ)) (renVal φ q) k ms =
      (absFindF R key ns s q k ms).map (List.map fun p => (φ p.1, p.2)) := by
  cases q with
  | int i => cases k <;> rfl
  | other => cases k <;> rfl
  | str w =>
    have hw := hq w rfl
    cases k with
    | str _ => rfl
    | other => rfl
    | int k =>
      unfold absFindF renVal
      simp only
      split
      · rfl
      · have e : (φ w = [] ∨ s.map (renMem φ) = []) ↔ (w = [] ∨ s = []) := by
          rw [h.nil w hw, List.map_eq_nil_iff]
        simp only [e]
        split
        · rfl
        · rw [h.key w hw]
          cases hk : key w with
          | none => rfl
          | some nq =>
            have hn := h.closed w hw nq hk
            simp only [Option.map_some, h.nil nq hn]
            split
            · rfl
            · simp only [Except.map]
              congr 1
              have := ranked_ren h hs hn k.toNat
              unfold rankedBy
              rw [this, List.map_map, List.map_map]
              apply List.map_congr_left
              intro m hm
              have hm' := hs m (List.mem_filter.1
                ((List.mem_insertionSort _).1 (List.mem_of_mem_take hm))).1
              simp only [Function.comp_apply, renMem]
              rw [h.score nq hn _ hm']

/-- What a call shows, by words instead of ids. -/
def absOutF (R : FOps) (key : List Char → Option (List Char)) (ns : List ℕ) (s : List Member) :
    WSOp → WSOut
  | .findSimilar q k ms => .found (absFindF R key ns s q k ms)
  | .suggest q k => .names ((absFindF R key ns s q k .none).map (List.map Prod.fst))
  | op => (absStep key ns s op).2

/-- What a sequence of calls shows. -/
def absOutputsF (R : FOps) (key : List Char → Option (List Char)) (ns : List ℕ) :
    List Member → List WSOp → List WSOut
  | _, [] => []
  | s, op :: ops => absOutF R key ns s op :: absOutputsF R key ns (absStep key ns s op).1 ops

theorem setStepF_abs {R : FOps} {cf : List Char → List Char} {un : Normalizer} {st : WS}
    {s : List Member} (h : Rep cf un st s) (op : WSOp) :
    (setStepF R cf un (flWS R st) op).2 =
      absOutF R (st.key cf un) (st.nList.map Int.toNat) s op := by
  cases op with
  | findSimilar q k ms => simp only [setStepF, absOutF, findSimilarF_abs h]
  | suggest q k =>
    simp only [setStepF, absOutF, suggestF, findSimilarF_abs h]
    cases absFindF R (st.key cf un) (st.nList.map Int.toNat) s q k .none <;> rfl
  | _ => exact (setStepF_out st (by exact fun h => h)).trans (h.step _).2.1

theorem setOutputsF_abs {R : FOps} {cf : List Char → List Char} {un : Normalizer} :
    ∀ (ops : List WSOp) {st : WS} {s : List Member}, Rep cf un st s →
      setOutputsF R cf un (flWS R st) ops =
        absOutputsF R (st.key cf un) (st.nList.map Int.toNat) s ops
  | [], _, _, _ => rfl
  | op :: ops, st, s, h => by
    unfold setOutputsF absOutputsF
    obtain ⟨h1, _, h3⟩ := h.step op
    rw [setStepF_abs h, setStepF_state, setOutputsF_abs ops h1, h3.key, h3.2.1]

theorem outputsF_ren {R : FOps} {key : List Char → Option (List Char)} {ns : List ℕ}
    {G : Set (List Char)} {φ : List Char → List Char}
    (h : WordSym key (score ns) (Candidate ns) G φ)
    (hF : WordSym key (scoreSF R ns) (Candidate ns) G φ) :
    ∀ (ops : List WSOp) {s : List Member}, MemIn G s → OpsIn G ops →
      absOutputsF R key ns (s.map (renMem φ)) (ops.map (renOp φ)) =
        (absOutputsF R key ns s ops).map (renOut φ)
  | [], _, _, _ => rfl
  | op :: ops, s, hs, hops => by
    obtain ⟨h1, h2⟩ := step_ren h hs op (hops op List.mem_cons_self)
    rw [List.map_cons]
    unfold absOutputsF
    rw [h1, List.map_cons, outputsF_ren h hF ops h2 fun o ho => hops o (List.mem_cons_of_mem _ ho)]
    congr 1
    have hop := hops op List.mem_cons_self
    cases op with
    | findSimilar q k ms =>
      simp only [renOp, absOutF, renOut]
      rw [findF_ren hF hs fun w e => hop w (by simp [opWords, e])]
    | suggest q k =>
      simp only [renOp, absOutF, renOut]
      rw [findF_ren hF hs fun w e => hop w (by simp [opWords, e])]
      cases absFindF R key ns s q k .none with
      | error e => rfl
      | ok l => simp [Except.map, Function.comp_def]
    | _ => exact congrArg Prod.snd h1

/-- **C180.** With rounded arithmetic of any kind: the same calls with renamed words give the same
observations with renamed words, in the same order, and the scores are the same floats. -/
theorem C180_float_rename (R : FOps) {cs : Option Bool} {callable : Bool} {sizes : NArg} {st₀ : WS}
    (h : WS.new cs callable sizes = .ok st₀) {cf : List Char → List Char} {un : Normalizer}
    {f : Char → Char} (hf : Function.Injective f) (hs : f stx = stx) (he : f etx = etx)
    (h0 : f '\x00' = '\x00') (hcf : st₀.caseSensitive = false → ∀ w, cf (w.map f) = (cf w).map f)
    (hun : ∀ g, un = some g → ∀ v : List Char, g (v.map f) = (g v).map (List.map f))
    (ops : List WSOp) :
    setOutputsF R cf un st₀ (ops.map (renOp (List.map f))) =
      (setOutputsF R cf un st₀ ops).map (renOut (List.map f)) := by
  have hr := Rep.new (cf := cf) (un := un) h
  have hsym := rename_sym (cs := st₀.caseSensitive) (cf := cf) (un := un) hf hs he h0 hcf hun
    (st₀.nList.map Int.toNat)
  have hsymF : WordSym (keyOf st₀.caseSensitive cf un) (scoreSF R (st₀.nList.map Int.toNat))
      (Candidate (st₀.nList.map Int.toNat)) Set.univ (List.map f) :=
    ⟨hsym.inj, hsym.nil, hsym.key, hsym.closed, hsym.cand,
      fun q _ w _ => scoreSF_map R hf hs he _ q w⟩
  rw [← flWS_new (R := R) h, setOutputsF_abs _ hr, setOutputsF_abs _ hr]
  exact outputsF_ren hsym hsymF ops (s := []) (fun m hm => by cases hm)
    fun _ _ _ _ => Set.mem_univ _

example : setOutputsF binary64 id none symSet (symOps.map (renOp (List.map (Equiv.swap 'a' 'b')))) =
    (setOutputsF binary64 id none symSet symOps).map (renOut (List.map (Equiv.swap 'a' 'b'))) := by
  decide +kernel

end Fp
end Verif
