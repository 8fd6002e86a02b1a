import Verif.Index.History
import Verif.Core.Props

/-!
# Properties C23–C34, C44, C45: word lists

`WL.new n case_sensitive filter_n` is the constructor, `WL.addWord`, `WL.lookup`, `WL.lookupV5` and
`WL.vocabulary` the methods. `cf` is `str.casefold`, assumed idempotent. `agg` is
`fun scores => mean(scores, dim)`; `pyMean_monotone` and `pyMean_strict` show that it has the
required monotonicity for every real `dim > 0`.
-/

namespace Verif

open GramSpec IndexSpec

variable {cf : List Char → List Char} {S : Type} [LinearOrder S]

/-! ### A small list used in the examples -/

/-- `WordList(n=(2, 3), filter_n=0)` after adding three words (and failing twice). -/
def demoOps : List WLOp :=
  [.add (.str "banana".toList), .add (.str ['\x02']), .lookup (.str "x".toList) (.int 1) false,
   .add (.int 3), .add (.str "bandana".toList), .add (.str "banana".toList),
   .add (.str "cabana".toList)]

/-- The empty list with n = (2, 3). -/
def demo₀ : WL :=
  { nList := [2, 3], caseInsensitive := false, filterN := 0, wordIndices := [], wordList := [],
    wordLens := [], wordNumGrams := [], ngramFilter := [], ngramCounts := [],
    ngramPositions := [] }

/-- The list after `demoOps`. -/
def demo : WL := demo₀.run id demoOps

theorem demo_reachable : demo.Reachable id :=
  ⟨.iter [3, 2, 3], true, 0, demo₀, demoOps, by decide +kernel, rfl⟩

/-- Results with the score pairs spelled out (for the examples). -/
def plain (r : Except PyErr (List (List Char × (ℚ ×ₗ ℚ)))) :
    Except PyErr (List (String × ℚ × ℚ)) :=
  r.map (List.map (fun p => (String.ofList p.1, (ofLex p.2).1, (ofLex p.2).2)))

/-! ### Vocabulary -/

/-- C23. After any sequence of calls the vocabulary is strictly ascending (hence duplicate-free)
and contains exactly the folded forms of the words whose `add_word` succeeded. -/
theorem C23_vocabulary (hcf : ∀ w, cf (cf w) = cf w) {n : NArg} {cs : Bool} {fn : ℤ} {st₀ : WL}
    (h0 : WL.new n cs fn = .ok st₀) (ops : List WLOp) :
    (st₀.run cf ops).vocabulary.Pairwise (· < ·) ∧
    ∀ x, x ∈ (st₀.run cf ops).vocabulary ↔ ∃ v, WLOp.add v ∈ ops ∧ Adds cf (!cs) v x := by
  have hi0 : WLInv cf st₀ := WLInv.new h0
  have hi := hi0.run hcf ops
  have hmem : ∀ (st : WL) x, x ∈ st.vocabulary ↔ x ∈ st.wordList := by
    intro st x; exact (List.perm_insertionSort _ _).mem_iff
  have hci : st₀.caseInsensitive = !cs ∧ st₀.wordList = [] := by
    unfold WL.new at h0
    cases hm : mkNList n with
    | error e => rw [hm] at h0; cases h0
    | ok l =>
      rw [hm] at h0
      injection h0 with h0
      subst h0; exact ⟨rfl, rfl⟩
  constructor
  · have h1 : (st₀.run cf ops).vocabulary.Pairwise
        (fun a b => a ≤ b) := List.pairwise_insertionSort _ _
    have h2 : (st₀.run cf ops).vocabulary.Nodup :=
      (List.perm_insertionSort _ _).nodup_iff.2 hi.nodupW
    exact (h1.and h2).imp (fun h => lt_of_le_of_ne h.1 h.2)
  · intro x
    rw [hmem]
    clear hi
    induction ops using List.reverseRecOn with
    | nil => simp [WL.run, hci.2]
    | append_singleton ops op ih =>
      have hi := hi0.run hcf ops
      have hc := (config_run hcf hi0 ops).2.2
      rw [hci.1] at hc
      rw [run_append_singleton]
      have hsplit : (∃ v, WLOp.add v ∈ ops ++ [op] ∧ Adds cf (!cs) v x) ↔
          (∃ v, WLOp.add v ∈ ops ∧ Adds cf (!cs) v x) ∨ (∃ v, op = .add v ∧ Adds cf (!cs) v x) := by
        constructor
        · rintro ⟨v, hv, ha⟩
          rcases List.mem_append.1 hv with hv | hv
          · exact Or.inl ⟨v, hv, ha⟩
          · rw [List.mem_singleton] at hv; exact Or.inr ⟨v, hv.symm, ha⟩
        · rintro (⟨v, hv, ha⟩ | ⟨v, rfl, ha⟩)
          · exact ⟨v, by simp [hv], ha⟩
          · exact ⟨v, by simp, ha⟩
      rw [hsplit, ← ih]
      cases op with
      | lookup a b c => simp [WL.step]
      | add v =>
        obtain ⟨_, h2, h3⟩ := addWord_words hcf hi v
        rw [hc] at h2 h3
        simp only [WL.step]
        have e : (∃ v', WLOp.add v = .add v' ∧ Adds cf (!cs) v' x) ↔ Adds cf (!cs) v x := by
          constructor
          · rintro ⟨v', he, ha⟩; injection he with he; rw [he]; exact ha
          · intro ha; exact ⟨v, rfl, ha⟩
        rw [e]
        by_cases hx : ∃ y, Adds cf (!cs) v y
        · obtain ⟨y, hy⟩ := hx
          have huniq : ∀ z, Adds cf (!cs) v z → z = y := by
            rintro z ⟨w, rfl, _, hz, _⟩
            obtain ⟨w', hw', _, hy', _⟩ := hy
            injection hw' with hw'
            subst hw'
            rw [← hz, ← hy']
          rw [h2 y hy]
          have hxy : Adds cf (!cs) v x ↔ x = y := ⟨huniq x, fun h => h ▸ hy⟩
          rw [hxy]
          split
          · constructor
            · exact Or.inl
            · rintro (h | rfl) <;> assumption
          · simp
        · rw [not_exists] at hx
          rw [h3 hx]
          simp [hx x]

example : demo.vocabulary = ["banana".toList, "bandana".toList, "cabana".toList] := by
  decide +kernel

/-- C24. `add_word` succeeds exactly for non-empty strings whose folded form is non-empty and
contains no marker; if it raises, the list is unchanged; once it succeeded, adding the word again
in any spelling with the same folded form succeeds and changes nothing. -/
theorem C24_add_word (hcf : ∀ w, cf (cf w) = cf w) {st : WL} (hr : st.Reachable cf) (v : PyVal) :
    ((st.addWord cf v).2 = .ok () ↔ ∃ x, Adds cf st.caseInsensitive v x) ∧
    (∀ e, (st.addWord cf v).2 = .error e → (st.addWord cf v).1 = st) ∧
    (∀ x v', Adds cf st.caseInsensitive v x → Adds cf st.caseInsensitive v' x →
      ((st.addWord cf v).1.addWord cf v') = ((st.addWord cf v).1, .ok ())) := by
  have hi := hr.inv hcf
  obtain ⟨h1, h2, h3⟩ := addWord_words hcf hi v
  refine ⟨h1, ?_, ?_⟩
  · intro e he
    apply h3
    intro x hx
    rw [h1.2 ⟨x, hx⟩] at he
    cases he
  · intro x v' hx hx'
    have hi' := hi.addWord hcf v
    have hc := (config_addWord hcf hi v).2.2
    have hxm : x ∈ (st.addWord cf v).1.wordList := by
      rw [h2 x hx]; split
      · assumption
      · simp
    obtain ⟨w', rfl, hw', he, _⟩ := hx'
    rw [addWord_cases hcf hi']
    have : (st.addWord cf v).1.fold cf w' = x := by
      unfold WL.fold; rw [hc]; exact he
    simp only [if_neg hw', this, if_pos hxm]

/-- A case-insensitive list keeps one of 'Banana' and 'banana'. -/
example : let st := { demo₀ with caseInsensitive := true }
    let cf : List Char → List Char := List.map Char.toLower
    (((st.addWord cf (.str "Banana".toList)).1.addWord cf (.str "bANANA".toList)).1).vocabulary
      = ["banana".toList] := by decide +kernel

/-- The word a call adds or finds present. -/
def addedBy (cf : List Char → List Char) (ci : Bool) : WLOp → Option (List Char)
  | .add (.str w) =>
    if w ≠ [] ∧ (if ci then cf w else w) ≠ [] ∧ '\x02' ∉ (if ci then cf w else w) ∧
        '\x03' ∉ (if ci then cf w else w) then some (if ci then cf w else w) else none
  | _ => none

/-- The words newly added by a history, in order. -/
def newWords (cf : List Char → List Char) (ci : Bool) (ops : List WLOp) : List (List Char) :=
  (ops.filterMap (addedBy cf ci)).foldl (fun l x => if x ∈ l then l else l ++ [x]) []

theorem run_eq (hcf : ∀ w, cf (cf w) = cf w) {n : NArg} {cs : Bool} {fn : ℤ} {st₀ : WL}
    (h0 : WL.new n cs fn = .ok st₀) (ops : List WLOp) :
    st₀.run cf ops = (newWords cf (!cs) ops).foldl WL.inserted st₀ ∧
      (st₀.run cf ops).wordList = newWords cf (!cs) ops := by
  have hi0 : WLInv cf st₀ := WLInv.new h0
  have hci : st₀.caseInsensitive = !cs ∧ st₀.wordList = [] := by
    unfold WL.new at h0
    cases hm : mkNList n with
    | error e => rw [hm] at h0; cases h0
    | ok l =>
      rw [hm] at h0
      injection h0 with h0
      subst h0; exact ⟨rfl, rfl⟩
  induction ops using List.reverseRecOn with
  | nil => simp [WL.run, newWords, hci.2]
  | append_singleton ops op ih =>
    obtain ⟨ih1, ih2⟩ := ih
    have hi := hi0.run hcf ops
    have hc := (config_run hcf hi0 ops).2.2
    rw [hci.1] at hc
    rw [run_append_singleton]
    have hnew : newWords cf (!cs) (ops ++ [op]) = match addedBy cf (!cs) op with
        | some x => if x ∈ newWords cf (!cs) ops then newWords cf (!cs) ops
            else newWords cf (!cs) ops ++ [x]
        | none => newWords cf (!cs) ops := by
      unfold newWords
      rw [List.filterMap_append, List.foldl_append]
      cases h : addedBy cf (!cs) op <;> simp [h]
    rw [hnew]
    cases op with
    | lookup a b c => exact ⟨ih1, ih2⟩
    | add v =>
      cases v with
      | int i => exact ⟨ih1, ih2⟩
      | other => exact ⟨ih1, ih2⟩
      | str w =>
        have hf : (st₀.run cf ops).fold cf w = if (!cs) = true then cf w else w := by
          unfold WL.fold; rw [hc]
        simp only [WL.step, addWord_cases hcf hi, hf, addedBy]
        generalize hx : (if (!cs) = true then cf w else w) = x
        by_cases h1 : w = []
        · simp only [h1, ne_eq, not_true, false_and, if_false, if_true]; exact ⟨ih1, ih2⟩
        rw [if_neg h1]
        by_cases h2 : x ∈ (st₀.run cf ops).wordList
        · have := hi.words x h2
          have hc : w ≠ [] ∧ x ≠ [] ∧ '\x02' ∉ x ∧ '\x03' ∉ x := ⟨h1, this.2.1, this.1⟩
          rw [if_pos h2]
          simp only [if_pos hc]
          rw [ih2] at h2
          rw [if_pos h2]
          exact ⟨ih1, ih2⟩
        rw [if_neg h2]
        by_cases h3 : ¬ ('\x02' ∉ x ∧ '\x03' ∉ x)
        · have hc : ¬ (w ≠ [] ∧ x ≠ [] ∧ '\x02' ∉ x ∧ '\x03' ∉ x) := fun h => h3 h.2.2
          rw [if_pos h3]
          simp only [if_neg hc]
          exact ⟨ih1, ih2⟩
        rw [if_neg h3]
        by_cases h4 : x = []
        · have hc : ¬ (w ≠ [] ∧ x ≠ [] ∧ '\x02' ∉ x ∧ '\x03' ∉ x) := fun h => h.2.1 h4
          rw [if_pos h4]
          simp only [if_neg hc]
          exact ⟨ih1, ih2⟩
        · have hc : w ≠ [] ∧ x ≠ [] ∧ '\x02' ∉ x ∧ '\x03' ∉ x := ⟨h1, h4, not_not.1 h3⟩
          rw [if_neg h4]
          simp only [if_pos hc]
          have h2' := h2
          rw [ih2] at h2'
          rw [if_neg h2', List.foldl_append]
          simp only [List.foldl_cons, List.foldl_nil]
          rw [← ih1]
          refine ⟨rfl, ?_⟩
          rw [wordList_inserted, ih2]

/-- C25. The whole state, and with it the answer to every later call, depends only on the sequence
of newly added words: lookups, failing calls and repeated additions leave no trace. -/
theorem C25_history_independent (hcf : ∀ w, cf (cf w) = cf w) {n : NArg} {cs : Bool} {fn : ℤ}
    {st₀ : WL} (h0 : WL.new n cs fn = .ok st₀) (ops ops' : List WLOp)
    (h : newWords cf (!cs) ops = newWords cf (!cs) ops') : st₀.run cf ops = st₀.run cf ops' := by
  rw [(run_eq hcf h0 ops).1, (run_eq hcf h0 ops').1, h]

example : newWords id false demoOps = newWords id false
    [.add (.str "banana".toList), .add (.str "bandana".toList), .add (.str "cabana".toList)] ∧
    newWords id false demoOps ≠ [] := by decide +kernel

/-! ### Lookups -/

/-- The result properties of a lookup that did not raise. -/
theorem lookup_result (hcf : ∀ w, cf (cf w) = cf w) {st : WL} (hr : st.Reachable cf)
    {agg : List ℚ → S} (hagg : MonotoneAgg agg) {word topK : PyVal} {normalize : Bool}
    {res : List (List Char × (S ×ₗ ℚ))}
    (h : st.lookup agg cf word topK normalize = .ok res) :
    ∃ w k, word = .str w ∧ w ≠ [] ∧ topK = .int k ∧ 0 < k ∧ Clean (st.fold cf w) ∧
      LookupResult agg st.nList st.filterN normalize st.wordList k.toNat (st.fold cf w) res := by
  have hi := hr.inv hcf
  have hargs : ∃ w k, word = .str w ∧ w ≠ [] ∧ topK = .int k ∧ 0 < k ∧ Clean (st.fold cf w) := by
    unfold WL.lookup at h
    cases hc : st.checkLookup cf word topK with
    | error e => rw [hc] at h; cases h
    | ok p =>
      clear h
      unfold WL.checkLookup at hc
      cases word with
      | int i => cases hc
      | other => cases hc
      | str w =>
        simp only at hc
        split at hc
        · cases hc
        rename_i hw
        cases topK with
        | str s => cases hc
        | other => cases hc
        | int k =>
          simp only at hc
          split at hc
          · cases hc
          rename_i hk
          split at hc
          · cases hc
          rename_i hcl
          rw [not_or] at hcl
          exact ⟨w, k, rfl, by simpa using hw, rfl, not_le.1 hk, hcl⟩
  obtain ⟨w, k, rfl, hw, rfl, hk, hcl⟩ := hargs
  refine ⟨w, k, rfl, hw, rfl, hk, hcl, ?_⟩
  obtain ⟨h1, h2⟩ := lookup_spec hi hagg hw hk rfl hcl normalize
  by_cases hf : LookupFails agg st.nList st.filterN normalize st.wordList k.toNat (st.fold cf w)
  · rw [h1 hf] at h; cases h
  · obtain ⟨res', h3, h4⟩ := h2 hf
    rw [h] at h3
    injection h3 with h3
    exact h3 ▸ h4

/-- C26. Returned words are in the vocabulary, distinct, at most `top_k`, best first (by score,
then by bigram similarity). -/
theorem C26_lookup_shape (hcf : ∀ w, cf (cf w) = cf w) {st : WL} (hr : st.Reachable cf)
    {agg : List ℚ → S} (hagg : MonotoneAgg agg) {word : PyVal} {k : ℤ} {normalize : Bool}
    {res : List (List Char × (S ×ₗ ℚ))}
    (h : st.lookup agg cf word (.int k) normalize = .ok res) :
    (∀ r ∈ res, r.1 ∈ st.vocabulary) ∧ (res.map Prod.fst).Nodup ∧ (res.length : ℤ) ≤ k ∧
    res.Pairwise (fun a b => (ofLex b.2).1 < (ofLex a.2).1 ∨
      ((ofLex b.2).1 = (ofLex a.2).1 ∧ (ofLex b.2).2 ≤ (ofLex a.2).2)) := by
  obtain ⟨w, k', rfl, _, hk, hk0, _, hres⟩ := lookup_result hcf hr hagg h
  injection hk with hk
  subst hk
  refine ⟨?_, hres.nodup, ?_, ?_⟩
  · intro r hr
    exact (List.perm_insertionSort _ _).mem_iff.2 (hres.scores r hr).1
  · have := hres.length
    omega
  · exact hres.sorted.imp (fun h => Prod.Lex.le_iff.1 h)

example : plain (demo.lookup mean1 id (.str "bananas".toList) (.int 2) true) =
    .ok [("banana", 1383 / 1820, 163 / 210), ("bandana", 43 / 84, 17 / 28)] := by
  decide +kernel

/-- C27. The first component of a returned score is the aggregate, over the configured `n`, of the
similarity between the query and the word as computed from the two strings alone; the second is
`ngram_movers_distance(query, word, invert=True, normalize=normalize)`. -/
theorem C27_scores_exact (hcf : ∀ w, cf (cf w) = cf w) {st : WL} (hr : st.Reachable cf)
    {agg : List ℚ → S} (hagg : MonotoneAgg agg) {w : List Char} {topK : PyVal} {normalize : Bool}
    {res : List (List Char × (S ×ₗ ℚ))}
    (h : st.lookup agg cf (.str w) topK normalize = .ok res) :
    ∀ r ∈ res,
      (ofLex r.2).1 = agg (st.nList.map (fun n => scoreN normalize n (st.fold cf w) r.1)) ∧
      nmd (.str (st.fold cf w)) (.str r.1) (.int 2) true normalize = .ok (ofLex r.2).2 := by
  obtain ⟨w', k', hw', _, _, _, _, hres⟩ := lookup_result hcf hr hagg h
  injection hw' with hw'
  subst hw'
  intro r hr
  exact (hres.scores r hr).2.2

/-- C27, continued. For `n ≥ 2` the similarity used is exactly what `ngram_movers_distance` with
`invert=True` returns for the two strings (it raises when normalising by a zero count). -/
theorem C27_score_is_nmd {q w : List Char} (hq : Clean q) (hw : Clean w) {n : ℤ} (hn : 2 ≤ n)
    (normalize : Bool) :
    nmd (.str q) (.str w) (.int n) true normalize =
      if normalize = true ∧ (q.length : ℤ) + w.length + 6 = 2 * n then .error .zeroDivisionError
      else .ok (scoreN normalize n q w) := by
  have hs : simN n q w = locSim (located n.toNat q) (located n.toNat w) := by
    rw [simN_eq, ← located_eq_locatedOf (by omega), ← located_eq_locatedOf (by omega),
      getNGrams_eq_gramsOf, getNGrams_eq_gramsOf]
  have hd : (denom n q w : ℤ) = countInt n q + countInt n w := by
    unfold denom countInt; rw [if_pos (by omega)]; ring
  rw [nmd_valid hq hw hn]
  cases normalize with
  | false => simp [scoreN, hs]
  | true =>
    simp only [if_true, true_and, scoreN, hs]
    have e : (countInt n q + countInt n w = 0) ↔ ((q.length : ℤ) + w.length + 6 = 2 * n) := by
      unfold countInt; omega
    by_cases h : countInt n q + countInt n w = 0
    · rw [if_pos h, if_pos (e.1 h)]
    · rw [if_neg h, if_neg (fun h' => h (e.2 h')), hd]; push_cast; rfl

/-- Two bigram scores and a trigram score behind the demo result. -/
example : scoreN true 2 "bananas".toList "banana".toList = 163 / 210 ∧
    scoreN true 3 "bananas".toList "banana".toList = 29 / 39 ∧
    mean1 [163 / 210, 29 / 39] = 1383 / 1820 := by
  refine ⟨?_, ?_, ?_⟩ <;> decide +kernel

/-- C28. Pruning is sound: the list of returned scores is exactly the list of the best
`top_k` scores among all eligible words (fewer if there are fewer), and no eligible word that is
left out scores higher than a returned one. -/
theorem C28_pruning_sound (hcf : ∀ w, cf (cf w) = cf w) {st : WL} (hr : st.Reachable cf)
    {agg : List ℚ → S} (hagg : MonotoneAgg agg) {w : List Char} {k : ℤ} {normalize : Bool}
    {res : List (List Char × (S ×ₗ ℚ))}
    (h : st.lookup agg cf (.str w) (.int k) normalize = .ok res) :
    TopScores ((eligibleWords st.nList st.filterN (st.fold cf w) st.vocabulary).map
        (fun v => agg (scoreVec st.nList normalize (st.fold cf w) v))) k.toNat
      (res.map (fun r => (ofLex r.2).1)) ∧
    ∀ v ∈ st.vocabulary, Eligible st.nList st.filterN (st.fold cf w) v →
      v ∉ res.map Prod.fst →
      ∀ r ∈ res, agg (scoreVec st.nList normalize (st.fold cf w) v) ≤ (ofLex r.2).1 := by
  obtain ⟨w', k', hw', _, hk', _, _, hres⟩ := lookup_result hcf hr hagg h
  injection hw' with hw'
  injection hk' with hk'
  subst hw' hk'
  have hp : st.vocabulary.Perm st.wordList := List.perm_insertionSort _ _
  constructor
  · obtain ⟨rest, h1, h2, h3, h4⟩ := hres.top (hr.inv hcf).nodupW
    have hp2 := (hp.filter (fun v => decide (Eligible st.nList st.filterN (st.fold cf w) v))).map
      (fun v => agg (scoreVec st.nList normalize (st.fold cf w) v))
    refine ⟨rest, h1.trans hp2.symm, ?_, h3, h4⟩
    rw [h2]; exact congrArg _ hp2.length_eq.symm
  · intro v hv
    exact hres.best v (hp.mem_iff.1 hv)

/-- With `top_k = 1`, "bandana" is pruned and "banana" returned. -/
example : plain (demo.lookup mean1 id (.str "bananas".toList) (.int 1) false) =
    .ok [("banana", 895 / 84, 163 / 14)] := by
  decide +kernel

/-- The real power mean satisfies the hypothesis on `agg`, for every `dim > 0`. -/
example (dim : ℝ) (h : 0 < dim) : MonotoneAgg (pyMean dim) := pyMean_monotone h

/-- C45. The order in which words were added does not influence the scores found: two lists with
the same configuration and vocabulary return the same list of scores. -/
theorem C45_insertion_order (hcf : ∀ w, cf (cf w) = cf w) {st st' : WL} (hr : st.Reachable cf)
    (hr' : st'.Reachable cf) (hn : st.nList = st'.nList) (hfn : st.filterN = st'.filterN)
    (hci : st.caseInsensitive = st'.caseInsensitive) (hv : st.vocabulary = st'.vocabulary)
    {agg : List ℚ → S} (hagg : MonotoneAgg agg) {word topK : PyVal} {normalize : Bool}
    {res res' : List (List Char × (S ×ₗ ℚ))}
    (h : st.lookup agg cf word topK normalize = .ok res)
    (h' : st'.lookup agg cf word topK normalize = .ok res') :
    res.map (fun r => (ofLex r.2).1) = res'.map (fun r => (ofLex r.2).1) := by
  obtain ⟨w, k, rfl, _, rfl, _⟩ := lookup_result hcf hr hagg h
  have h1 := (C28_pruning_sound hcf hr hagg h).1
  have h2 := (C28_pruning_sound hcf hr' hagg h').1
  have hf : st.fold cf w = st'.fold cf w := by unfold WL.fold; rw [hci]
  rw [← hn, ← hfn, ← hv, ← hf] at h2
  exact topScores_unique h1 h2

/-- Ties are broken by insertion order, so the words can differ. -/
example :
    let st := demo₀.run id [.add (.str "ab".toList), .add (.str "ac".toList)]
    let st' := demo₀.run id [.add (.str "ac".toList), .add (.str "ab".toList)]
    st.vocabulary = st'.vocabulary ∧
    plain (st.lookup mean1 id (.str "ad".toList) (.int 1) false) = .ok [("ab", 1, 2)] ∧
    plain (st'.lookup mean1 id (.str "ad".toList) (.int 1) false) = .ok [("ac", 1, 2)] := by
  decide +kernel

/-- C30. With valid arguments, `lookup` raises `ZeroDivisionError` exactly when there is an
eligible word and either some configured `n` gives exactly one n-gram for the query, or
normalisation divides by zero for an eligible word that was not pruned; otherwise it succeeds. -/
theorem C30_zero_division (hcf : ∀ w, cf (cf w) = cf w) {st : WL} (hr : st.Reachable cf)
    {agg : List ℚ → S} (hagg : MonotoneAgg agg) {w : List Char} {k : ℤ} (hw : w ≠ [])
    (hk : 0 < k) (hq : Clean (st.fold cf w)) (normalize : Bool) :
    (st.lookup agg cf (.str w) (.int k) normalize = .error .zeroDivisionError ↔
      LookupFails agg st.nList st.filterN normalize st.wordList k.toNat (st.fold cf w)) ∧
    (¬ LookupFails agg st.nList st.filterN normalize st.wordList k.toNat (st.fold cf w) →
      ∃ res, st.lookup agg cf (.str w) (.int k) normalize = .ok res) := by
  obtain ⟨h1, h2⟩ := lookup_spec (hr.inv hcf) hagg hw hk rfl hq normalize
  refine ⟨⟨?_, h1⟩, ?_⟩
  · intro h
    by_contra hf
    obtain ⟨res, h3, _⟩ := h2 hf
    rw [h] at h3; cases h3
  · intro hf
    obtain ⟨res, h3, _⟩ := h2 hf
    exact ⟨res, h3⟩

/-- C30, sufficient condition: a query at least as long as every `n - 1` (and, when normalising,
as every `2n - 6`; for `n = 1` at least 2) never raises. -/
theorem C30_long_enough (hcf : ∀ w, cf (cf w) = cf w) {st : WL} (hr : st.Reachable cf)
    {agg : List ℚ → S} (hagg : MonotoneAgg agg) {w : List Char} {k : ℤ} (hw : w ≠ [])
    (hk : 0 < k) (hq : Clean (st.fold cf w)) (normalize : Bool)
    (h1 : ∀ n ∈ st.nList, n ≤ ((st.fold cf w).length : ℤ) + 1)
    (h2 : normalize = true → ∀ n ∈ st.nList, 2 * n ≤ ((st.fold cf w).length : ℤ) + 6)
    (h3 : 1 ∈ st.nList → 2 ≤ (st.fold cf w).length) :
    ∃ res, st.lookup agg cf (.str w) (.int k) normalize = .ok res := by
  have hi := hr.inv hcf
  apply (C30_zero_division hcf hr hagg hw hk hq normalize).2
  rintro ⟨_, ⟨n, hn, h⟩ | ⟨hno, v, hv, _, _, n, hn, h⟩⟩
  · have hp := hi.posN n hn
    have := h1 n hn
    rw [length_gramsOf] at h
    by_cases hn1 : 1 < n
    · rw [if_pos hn1] at h
      unfold numGrams at h
      rw [if_pos hn1] at h
      omega
    · have : n = 1 := by omega
      subst this
      rw [if_neg hn1] at h
      have := h3 hn
      omega
  · have := h2 hno n hn
    have hv0 : 0 < v.length := List.length_pos_iff.2 (hi.words v hv).2.1
    unfold denom at h
    split at h <;> omega

/-- A one-letter query with `n = 3` has exactly one trigram; the error appears only if there is a
candidate. -/
example : plain (demo.lookup mean1 id (.str ['b']) (.int 1) false) = .error .zeroDivisionError ∧
    plain (demo.lookup mean1 id (.str ['x']) (.int 1) false) = .ok [] := by
  decide +kernel

/-- Normalisation can divide by zero even if no `n` gives exactly one n-gram for the query: for
`n = 5` the counts of 'a' and 'abc' are -1 and 1. -/
example :
    let st := ({ demo₀ with nList := [2, 5] } : WL).run id [.add (.str "abc".toList)]
    plain (st.lookup mean1 id (.str "a".toList) (.int 1) true) = .error .zeroDivisionError ∧
    plain (st.lookup mean1 id (.str "a".toList) (.int 1) false) = .ok [("abc", 1, 2)] := by
  decide +kernel

/-! ### Exact matches -/

theorem simN_eq_located {n : ℤ} (hn : 2 ≤ n) (q w : List Char) :
    simN n q w = locSim (located n.toNat q) (located n.toNat w) := by
  rw [simN_eq, ← located_eq_locatedOf (by omega), ← located_eq_locatedOf (by omega),
    getNGrams_eq_gramsOf, getNGrams_eq_gramsOf]

theorem denom_eq_count {n : ℤ} (hn : 2 ≤ n) {q w : List Char} (hq : n ≤ (q.length : ℤ) + 3)
    (hw : n ≤ (w.length : ℤ) + 3) :
    (denom n q w : ℚ) = (count n.toNat q : ℚ) + count n.toNat w := by
  have h1 := countInt_eq_count hn hq
  have h2 := countInt_eq_count hn hw
  have : denom n q w = countInt n q + countInt n w := by
    unfold denom countInt; rw [if_pos (by omega)]; ring
  rw [this, h1, h2]; push_cast; rfl

/-- A word scores 1 against itself. -/
theorem scoreN_self {n : ℤ} (hn : 2 ≤ n) {q : List Char} (hq : n ≤ (q.length : ℤ) + 2) :
    scoreN true n q q = 1 := by
  have hc : 1 ≤ count n.toNat q := by rw [count_eq]; omega
  have hc' : (1 : ℚ) ≤ count n.toNat q := by exact_mod_cast hc
  unfold scoreN
  rw [if_pos rfl, simN_eq_located hn, locSim_self, denom_eq_count hn (by omega) (by omega),
    length_located]
  rw [← two_mul, div_self (by positivity)]

/-- Any other word scores less than 1. -/
theorem scoreN_lt_one {n : ℤ} (hn : 2 ≤ n) {q w : List Char} (hq : n ≤ (q.length : ℤ) + 2)
    (hne : q ≠ w) : 0 ≤ scoreN true n q w ∧ scoreN true n q w < 1 := by
  by_cases hs : Shares n q w
  · have hd : (0 : ℚ) < denom n q w := by exact_mod_cast denom_pos_of_shares hs
    have hw : n ≤ (w.length : ℤ) + 2 := by
      obtain ⟨g, _, h2⟩ := hs
      have l2 := List.length_pos_of_mem h2
      rw [length_gramsOf, if_pos (by omega)] at l2
      unfold numGrams at l2
      rw [if_pos (by omega)] at l2
      omega
    have h0 : 0 ≤ simN n q w := le_trans (commonN_nonneg n q w) (commonN_le_simN n q w)
    unfold scoreN
    rw [if_pos rfl]
    refine ⟨div_nonneg h0 hd.le, ?_⟩
    rw [div_lt_one hd, denom_eq_count hn (by omega) (by omega), simN_eq_located hn]
    have hle := locSim_le_add (located n.toNat q) (located n.toNat w)
    rw [length_located, length_located] at hle
    refine lt_of_le_of_ne hle ?_
    intro he
    have := (locSim_full_iff (located n.toNat q) (located n.toNat w)).1
      (by rw [length_located, length_located]; exact he)
    exact hne (located_perm_inj (by omega) (by omega) this)
  · unfold scoreN
    rw [if_pos rfl, (not_shares_sums hs).2]
    simp

/-- A word shares its own n-grams, if it has any. -/
theorem shares_self {n : ℤ} {q : List Char} (hne : q ≠ []) (hq : n ≤ (q.length : ℤ) + 2) :
    Shares n q q := by
  have hl : 0 < (gramsOf n q).length := by
    rw [length_gramsOf]
    split
    · unfold numGrams; rw [if_pos (by omega)]; omega
    · exact List.length_pos_iff.2 hne
  obtain ⟨g, hg⟩ := List.exists_mem_of_length_pos hl
  exact ⟨g, hg, hg⟩

/-- C31. With `normalize=True`, if the folded query is in the vocabulary, all `n ≥ 2`, and the
query has an n-gram for every `n` and for the filter size, then a lookup that does not raise
returns the query first, with the aggregate of ones (which is 1 for the power mean), and every
other returned word scores strictly less. -/
theorem C31_exact_match_first (hcf : ∀ w, cf (cf w) = cf w) {st : WL} (hr : st.Reachable cf)
    {agg : List ℚ → S} (hagg : MonotoneAgg agg) (hstrict : StrictAgg agg)
    {w : List Char} {topK : PyVal}
    (hmem : st.fold cf w ∈ st.vocabulary) (hne : st.nList ≠ [])
    (hn2 : ∀ n ∈ st.nList, 2 ≤ n) (hlen : ∀ n ∈ st.nList, n ≤ ((st.fold cf w).length : ℤ) + 2)
    (hfil : st.filterN ≤ ((st.fold cf w).length : ℤ) + 2)
    {res : List (List Char × (S ×ₗ ℚ))}
    (h : st.lookup agg cf (.str w) topK true = .ok res) :
    ∃ tl, res = (st.fold cf w, toLex (agg (List.replicate st.nList.length 1), 1)) :: tl ∧
      ∀ r ∈ tl, (ofLex r.2).1 < agg (List.replicate st.nList.length 1) := by
  obtain ⟨w', k, hw', _, _, hk, hcl, hres⟩ := lookup_result hcf hr hagg h
  injection hw' with hw'
  subst hw'
  have hi := hr.inv hcf
  have hp : st.vocabulary.Perm st.wordList := List.perm_insertionSort _ _
  set q := st.fold cf w with hq
  have hqm : q ∈ st.wordList := hp.mem_iff.1 hmem
  have hq0 : q ≠ [] := (hi.words q hqm).2.1
  have hself : scoreVec st.nList true q q = List.replicate st.nList.length 1 := by
    unfold scoreVec
    rw [List.eq_replicate_iff]
    refine ⟨by simp, ?_⟩
    intro x hx
    obtain ⟨n, hn, rfl⟩ := List.mem_map.1 hx
    exact scoreN_self (hn2 n hn) (hlen n hn)
  have hlt : ∀ v, v ≠ q → agg (scoreVec st.nList true q v) <
      agg (List.replicate st.nList.length 1) := by
    intro v hv
    rw [← hself]
    apply hstrict
    · unfold scoreVec; simpa using hne
    · unfold scoreVec
      rw [List.forall₂_map_left_iff, List.forall₂_map_right_iff, List.forall₂_same]
      intro n hn
      rw [scoreN_self (hn2 n hn) (hlen n hn)]
      exact scoreN_lt_one (hn2 n hn) (hlen n hn) (Ne.symm hv)
  have hel : Eligible st.nList st.filterN q q := by
    obtain ⟨n, hn⟩ := List.exists_mem_of_ne_nil _ hne
    exact ⟨fun _ => shares_self hq0 hfil, n, hn, shares_self hq0 (hlen n hn)⟩
  have hlen1 : 1 ≤ res.length := by
    rw [hres.length]
    have : 0 < (eligibleWords st.nList st.filterN q st.wordList).length :=
      List.length_pos_of_mem (List.mem_filter.2 ⟨hqm, by simpa using hel⟩)
    omega
  cases hrs : res with
  | nil => rw [hrs] at hlen1; simp at hlen1
  | cons r tl =>
    have hrm : r ∈ res := by rw [hrs]; simp
    obtain ⟨_, _, hr1, hr2⟩ := hres.scores r hrm
    have hrq : r.1 = q := by
      by_contra hc
      have hlr := hlt r.1 hc
      rw [← hr1] at hlr
      by_cases hin : q ∈ res.map Prod.fst
      · obtain ⟨r', hr', he⟩ := List.mem_map.1 hin
        have h1 := (hres.scores r' hr').2.2.1
        rw [he, hself] at h1
        rw [hrs] at hr'
        rcases List.mem_cons.1 hr' with rfl | hr'
        · exact hc he
        · have hs := hres.sorted
          rw [hrs, List.pairwise_cons] at hs
          have := hs.1 r' hr'
          rcases Prod.Lex.le_iff.1 this with h' | h'
          · rw [h1] at h'; exact absurd (lt_trans hlr h') (lt_irrefl _)
          · rw [h1] at h'; exact absurd h'.1.symm (ne_of_lt hlr)
      · have := hres.best q hqm hel hin r hrm
        rw [hself] at this
        exact absurd this (not_le.2 hlr)
    refine ⟨tl, ?_, ?_⟩
    · congr 1
      rw [hrq] at hr1 hr2
      have h2 : (ofLex r.2).2 = 1 := by
        have := (C12_self hcl (le_refl 2) (a := q) (by unfold HasGram; omega)).2.2.2
        rw [this] at hr2
        injection hr2 with hr2
        exact hr2.symm
      rw [hself] at hr1
      have : r.2 = toLex (agg (List.replicate st.nList.length 1), 1) := by
        rw [← hr1, ← h2]; rfl
      rw [← this, ← hrq]
    · intro r' hr'
      have hr'm : r' ∈ res := by rw [hrs]; exact List.mem_cons_of_mem _ hr'
      rw [(hres.scores r' hr'm).2.2.1]
      apply hlt
      intro he
      have hnd := hres.nodup
      rw [hrs, List.map_cons, List.nodup_cons] at hnd
      apply hnd.1
      rw [hrq, ← he]
      exact List.mem_map.2 ⟨r', hr', rfl⟩

/-- For the power mean the aggregate of ones is 1. -/
example (dim : ℝ) (h : 0 < dim) : StrictAgg (pyMean dim) ∧
    pyMean dim (List.replicate 2 1) = 1 :=
  ⟨pyMean_strict h, by simpa using pyMean_replicate h (m := 2) (x := 1) (by simp) (by norm_num)⟩

example : plain (demo.lookup mean1 id (.str "bandana".toList) (.int 2) true) =
    .ok [("bandana", 1, 1), ("banana", 956 / 1365, 83 / 105)] := by decide +kernel

/-- Without `normalize` another word can come first: "aaa" scores 8 against itself, and so does
"aaaaaa". -/
example :
    let st := ({ demo₀ with nList := [2] } : WL).run id
      [.add (.str "aaaaaa".toList), .add (.str "aaa".toList)]
    plain (st.lookup mean1 id (.str "aaa".toList) (.int 2) false) =
      .ok [("aaaaaa", 8, 8), ("aaa", 8, 8)] := by decide +kernel

/-! ### Filter and case -/

/-- C32. A lookup with a large `top_k` returns exactly the words sharing an n-gram with the query
and, when the filter is on, also a filter n-gram. -/
theorem C32_filter (hcf : ∀ w, cf (cf w) = cf w) {st : WL} (hr : st.Reachable cf)
    {agg : List ℚ → S} (hagg : MonotoneAgg agg) {w : List Char} {k : ℤ} {normalize : Bool}
    (hk : (st.vocabulary.length : ℤ) ≤ k)
    {res : List (List Char × (S ×ₗ ℚ))}
    (h : st.lookup agg cf (.str w) (.int k) normalize = .ok res) (v : List Char) :
    v ∈ res.map Prod.fst ↔ v ∈ st.vocabulary ∧
      (∃ n ∈ st.nList, ∃ g, g ∈ gramsOf n (st.fold cf w) ∧ g ∈ gramsOf n v) ∧
      (st.filterN = 0 ∨
        ∃ g, g ∈ gramsOf st.filterN (st.fold cf w) ∧ g ∈ gramsOf st.filterN v) := by
  obtain ⟨w', k', hw', _, hk', _, _, hres⟩ := lookup_result hcf hr hagg h
  injection hw' with hw'
  injection hk' with hk'
  subst hw' hk'
  have hi := hr.inv hcf
  have hp : st.vocabulary.Perm st.wordList := List.perm_insertionSort _ _
  have hsub : res.map Prod.fst ⊆ eligibleWords st.nList st.filterN (st.fold cf w) st.wordList := by
    intro x hx
    obtain ⟨r, hr', rfl⟩ := List.mem_map.1 hx
    obtain ⟨h1, h2, _⟩ := hres.scores r hr'
    exact List.mem_filter.2 ⟨h1, by simpa using h2⟩
  have hle : (eligibleWords st.nList st.filterN (st.fold cf w) st.wordList).length ≤
      (res.map Prod.fst).length := by
    rw [List.length_map, hres.length]
    have h1 : (eligibleWords st.nList st.filterN (st.fold cf w) st.wordList).length ≤
      st.wordList.length := List.length_filter_le _ _
    rw [hp.length_eq] at hk
    omega
  have hperm := (List.subperm_of_subset hres.nodup hsub).perm_of_length_le hle
  rw [hperm.mem_iff, hp.mem_iff]
  unfold eligibleWords
  rw [List.mem_filter, decide_eq_true_eq]
  unfold Eligible Shares
  constructor
  · rintro ⟨h1, h2, h3⟩
    refine ⟨h1, h3, ?_⟩
    by_cases h0 : st.filterN = 0
    · exact Or.inl h0
    · exact Or.inr (h2 h0)
  · rintro ⟨h1, h3, h2⟩
    exact ⟨h1, fun h0 => h2.resolve_left h0, h3⟩

/-- With `filter_n = 4`, "cabana" is not found by "bandan" although they share bigrams. -/
example :
    let ws := [WLOp.add (.str "bandana".toList), .add (.str "cabana".toList)]
    plain ((demo₀.run id ws).lookup mean1 id (.str "bandan".toList) (.int 5) false) =
      .ok [("bandana", 895 / 84, 163 / 14), ("cabana", 51 / 20, 7 / 2)] ∧
    plain ((({ demo₀ with filterN := 4 } : WL).run id ws).lookup mean1 id
      (.str "bandan".toList) (.int 5) false) = .ok [("bandana", 895 / 84, 163 / 14)] := by
  decide +kernel

/-- C33. In a case-insensitive list, lookup depends only on the folded query. -/
theorem C33_case_insensitive (hcf : ∀ w, cf (cf w) = cf w) (hne : ∀ w, cf w = [] ↔ w = [])
    {st : WL} (hci : st.caseInsensitive = true) (agg : List ℚ → S) (w w' : List Char)
    (hww : cf w = cf w') (topK : PyVal) (normalize : Bool) :
    st.lookup agg cf (.str w) topK normalize = st.lookup agg cf (.str w') topK normalize ∧
    st.lookup agg cf (.str w) topK normalize = st.lookup agg cf (.str (cf w)) topK normalize := by
  have key : ∀ u u', cf u = cf u' →
      st.lookup agg cf (.str u) topK normalize = st.lookup agg cf (.str u') topK normalize := by
    intro u u' he
    have h0 : u.length = 0 ↔ u'.length = 0 := by
      rw [List.length_eq_zero_iff, List.length_eq_zero_iff, ← hne u, ← hne u', he]
    have hc : st.checkLookup cf (.str u) topK = st.checkLookup cf (.str u') topK := by
      unfold WL.checkLookup
      simp only [WL.fold, hci, if_true, he, h0]
    unfold WL.lookup
    rw [hc]
  exact ⟨key w w' hww, key w (cf w) (hcf w).symm⟩

example :
    let st := ({ demo₀ with caseInsensitive := true } : WL).run (List.map Char.toLower)
      [.add (.str "Banana".toList)]
    plain (st.lookup mean1 (List.map Char.toLower) (.str "BANANA".toList) (.int 1) true) =
      .ok [("banana", 1, 1)] := by decide +kernel

/-- C34. `ApproxWordListV5.lookup`: at most `2 * top_k` distinct vocabulary words, sorted by the
reported value in descending order; the reported value is the score, or `normalize - score` with
`invert=False`; the best `top_k` scores of all eligible words are those of the first `top_k` results
(`invert=True`) or of the last `top_k` (`invert=False`). It raises under the same condition as
`WordList.lookup`. -/
theorem C34_v5_lookup [Ring S] [IsStrictOrderedRing S] (hcf : ∀ w, cf (cf w) = cf w) {st : WL}
    (hr : st.Reachable cf) {agg : List ℚ → S} (hagg : MonotoneAgg agg) {w : List Char} {k : ℤ}
    (hw : w ≠ []) (hk : 0 < k) (hq : Clean (st.fold cf w)) (invert normalize : Bool) :
    (LookupFails agg st.nList st.filterN normalize st.wordList k.toNat (st.fold cf w) →
      st.lookupV5 agg cf (.str w) (.int k) invert normalize = .error .zeroDivisionError) ∧
    (¬ LookupFails agg st.nList st.filterN normalize st.wordList k.toNat (st.fold cf w) →
      ∃ res, st.lookupV5 agg cf (.str w) (.int k) invert normalize = .ok res ∧
        (res.map Prod.fst).Nodup ∧ (res.length : ℤ) ≤ 2 * k ∧
        res.Pairwise (fun a b => b.2 ≤ a.2) ∧
        (∀ r ∈ res, r.1 ∈ st.vocabulary ∧ Eligible st.nList st.filterN (st.fold cf w) r.1 ∧
          r.2 = if invert then agg (scoreVec st.nList normalize (st.fold cf w) r.1)
            else (if normalize then 1 else 0) -
              agg (scoreVec st.nList normalize (st.fold cf w) r.1)) ∧
        TopScores ((eligibleWords st.nList st.filterN (st.fold cf w) st.wordList).map
            (fun v => agg (scoreVec st.nList normalize (st.fold cf w) v))) k.toNat
          (((if invert then res else res.reverse).map
            (fun r => agg (scoreVec st.nList normalize (st.fold cf w) r.1))).take k.toNat)) := by
  obtain ⟨h1, h2⟩ := lookupV5_spec (hr.inv hcf) hagg hw hk rfl hq invert normalize
  refine ⟨h1, ?_⟩
  intro hf
  obtain ⟨res, h3, h4, h5, h6, h7, h8⟩ := h2 hf
  refine ⟨res, h3, h4, by omega, h6, ?_, h8⟩
  intro r hr'
  exact ⟨(List.perm_insertionSort _ _).mem_iff.2 (h7 r hr').1, (h7 r hr').2⟩

/-- `top_k = 1` returns two words, and with `invert=False` the worse one comes first. -/
example : demo.lookupV5 mean1 id (.str "banana".toList) (.int 1) false true =
    .ok [("bandana".toList, 409 / 1365), ("banana".toList, 0)] := by decide +kernel

/-- C44. Exceptions caused by the arguments of `lookup`, in the order of the checks. -/
theorem C44_lookup_validation (agg : List ℚ → S) (st : WL) (normalize : Bool) :
    (∀ v k, (∀ s, v ≠ .str s) → st.lookup agg cf v k normalize = .error .typeError) ∧
    (∀ k, st.lookup agg cf (.str []) k normalize = .error .valueError) ∧
    (∀ w k, w ≠ [] → (∀ i, k ≠ .int i) →
      st.lookup agg cf (.str w) k normalize = .error .typeError) ∧
    (∀ w k, w ≠ [] → k ≤ 0 → st.lookup agg cf (.str w) (.int k) normalize = .error .valueError) ∧
    (∀ w k, w ≠ [] → 0 < k → ¬ Clean (st.fold cf w) →
      st.lookup agg cf (.str w) (.int k) normalize = .error .assertionError) := by
  refine ⟨?_, ?_, ?_, ?_, ?_⟩
  · intro v k hv
    cases v with
    | str s => exact absurd rfl (hv s)
    | int i => rfl
    | other => rfl
  · intro k; rfl
  · intro w k hw hk
    have h0 : w.length ≠ 0 := by simpa using hw
    cases k with
    | int i => exact absurd rfl (hk i)
    | str s => simp only [WL.lookup, WL.checkLookup, if_neg h0]; rfl
    | other => simp only [WL.lookup, WL.checkLookup, if_neg h0]; rfl
  · intro w k hw hk
    have h0 : w.length ≠ 0 := by simpa using hw
    simp only [WL.lookup, WL.checkLookup, if_neg h0, if_pos hk]; rfl
  · intro w k hw hk hc
    have h0 : w.length ≠ 0 := by simpa using hw
    have h1 : '\x02' ∈ st.fold cf w ∨ '\x03' ∈ st.fold cf w := by
      by_contra h; rw [not_or] at h; exact hc h
    simp only [WL.lookup, WL.checkLookup, if_neg h0, if_neg (not_le.2 hk), if_pos h1]; rfl

theorem lookupFails_perm {agg : List ℚ → S} {ns : List ℤ} {fn : ℤ} {normalize : Bool}
    {ws ws' : List (List Char)} (h : ws.Perm ws') {k : ℕ} {q : List Char}
    (hf : LookupFails agg ns fn normalize ws k q) : LookupFails agg ns fn normalize ws' k q := by
  have ho : ∀ w, Outranked agg ns fn normalize q ws k w ↔
      Outranked agg ns fn normalize q ws' k w := by
    intro w
    unfold Outranked eligibleWords
    rw [((h.filter _).filter _).length_eq]
  obtain ⟨⟨w, hw, he⟩, h2⟩ := hf
  refine ⟨⟨w, h.mem_iff.1 hw, he⟩, ?_⟩
  rcases h2 with h2 | ⟨h2, v, hv, h3, h4, h5⟩
  · exact Or.inl h2
  · exact Or.inr ⟨h2, v, h.mem_iff.1 hv, h3, fun hc => h4 ((ho v).2 hc), h5⟩

/-- C45, exceptions: lists with the same configuration and vocabulary raise the same exceptions on
the same queries. -/
theorem C45_insertion_order_errors (hcf : ∀ w, cf (cf w) = cf w) {st st' : WL}
    (hr : st.Reachable cf) (hr' : st'.Reachable cf) (hn : st.nList = st'.nList)
    (hfn : st.filterN = st'.filterN) (hci : st.caseInsensitive = st'.caseInsensitive)
    (hv : st.vocabulary = st'.vocabulary) {agg : List ℚ → S} (hagg : MonotoneAgg agg)
    (word topK : PyVal) (normalize : Bool) (e : PyErr) :
    st.lookup agg cf word topK normalize = .error e ↔
      st'.lookup agg cf word topK normalize = .error e := by
  obtain ⟨a1, a2, a3, a4, a5⟩ := C44_lookup_validation (cf := cf) agg st normalize
  obtain ⟨b1, b2, b3, b4, b5⟩ := C44_lookup_validation (cf := cf) agg st' normalize
  have hf : ∀ w, st.fold cf w = st'.fold cf w := by intro w; unfold WL.fold; rw [hci]
  by_cases hs : ∀ s, word ≠ .str s
  · rw [a1 _ _ hs, b1 _ _ hs]
  push Not at hs
  obtain ⟨w, rfl⟩ := hs
  by_cases hw : w = []
  · subst hw; rw [a2, b2]
  by_cases hi : ∀ i, topK ≠ .int i
  · rw [a3 _ _ hw hi, b3 _ _ hw hi]
  push Not at hi
  obtain ⟨k, rfl⟩ := hi
  by_cases hk : k ≤ 0
  · rw [a4 _ _ hw hk, b4 _ _ hw hk]
  push Not at hk
  by_cases hq : Clean (st.fold cf w)
  · have hp : st.wordList.Perm st'.wordList := by
      have h1 : st.vocabulary.Perm st.wordList := List.perm_insertionSort _ _
      have h2 : st'.vocabulary.Perm st'.wordList := List.perm_insertionSort _ _
      exact h1.symm.trans (hv ▸ h2)
    obtain ⟨c1, c2⟩ := C30_zero_division hcf hr hagg hw hk hq normalize
    obtain ⟨d1, d2⟩ := C30_zero_division hcf hr' hagg hw hk (hf w ▸ hq) normalize
    rw [← hn, ← hfn, ← hf w] at d1 d2
    by_cases hl : LookupFails agg st.nList st.filterN normalize st.wordList k.toNat (st.fold cf w)
    · rw [c1.2 hl, d1.2 (lookupFails_perm hp hl)]
    · obtain ⟨r, hr1⟩ := c2 hl
      obtain ⟨r', hr2⟩ := d2 (fun h => hl (lookupFails_perm hp.symm h))
      rw [hr1, hr2]
      constructor <;> (intro h; cases h)
  · rw [a5 _ _ hw hk hq, b5 _ _ hw hk (hf w ▸ hq)]

/-- A two-letter query with `n = 4` configured raises in any insertion order. -/
example :
    let st := ({ demo₀ with nList := [2, 4] } : WL).run id
      [.add (.str "ab".toList), .add (.str "ac".toList)]
    let st' := ({ demo₀ with nList := [2, 4] } : WL).run id
      [.add (.str "ac".toList), .add (.str "ab".toList)]
    plain (st.lookup mean1 id (.str "ad".toList) (.int 1) false) = .error .zeroDivisionError ∧
    plain (st'.lookup mean1 id (.str "ad".toList) (.int 1) false) = .error .zeroDivisionError := by
  decide +kernel

end Verif
