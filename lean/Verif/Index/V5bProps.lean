import Verif.Index.V5bLemmas
import Verif.Index.Props

/-!
# Properties of `ApproxWordListV5b` (C84-C87)
-/

namespace Verif

open GramSpec IndexSpec

variable {cf : List Char → List Char} {S : Type} [LinearOrder S]

/-- A list with `n=(2, 3)`, `case_sensitive=True` and no filter. -/
def demoB₀ : WL :=
  { nList := [2, 3], caseInsensitive := false, filterN := 0, wordIndices := [], wordList := [],
    wordLens := [], wordNumGrams := [], ngramFilter := [], ngramCounts := [],
    ngramPositions := [] }

/-- The words added to it; the last two are rejected. -/
def demoBWords : List PyVal :=
  [.str "banana".toList, .str "bandana".toList, .str "a".toList, .str "banana".toList,
   .str "x\x02".toList, .str []]

/-- The list after these calls. -/
def demoB : WL := demoB₀.v5bRun id demoBWords

theorem demoB_reachable : demoB.V5bReachable id :=
  ⟨.iter [3, 2, 3], some true, none, demoB₀, demoBWords, by decide +kernel, rfl⟩

/-- C84. `lookup` with a non-empty string and a positive `top_k` never raises. It returns distinct
vocabulary words that the query can find, with their exact scores, and the list of scores is the
descending list of the `top_k` best scores of all such words: pruning loses nothing, and no more
than `top_k` words are returned. A query that folds to the empty string or contains a marker finds
nothing. -/
theorem C84_v5b_lookup (hcf : ∀ w, cf (cf w) = cf w) {st : WL} (hr : st.V5bReachable cf)
    {agg : List ℚ → S} (hagg : MonotoneAgg agg) {w : List Char} {k : ℤ} (hw : w ≠ []) (hk : 0 < k)
    (normalize : Bool) :
    ∃ res, st.v5bLookup agg cf (.str w) (.int k) normalize = .ok res ∧
      (st.fold cf w = [] ∨ ¬ Clean (st.fold cf w) → res = []) ∧
      (st.fold cf w ≠ [] → Clean (st.fold cf w) →
        (res.map Prod.fst).Nodup ∧
        (∀ r ∈ res, r.1 ∈ st.v5bVocabulary ∧ Eligible st.nList st.filterN (st.fold cf w) r.1 ∧
          r.2 = agg (scoreVec st.nList normalize (st.fold cf w) r.1)) ∧
        TopScores ((eligibleWords st.nList st.filterN (st.fold cf w) st.v5bVocabulary).map
          (fun v => agg (scoreVec st.nList normalize (st.fold cf w) v))) k.toNat
          (res.map Prod.snd)) := by
  have hi := (hr.reachable hcf).inv hcf
  have hvp : st.v5bVocabulary.Perm st.wordList := List.perm_insertionSort _ _
  set q := st.fold cf w with hq
  have h0 : w.length ≠ 0 := by simpa using hw
  unfold WL.v5bLookup
  simp only [if_neg h0, if_neg (not_le.2 hk), ← hq]
  by_cases hq0 : q = []
  · rw [if_pos (by rw [hq0]; rfl)]
    exact ⟨[], rfl, fun _ => rfl, fun h => absurd hq0 h⟩
  rw [if_neg (by simpa using hq0)]
  by_cases hc : '\x02' ∈ q ∨ '\x03' ∈ q
  · rw [if_pos hc]
    refine ⟨[], rfl, fun _ => rfl, fun _ h => ?_⟩
    rcases hc with hc | hc
    · exact absurd hc h.1
    · exact absurd hc h.2
  rw [if_neg hc]
  rw [not_or] at hc
  have hk' : 1 ≤ k.toNat := by omega
  obtain ⟨scored, hs, hmem, hnd, htop⟩ := v5bLookupSimilarity_spec hi hagg hq0 hk' normalize
  generalize k.toNat = K at *
  simp only [hs, bind, Except.bind]
  let wordAt : ℕ → List Char := fun i => st.wordList.getD i []
  have hmem' : ∀ r ∈ scored, st.wordList[r.1]? = some (wordAt r.1) ∧
      Eligible st.nList st.filterN q (wordAt r.1) ∧
      r.2 = agg (scoreVec st.nList normalize q (wordAt r.1)) := by
    intro r hr
    obtain ⟨v, h3, h4, h5⟩ := hmem r hr
    have hwa : wordAt r.1 = v := by
      simp only [wordAt, List.getD_eq_getElem?_getD, h3, Option.getD_some]
    rw [hwa]; exact ⟨h3, h4, h5⟩
  have hA : ∀ p ∈ mostCommon scored K, p ∈ scored := fun p hp => mem_of_mem_take_sortDesc hp
  rw [mapM_ok (g := fun p : ℕ × S => (wordAt p.1, p.2)) _ (by
    intro p hp
    rw [pyGet_ok' (hmem' p (hA p hp)).1]; rfl)]
  refine ⟨_, rfl, ?_, fun _ _ => ⟨?_, ?_, ?_⟩⟩
  · rintro (h | h)
    · exact absurd h hq0
    · exact absurd hc h
  · rw [List.map_map]
    have e : (mostCommon scored K).map (Prod.fst ∘ fun p : ℕ × S => (wordAt p.1, p.2)) =
        ((mostCommon scored K).map Prod.fst).map wordAt := by
      rw [List.map_map]; rfl
    rw [e]
    apply List.Nodup.map_on
    · intro a ha b hb he
      obtain ⟨p, hp, rfl⟩ := List.mem_map.1 ha
      obtain ⟨p', hp', rfl⟩ := List.mem_map.1 hb
      have h3 := (hmem' p (hA p hp)).1
      have h4 := (hmem' p' (hA p' hp')).1
      rw [← he] at h4
      exact (List.getElem?_inj (List.getElem?_eq_some_iff.1 h3).1 hi.nodupW).1 (h3.trans h4.symm)
    · exact nodup_take_sortDesc (f := Prod.fst) _ hnd
  · intro r hr
    obtain ⟨p, hp, rfl⟩ := List.mem_map.1 hr
    obtain ⟨h3, h4, h5⟩ := hmem' p (hA p hp)
    exact ⟨hvp.mem_iff.2 (List.mem_of_getElem? h3), h4, h5⟩
  · rw [List.map_map]
    have e : (mostCommon scored K).map (Prod.snd ∘ fun p : ℕ × S => (wordAt p.1, p.2)) =
        ((sortDesc Prod.snd scored).map Prod.snd).take K := by
      rw [mostCommon, ← List.map_take]; rfl
    rw [e]
    obtain ⟨rest, h1, h2, h3, h4⟩ := htop
    have hp : ((eligibleWords st.nList st.filterN q st.v5bVocabulary).map
        (fun v => agg (scoreVec st.nList normalize q v))).Perm
        ((eligibleWords st.nList st.filterN q st.wordList).map
        (fun v => agg (scoreVec st.nList normalize q v))) := (hvp.filter _).map _
    exact ⟨rest, h1.trans hp.symm, by rw [h2, hp.length_eq], h3, h4⟩

/-- `WordList.lookup` raises `ZeroDivisionError` on this query (it has exactly one 3-gram). -/
example : demoB.v5bLookup mean1 id (.str "a".toList) (.int 2) true =
    .ok [("a".toList, 1), ("banana".toList, 1 / 9)] := by decide +kernel

/-- C84, exact matches. With `normalize=True`, if the folded query is in the vocabulary, all
`n ≥ 2` and the query has an n-gram for every `n` and for the filter size, the query itself is
returned first, with the aggregate of ones, and every other word scores strictly less. -/
theorem C84_v5b_exact_match_first (hcf : ∀ w, cf (cf w) = cf w) {st : WL}
    (hr : st.V5bReachable cf) {agg : List ℚ → S} (hagg : MonotoneAgg agg)
    (hstrict : StrictAgg agg) {w : List Char} {k : ℤ} (hw : w ≠ []) (hk : 0 < k)
    (hmem : st.fold cf w ∈ st.v5bVocabulary) (hn2 : ∀ n ∈ st.nList, 2 ≤ n)
    (hlen : ∀ n ∈ st.nList, n ≤ ((st.fold cf w).length : ℤ) + 2)
    (hfil : st.filterN ≤ ((st.fold cf w).length : ℤ) + 2) :
    ∃ tl, st.v5bLookup agg cf (.str w) (.int k) true =
        .ok ((st.fold cf w, agg (List.replicate st.nList.length 1)) :: tl) ∧
      ∀ r ∈ tl, r.2 < agg (List.replicate st.nList.length 1) := by
  have hne := hr.nList_ne_nil hcf
  have hi := (hr.reachable hcf).inv hcf
  have hvp : st.v5bVocabulary.Perm st.wordList := List.perm_insertionSort _ _
  obtain ⟨res, h1, -, h3⟩ := C84_v5b_lookup hcf hr hagg hw hk true
  set q := st.fold cf w with hq
  have hqm : q ∈ st.wordList := hvp.mem_iff.1 hmem
  obtain ⟨hcl, hq0, -⟩ := hi.words q hqm
  obtain ⟨hnd, hsc, rest, hperm, hl, hsort, hbest⟩ := h3 hq0 hcl
  have hself : scoreVec st.nList true q q = List.replicate st.nList.length 1 := by
    unfold scoreVec
    rw [List.eq_replicate_iff]
    refine ⟨by simp, ?_⟩
    intro x hx
    obtain ⟨n, hn, rfl⟩ := List.mem_map.1 hx
    exact scoreN_self (hn2 n hn) (hlen n hn)
  have hlt : ∀ v, v ≠ q → agg (scoreVec st.nList true q v) <
      agg (List.replicate st.nList.length 1) := by
    intro v hv
    rw [← hself]
    apply hstrict
    · unfold scoreVec; simpa using hne
    · unfold scoreVec
      rw [List.forall₂_map_left_iff, List.forall₂_map_right_iff, List.forall₂_same]
      intro n hn
      rw [scoreN_self (hn2 n hn) (hlen n hn)]
      exact scoreN_lt_one (hn2 n hn) (hlen n hn) (Ne.symm hv)
  have hel : Eligible st.nList st.filterN q q := by
    obtain ⟨n, hn⟩ := List.exists_mem_of_ne_nil _ hne
    exact ⟨fun _ => shares_self hq0 hfil, n, hn, shares_self hq0 (hlen n hn)⟩
  have hqe : q ∈ eligibleWords st.nList st.filterN q st.v5bVocabulary :=
    List.mem_filter.2 ⟨hmem, by simpa using hel⟩
  have hall : agg (List.replicate st.nList.length 1) ∈ res.map Prod.snd ++ rest := by
    rw [hperm.mem_iff, ← hself]
    exact List.mem_map.2 ⟨q, hqe, rfl⟩
  have hpos := List.length_pos_of_mem hqe
  cases hres : res with
  | nil =>
    rw [hres] at hl
    simp only [List.map_nil, List.length_nil, List.length_map] at hl
    omega
  | cons r tl =>
    subst hres
    have hge : agg (List.replicate st.nList.length 1) ≤ r.2 := by
      rcases List.mem_append.1 hall with h | h
      · rw [List.map_cons] at h hsort
        rcases List.mem_cons.1 h with h | h
        · exact h.le
        · exact (List.pairwise_cons.1 hsort).1 _ h
      · exact hbest r.2 (by simp) _ h
    obtain ⟨_, _, hr2⟩ := hsc r (by simp)
    have hrq : r.1 = q := by
      by_contra hc
      have := hlt r.1 hc
      rw [← hr2] at this
      exact absurd hge (not_le.2 this)
    have hr' : r = (q, agg (List.replicate st.nList.length 1)) := by
      rw [hrq, hself] at hr2
      exact Prod.ext hrq hr2
    refine ⟨tl, by rw [h1, hr'], ?_⟩
    intro r' hr''
    obtain ⟨_, _, h5⟩ := hsc r' (by simp [hr''])
    rw [h5]
    apply hlt
    intro hc
    rw [List.map_cons, List.nodup_cons] at hnd
    exact hnd.1 (List.mem_map.2 ⟨r', hr'', by rw [hc, hrq]⟩)

example : demoB.v5bLookup mean1 id (.str "banana".toList) (.int 2) true =
    .ok [("banana".toList, 1), ("bandana".toList, 956 / 1365)] := by decide +kernel

/-- C85. Built with the same arguments and fed the same words, `ApproxWordListV5b` and
`ApproxWordListV5`/`WordList` hold the same index (`filter_n=None` corresponds to
`filter_n=0`), although they raise different exceptions on bad words. -/
theorem C85_v5b_same_index (hcf : ∀ w, cf (cf w) = cf w) {n : NArg} {cs : Option Bool}
    {fn : Option PyVal} {st₀ : WL} (h0 : WL.v5bNew n cs fn = .ok st₀) :
    ∃ b f, cs = some b ∧ (fn = none ∧ f = 0 ∨ fn = some (.int f) ∧ 0 < f) ∧
      WL.new n b f = .ok st₀ ∧
      ∀ vs, st₀.v5bRun cf vs = st₀.run cf (vs.map WLOp.add) := by
  obtain ⟨b, f, h1, h2, h3⟩ := v5bNew_ok h0
  refine ⟨b, f, h1, ?_, h3, v5bRun_eq hcf (WLInv.new h3)⟩
  cases fn with
  | none => injection h2 with h2; exact Or.inl ⟨rfl, h2.symm⟩
  | some v =>
    cases v with
    | str s => cases h2
    | other => cases h2
    | int i =>
      unfold v5bFilterN at h2
      simp only at h2
      split at h2
      · cases h2
      · injection h2 with h2
        subst h2
        exact Or.inr ⟨rfl, by omega⟩

/-- C85, results. Whenever `ApproxWordListV5.lookup(..., invert=True)` does not raise, its first
`top_k` scores are the scores `ApproxWordListV5b.lookup` returns. -/
theorem C85_v5b_agrees_with_v5 [Ring S] [IsStrictOrderedRing S] (hcf : ∀ w, cf (cf w) = cf w)
    {st : WL} (hr : st.V5bReachable cf) {agg : List ℚ → S} (hagg : MonotoneAgg agg)
    {w : List Char} {k : ℤ} {normalize : Bool} {r5 : List (List Char × S)}
    (h0 : st.fold cf w ≠ [])
    (h5 : st.lookupV5 agg cf (.str w) (.int k) true normalize = .ok r5) :
    ∃ res, st.v5bLookup agg cf (.str w) (.int k) normalize = .ok res ∧
      res.map Prod.snd = (r5.map Prod.snd).take k.toNat := by
  have hr6 := hr.reachable hcf
  have hvp : st.v5bVocabulary.Perm st.wordList := List.perm_insertionSort _ _
  have hchk : w ≠ [] ∧ 0 < k ∧ Clean (st.fold cf w) := by
    unfold WL.lookupV5 WL.checkLookup at h5
    simp only at h5
    split at h5
    · cases h5
    · rename_i hw
      split at h5
      · cases h5
      · rename_i hk
        split at h5
        · cases h5
        · rename_i hc
          rw [not_or] at hc
          exact ⟨by rintro rfl; exact hw rfl, not_le.1 hk, hc⟩
  obtain ⟨hw, hk, hcl⟩ := hchk
  obtain ⟨e1, e2⟩ := C34_v5_lookup hcf hr6 hagg hw hk hcl true normalize
  by_cases hf : LookupFails agg st.nList st.filterN normalize st.wordList k.toNat (st.fold cf w)
  · rw [e1 hf] at h5; cases h5
  obtain ⟨r5', h6, -, -, -, hsc5, htop⟩ := e2 hf
  rw [h5] at h6
  injection h6 with h6
  subst h6
  obtain ⟨res, h1, -, h3⟩ := C84_v5b_lookup hcf hr hagg hw hk normalize
  obtain ⟨-, -, htop'⟩ := h3 h0 hcl
  refine ⟨res, h1, ?_⟩
  simp only [if_true] at htop hsc5
  have e : r5.map (fun r => agg (scoreVec st.nList normalize (st.fold cf w) r.1)) =
      r5.map Prod.snd := List.map_congr_left (fun r hr => (hsc5 r hr).2.2.symm)
  rw [e] at htop
  apply topScores_unique _ htop
  obtain ⟨rest, a1, a2, a3, a4⟩ := htop'
  have hp : ((eligibleWords st.nList st.filterN (st.fold cf w) st.v5bVocabulary).map
      (fun v => agg (scoreVec st.nList normalize (st.fold cf w) v))).Perm
      ((eligibleWords st.nList st.filterN (st.fold cf w) st.wordList).map
      (fun v => agg (scoreVec st.nList normalize (st.fold cf w) v))) := (hvp.filter _).map _
  exact ⟨rest, a1.trans hp, by rw [a2, hp.length_eq], a3, a4⟩

/-- `ApproxWordListV5` returns up to `2 * top_k` words. -/
example : demoB.lookupV5 mean1 id (.str "banana".toList) (.int 1) true true =
      .ok [("banana".toList, 1), ("bandana".toList, 956 / 1365)] ∧
    demoB.v5bLookup mean1 id (.str "banana".toList) (.int 1) true =
      .ok [("banana".toList, 1)] := by decide +kernel

/-- The hypothesis that `ApproxWordListV5` does not raise is needed. -/
example : demoB.lookupV5 mean1 id (.str "a".toList) (.int 2) true true =
    .error .zeroDivisionError := by decide +kernel

/-- C86. After any sequence of `add_word` calls: the vocabulary is strictly ascending and consists
of the folded forms of the words that were added successfully; `len` is its length; and `in` holds
exactly for strings whose folded form is in it. -/
theorem C86_v5b_vocabulary (hcf : ∀ w, cf (cf w) = cf w) {n : NArg} {cs : Option Bool}
    {fn : Option PyVal} {st₀ : WL} (h0 : WL.v5bNew n cs fn = .ok st₀) (vs : List PyVal) :
    (st₀.v5bRun cf vs).v5bVocabulary.Pairwise (· < ·) ∧
    (∀ x, x ∈ (st₀.v5bRun cf vs).v5bVocabulary ↔ ∃ v ∈ vs, Adds cf st₀.caseInsensitive v x) ∧
    (st₀.v5bRun cf vs).v5bLen = (st₀.v5bRun cf vs).v5bVocabulary.length ∧
    ∀ v, (st₀.v5bRun cf vs).v5bContains cf v = true ↔
      ∃ w, v = .str w ∧ (if st₀.caseInsensitive then cf w else w) ∈
        (st₀.v5bRun cf vs).v5bVocabulary := by
  obtain ⟨b, f, -, -, h1, h2⟩ := C85_v5b_same_index hcf h0
  have hi0 := WLInv.new (cf := cf) h1
  have hci : st₀.caseInsensitive = !b := by
    unfold WL.new at h1
    cases hm : mkNList n with
    | error e => rw [hm] at h1; cases h1
    | ok l =>
      rw [hm] at h1
      injection h1 with h1
      subst h1; rfl
  have hrun := h2 vs
  obtain ⟨h3, h4⟩ := C23_vocabulary hcf h1 (vs.map WLOp.add)
  rw [← hrun] at h3 h4
  have hi := hi0.run hcf (vs.map WLOp.add)
  have hcfg := (config_run hcf hi0 (vs.map WLOp.add)).2.2
  rw [← hrun] at hi hcfg
  have hp : (st₀.v5bRun cf vs).v5bVocabulary.Perm (st₀.v5bRun cf vs).wordList :=
    List.perm_insertionSort _ _
  refine ⟨h3, ?_, hp.length_eq.symm, ?_⟩
  · intro x
    have := h4 x
    rw [← hci] at this
    refine this.trans ?_
    constructor
    · rintro ⟨v, hv, ha⟩
      obtain ⟨v', hv', he⟩ := List.mem_map.1 hv
      injection he with he
      exact ⟨v, he ▸ hv', ha⟩
    · rintro ⟨v, hv, ha⟩
      exact ⟨v, List.mem_map.2 ⟨v, hv, rfl⟩, ha⟩
  · intro v
    cases v with
    | int i => simp [WL.v5bContains]
    | other => simp [WL.v5bContains]
    | str w =>
      simp only [WL.v5bContains]
      rw [Dict.has_iff, hi.keys.mem_iff]
      have hfold : (st₀.v5bRun cf vs).fold cf w = if st₀.caseInsensitive then cf w else w := by
        unfold WL.fold; rw [hcfg]
      rw [hfold, ← hp.mem_iff]
      constructor
      · intro h; exact ⟨w, rfl, h⟩
      · rintro ⟨w', he, h⟩; injection he with he; rw [he]; exact h

example : demoB.v5bVocabulary = ["a".toList, "banana".toList, "bandana".toList] ∧
    demoB.v5bLen = 3 ∧ demoB.v5bContains id (.str "banana".toList) = true ∧
    demoB.v5bContains id (.str "x\x02".toList) = false := by decide +kernel

/-- C87. Constructor: it succeeds exactly for a positive `n` or a non-empty iterable of positive
sizes, a boolean `case_sensitive` and a `filter_n` that is `None` or a positive integer. A
non-positive int `n` is a `ValueError`, any other bad `n` a `TypeError` (also a non-positive size
inside an iterable). -/
theorem C87_v5b_constructor (n : NArg) (cs : Option Bool) (fn : Option PyVal) :
    ((∃ st, WL.v5bNew n cs fn = .ok st) ↔
      ((∃ i, n = .int i ∧ 0 < i) ∨ ∃ ns, n = .iter ns ∧ ns ≠ [] ∧ ∀ i ∈ ns, 0 < i) ∧
      cs ≠ none ∧ (fn = none ∨ ∃ f, fn = some (.int f) ∧ 0 < f)) ∧
    (∀ i, n = .int i → i ≤ 0 → WL.v5bNew n cs fn = .error .valueError) ∧
    (∀ ns, n = .iter ns → (ns = [] ∨ ∃ i ∈ ns, i ≤ 0) → WL.v5bNew n cs fn = .error .typeError) := by
  have hiter : ∀ ns : List ℤ, ((ns.dedup).insertionSort (· ≤ ·)).isEmpty = true ↔ ns = [] := by
    intro ns
    rw [List.isEmpty_iff]
    constructor
    · intro h
      rw [List.eq_nil_iff_forall_not_mem]
      intro x hx
      have : x ∈ (ns.dedup).insertionSort (· ≤ ·) :=
        (List.perm_insertionSort _ _).mem_iff.2 (List.mem_dedup.2 hx)
      rw [h] at this; cases this
    · rintro rfl; rfl
  have hany : ∀ ns : List ℤ,
      ((ns.dedup).insertionSort (· ≤ ·)).any (fun n => decide (n ≤ 0)) = true ↔ ∃ i ∈ ns, i ≤ 0 := by
    intro ns
    rw [List.any_eq_true]
    constructor
    · rintro ⟨x, hx, h⟩
      exact ⟨x, List.mem_dedup.1 ((List.perm_insertionSort _ _).mem_iff.1 hx), by simpa using h⟩
    · rintro ⟨x, hx, h⟩
      exact ⟨x, (List.perm_insertionSort _ _).mem_iff.2 (List.mem_dedup.2 hx), by simpa using h⟩
  have hf : (∃ f, v5bFilterN fn = .ok f) ↔ (fn = none ∨ ∃ f, fn = some (.int f) ∧ 0 < f) := by
    cases fn with
    | none => simp [v5bFilterN]
    | some v =>
      cases v with
      | str s => simp [v5bFilterN]
      | other => simp [v5bFilterN]
      | int i =>
        unfold v5bFilterN
        by_cases h : i ≤ 0
        · simp [h]
        · simp [h]; omega
  have hn : (∃ l, v5bNList n = .ok l) ↔
      ((∃ i, n = .int i ∧ 0 < i) ∨ ∃ ns, n = .iter ns ∧ ns ≠ [] ∧ ∀ i ∈ ns, 0 < i) := by
    cases n with
    | other => simp [v5bNList]
    | int i =>
      unfold v5bNList
      by_cases h : i ≤ 0
      · simp [h]
      · simp [h]; omega
    | iter ns =>
      unfold v5bNList
      simp only [Bool.or_eq_true, hiter, hany]
      by_cases h : ns = [] ∨ ∃ i ∈ ns, i ≤ 0
      · rw [if_pos h]
        simp only [reduceCtorEq, exists_false, false_iff, NArg.iter.injEq, not_or, not_exists,
          not_and, false_and, not_false_eq_true, true_and]
        rintro ns' rfl hne
        rcases h with h | ⟨i, hi, h⟩
        · exact absurd h hne
        · intro h'; have := h' i hi; omega
      · rw [if_neg h]
        rw [not_or] at h
        push Not at h
        constructor
        · intro _; exact Or.inr ⟨ns, rfl, h.1, h.2⟩
        · intro _; exact ⟨_, rfl⟩
  refine ⟨?_, ?_, ?_⟩
  · rw [← hn, ← hf]
    constructor
    · rintro ⟨st, h⟩
      unfold WL.v5bNew at h
      cases hl : v5bNList n with
      | error e => rw [hl] at h; cases h
      | ok l =>
        rw [hl] at h
        cases cs with
        | none => cases h
        | some b =>
          cases hff : v5bFilterN fn with
          | error e => rw [hff] at h; cases h
          | ok f => exact ⟨⟨l, rfl⟩, by simp, ⟨f, rfl⟩⟩
    · rintro ⟨⟨l, hl⟩, hcs, f, hff⟩
      cases cs with
      | none => exact absurd rfl hcs
      | some b =>
        unfold WL.v5bNew
        rw [hl, hff]
        exact ⟨_, rfl⟩
  · rintro i rfl hi
    unfold WL.v5bNew v5bNList
    simp only [if_pos hi]; rfl
  · rintro ns rfl h
    unfold WL.v5bNew v5bNList
    simp only [Bool.or_eq_true, hiter, hany, if_pos h]; rfl

example : WL.v5bNew (.iter [2, 0]) (some false) (some (.int 3)) = .error .typeError ∧
    WL.v5bNew (.int 0) (some false) (some (.int 3)) = .error .valueError ∧
    (∃ st, WL.v5bNew (.iter [4, 2]) (some false) (some (.int 3)) = .ok st) := by
  refine ⟨by decide +kernel, by decide +kernel, ?_⟩
  exact (C87_v5b_constructor _ _ _).1.2 ⟨Or.inr ⟨_, rfl, by decide, by decide⟩, by decide,
    Or.inr ⟨3, rfl, by decide⟩⟩

/-- C87. `add_word` and `lookup`: every exception is a `ValueError`, and it occurs exactly for a
word that is not a non-empty string (for `add_word` also one that folds to the empty string or
contains a marker) or, in `lookup`, a `top_k` that is not a positive integer. A failed `add_word`
changes nothing. -/
theorem C87_v5b_errors (hcf : ∀ w, cf (cf w) = cf w) {st : WL} (hr : st.V5bReachable cf)
    {agg : List ℚ → S} (hagg : MonotoneAgg agg) (v topK : PyVal) (normalize : Bool) :
    ((¬ ∃ x, Adds cf st.caseInsensitive v x) ↔ (st.v5bAddWord cf v).2 = .error .valueError) ∧
    ((∃ x, Adds cf st.caseInsensitive v x) ↔ (st.v5bAddWord cf v).2 = .ok ()) ∧
    ((st.v5bAddWord cf v).2 ≠ .ok () → (st.v5bAddWord cf v).1 = st) ∧
    (((∀ w, v = .str w → w = []) ∨ (∀ k, topK = .int k → k ≤ 0)) ↔
      st.v5bLookup agg cf v topK normalize = .error .valueError) ∧
    (∀ e, st.v5bLookup agg cf v topK normalize = .error e → e = .valueError) := by
  have hi := (hr.reachable hcf).inv hcf
  have hlook : (((∀ w, v = .str w → w = []) ∨ (∀ k, topK = .int k → k ≤ 0)) ∧
      st.v5bLookup agg cf v topK normalize = .error .valueError) ∨
      (¬ ((∀ w, v = .str w → w = []) ∨ (∀ k, topK = .int k → k ≤ 0)) ∧
      ∃ res, st.v5bLookup agg cf v topK normalize = .ok res) := by
    cases v with
    | int i => exact Or.inl ⟨Or.inl (by intro w h; cases h), rfl⟩
    | other => exact Or.inl ⟨Or.inl (by intro w h; cases h), rfl⟩
    | str w =>
      by_cases hw : w = []
      · subst hw
        refine Or.inl ⟨Or.inl (by intro w h; injection h with h; exact h.symm), rfl⟩
      have h0 : w.length ≠ 0 := by simpa using hw
      cases topK with
      | str s =>
        refine Or.inl ⟨Or.inr (by intro w h; cases h), ?_⟩
        simp only [WL.v5bLookup, if_neg h0]
      | other =>
        refine Or.inl ⟨Or.inr (by intro w h; cases h), ?_⟩
        simp only [WL.v5bLookup, if_neg h0]
      | int k =>
        by_cases hk : k ≤ 0
        · refine Or.inl ⟨Or.inr (by intro k' h; injection h with h; omega), ?_⟩
          simp only [WL.v5bLookup, if_neg h0, if_pos hk]
        · refine Or.inr ⟨?_, ?_⟩
          · rintro (h | h)
            · exact hw (h w rfl)
            · exact hk (h k rfl)
          · obtain ⟨res, h, -⟩ := C84_v5b_lookup hcf hr hagg hw (not_le.1 hk) normalize
            exact ⟨res, h⟩
  have hadd : ((∃ x, Adds cf st.caseInsensitive v x) ∧ (st.v5bAddWord cf v).2 = .ok ()) ∨
      ((¬ ∃ x, Adds cf st.caseInsensitive v x) ∧
        st.v5bAddWord cf v = (st, .error .valueError)) := by
    rw [v5bAddWord_cases hi]
    cases v with
    | int i => exact Or.inr ⟨(by rintro ⟨x, w, h, -⟩; cases h), rfl⟩
    | other => exact Or.inr ⟨(by rintro ⟨x, w, h, -⟩; cases h), rfl⟩
    | str w =>
      simp only
      by_cases hc : w = [] ∨ st.fold cf w = [] ∨
          ¬ ('\x02' ∉ st.fold cf w ∧ '\x03' ∉ st.fold cf w)
      · rw [if_pos hc]
        refine Or.inr ⟨?_, rfl⟩
        rintro ⟨x, w', h, h1, h2, h3, h4⟩
        injection h with h
        subst h
        have hx : st.fold cf w = x := h2
        rw [hx] at hc
        rcases hc with hc | hc | hc
        · exact h1 hc
        · exact h3 hc
        · exact hc h4
      · rw [if_neg hc]
        rw [not_or, not_or, not_not] at hc
        refine Or.inl ⟨⟨st.fold cf w, w, rfl, hc.1, rfl, hc.2.1, hc.2.2⟩, ?_⟩
        split <;> rfl
  refine ⟨?_, ?_, ?_, ?_, ?_⟩
  · rcases hadd with ⟨h, h'⟩ | ⟨h, h'⟩
    · rw [h']; simp [h]
    · rw [h']; simp only [h, not_false_eq_true]
  · rcases hadd with ⟨h, h'⟩ | ⟨h, h'⟩
    · rw [h']; simp only [h]
    · rw [h']; simp [h]
  · rcases hadd with ⟨h, h'⟩ | ⟨h, h'⟩
    · intro hn; exact absurd h' hn
    · intro _; rw [h']
  · rcases hlook with ⟨h, h'⟩ | ⟨h, res, h'⟩
    · rw [h']; simp only [h]
    · rw [h']; simp only [h, reduceCtorEq]
  · intro e he
    rcases hlook with ⟨h, h'⟩ | ⟨h, res, h'⟩
    · rw [h'] at he; injection he with he; exact he.symm
    · rw [h'] at he; cases he

example : (demoB.v5bAddWord id (.str "x\x03".toList)).2 = .error .valueError ∧
    demoB.v5bLookup mean1 id (.str "x\x03".toList) (.int 2) true = .ok [] ∧
    demoB.v5bLookup mean1 id (.str "x".toList) (.int 0) true = .error .valueError := by
  decide +kernel

end Verif
