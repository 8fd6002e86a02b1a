import Verif.Index.IncrProps
import Verif.WordSet.MergeProps

/-!
# Property C215: looking up in parts of a word list and merging the answers
-/

namespace Verif

open GramSpec IndexSpec

variable {cf : List Char → List Char} {S : Type} [LinearOrder S]

theorem topScores_best (all : List S) (k : ℕ) : TopScores all k (best id k all) := by
  refine ⟨(sortDesc id all).drop k, ?_, ?_, ?_, ?_⟩
  · rw [best_eq, List.take_append_drop]; exact sortDesc_perm _ _
  · rw [best_eq]; exact length_take_sortDesc _ _ _
  · rw [best_eq]
    exact ((sortDesc_pairwise id all).sublist (List.take_sublist _ _)).imp (fun h => h)
  · intro a ha b hb
    exact take_drop_dominate (sortDesc_pairwise id all) ha hb

theorem best_perm {k : ℕ} {l l' : List S} (h : l.Perm l') : best id k l = best id k l' := by
  obtain ⟨rest, h1, h2, h3⟩ := topScores_best l k
  exact topScores_unique ⟨rest, h1.trans h, by rw [h2, h.length_eq], h3⟩ (topScores_best l' k)

theorem eligibleWords_perm {ns : List ℤ} {f : ℤ} {q : List Char} {l l' : List (List Char)}
    (h : l.Perm l') : (eligibleWords ns f q l).Perm (eligibleWords ns f q l') := h.filter _

/-- The lists `a` and `b` have the configuration of `u`, and its words divided among them. -/
structure Parts (u a b : WL) : Prop where
  sizesA : a.nList = u.nList
  filterA : a.filterN = u.filterN
  caseA : a.caseInsensitive = u.caseInsensitive
  sizesB : b.nList = u.nList
  filterB : b.filterN = u.filterN
  caseB : b.caseInsensitive = u.caseInsensitive
  words : u.vocabulary.Perm (a.vocabulary ++ b.vocabulary)

theorem Parts.wordList {u a b : WL} (h : Parts u a b) :
    u.wordList.Perm (a.wordList ++ b.wordList) := by
  have e : ∀ s : WL, s.vocabulary.Perm s.wordList := fun s => List.perm_insertionSort _ _
  exact (e u).symm.trans (h.words.trans ((e a).append (e b)))

/-- **C215.** If the words of a list are divided over two lists, the aggregated scores of a lookup are
the merge of those of the parts: the best of both. -/
theorem C215_merge_scores (hcf : ∀ w, cf (cf w) = cf w) {u a b : WL} (hu : u.Reachable cf)
    (ha : a.Reachable cf) (hb : b.Reachable cf) (hp : Parts u a b) {agg : List ℚ → S}
    (hagg : MonotoneAgg agg) {word : PyVal} {k : ℤ} {normalize : Bool}
    {ru ra rb : List (List Char × (S ×ₗ ℚ))}
    (hru : u.lookup agg cf word (.int k) normalize = .ok ru)
    (hra : a.lookup agg cf word (.int k) normalize = .ok ra)
    (hrb : b.lookup agg cf word (.int k) normalize = .ok rb) :
    ru.map (fun r => (ofLex r.2).1) =
      best id k.toNat ((ra ++ rb).map (fun r => (ofLex r.2).1)) := by
  have val : ∀ {s : WL} {r}, s.Reachable cf → s.lookup agg cf word (.int k) normalize = .ok r →
      ∃ w, word = .str w ∧ r.map (fun r => (ofLex r.2).1) = best id k.toNat
        ((eligibleWords s.nList s.filterN (s.fold cf w) s.wordList).map
          (fun v => agg (scoreVec s.nList normalize (s.fold cf w) v))) := by
    intro s r hs hr
    obtain ⟨w, j, rfl, -, hj, -, -, hres⟩ := lookup_result hcf hs hagg hr
    injection hj with hj
    subst hj
    exact ⟨w, rfl, topScores_unique (hres.top (hs.inv hcf).nodupW)
      (topScores_best _ _)⟩
  obtain ⟨w, rfl, eu⟩ := val hu hru
  obtain ⟨w1, e1, ea⟩ := val ha hra
  obtain ⟨w2, e2, eb⟩ := val hb hrb
  injection e1 with e1
  injection e2 with e2
  subst e1 e2
  have fa : a.fold cf w = u.fold cf w := by unfold WL.fold; rw [hp.caseA]
  have fb : b.fold cf w = u.fold cf w := by unfold WL.fold; rw [hp.caseB]
  rw [List.map_append, eu, ea, eb, best_merge, fa, fb, hp.sizesA, hp.sizesB, hp.filterA, hp.filterB,
    ← List.map_append]
  apply best_perm
  refine List.Perm.map _ ?_
  have := eligibleWords_perm (ns := u.nList) (f := u.filterN) (q := u.fold cf w) hp.wordList
  unfold eligibleWords at this ⊢
  rwa [List.filter_append] at this

/-- The words of the examples, divided. -/
def partA : WL := demo₀.run id [.add (.str "banana".toList), .add (.str "cabana".toList)]

/-- See `partA`. -/
def partB : WL := demo₀.run id [.add (.str "bandana".toList)]

/-- See `partA`. -/
def whole : WL := demo₀.run id
  [.add (.str "bandana".toList), .add (.str "banana".toList), .add (.str "cabana".toList)]

example : Parts whole partA partB ∧
    (plain (partA.lookup mean1 id (.str "bananas".toList) (.int 2) true)).map
      (List.map Prod.fst) = .ok ["banana", "cabana"] ∧
    (plain (partB.lookup mean1 id (.str "bananas".toList) (.int 2) true)).map
      (List.map Prod.fst) = .ok ["bandana"] ∧
    (plain (whole.lookup mean1 id (.str "bananas".toList) (.int 2) true)).map
      (List.map Prod.fst) = .ok ["banana", "bandana"] ∧
    ∀ s ∈ [whole, partA, partB],
      ShortTies mean1 s.nList s.filterN true s.wordList 2 "bananas".toList :=
  ⟨⟨by decide +kernel, by decide +kernel, by decide +kernel, by decide +kernel, by decide +kernel,
    by decide +kernel, by decide +kernel⟩, by decide +kernel, by decide +kernel, by decide +kernel,
    by
      simp only [List.forall_mem_cons]
      refine ⟨?_, ?_, ?_, by simp⟩ <;> decide +kernel⟩

/-- **C215.** If there are no long ties (see C206), the pairs of scores merge as well. -/
theorem C215_merge_pairs (hcf : ∀ w, cf (cf w) = cf w) {u a b : WL} (hu : u.Reachable cf)
    (ha : a.Reachable cf) (hb : b.Reachable cf) (hp : Parts u a b) {agg : List ℚ → S}
    (hagg : MonotoneAgg agg) {word : PyVal} {k : ℤ} {normalize : Bool}
    {ru ra rb : List (List Char × (S ×ₗ ℚ))}
    (hru : u.lookup agg cf word (.int k) normalize = .ok ru)
    (hra : a.lookup agg cf word (.int k) normalize = .ok ra)
    (hrb : b.lookup agg cf word (.int k) normalize = .ok rb)
    (hties : ∀ s ∈ [u, a, b], ∀ w, word = .str w →
      ShortTies agg s.nList s.filterN normalize s.wordList k.toNat (s.fold cf w)) :
    ru.map Prod.snd = best id k.toNat ((ra ++ rb).map Prod.snd) := by
  have val : ∀ {s : WL} {r}, s.Reachable cf → s ∈ [u, a, b] →
      s.lookup agg cf word (.int k) normalize = .ok r →
      ∃ w, word = .str w ∧ r.map Prod.snd = best id k.toNat
        ((eligibleWords s.nList s.filterN (s.fold cf w) s.wordList).map
          (rankPair agg s.nList normalize (s.fold cf w))) := by
    intro s r hs hm hr
    obtain ⟨w, j, rfl, hw, hj, hk, hq, _⟩ := lookup_result hcf hs hagg hr
    injection hj with hj
    subst hj
    refine ⟨w, rfl, ?_⟩
    have hfail : ¬ LookupFails agg s.nList s.filterN normalize s.wordList k.toNat (s.fold cf w) := by
      intro hf
      rw [(lookup_spec (hs.inv hcf) hagg hw hk rfl hq normalize).1 hf] at hr
      cases hr
    have e := C206_ideal_ranking hcf hs hagg hw hk hq normalize hfail (hties s hm w rfl)
    rw [hr] at e
    injection e with e
    rw [e, List.map_map, ← best_perm (((discovered_perm s.nList s.filterN (s.fold cf w)
      (hs.inv hcf).nodupW)).map _), best_map]
    rfl
  obtain ⟨w, rfl, eu⟩ := val hu (by simp) hru
  obtain ⟨w1, e1, ea⟩ := val ha (by simp) hra
  obtain ⟨w2, e2, eb⟩ := val hb (by simp) hrb
  injection e1 with e1
  injection e2 with e2
  subst e1 e2
  have fa : a.fold cf w = u.fold cf w := by unfold WL.fold; rw [hp.caseA]
  have fb : b.fold cf w = u.fold cf w := by unfold WL.fold; rw [hp.caseB]
  rw [List.map_append, eu, ea, eb, best_merge, fa, fb, hp.sizesA, hp.sizesB, hp.filterA, hp.filterB,
    ← List.map_append]
  apply best_perm
  refine List.Perm.map _ ?_
  have := eligibleWords_perm (ns := u.nList) (f := u.filterN) (q := u.fold cf w) hp.wordList
  unfold eligibleWords at this ⊢
  rwa [List.filter_append] at this

end Verif
