import Verif.Conc.ListChoice

/-!
# What a lookup finds in a growing list: the invariant of the reading thread
-/

namespace Verif
namespace ListConc

open GramSpec IndexSpec

variable {cf : List Char → List Char} {S : Type} [LinearOrder S] {agg : List ℚ → S} {Q : Query}
  {m₀ m m' F : WL} {q : List Char} {k : ℕ}

/-- The candidates found while the n-grams `gs` are still to be looked up. -/
structure FiltOk (m₀ F : WL) (q : List Char) (gs : List (List Char)) (cand : List ℕ) : Prop where
  grams : ∀ g ∈ gs, g ∈ getNGrams q F.filterN
  sub : ∀ i ∈ cand, i ∈ F.filterCandidates q
  all : ∀ g ∈ getNGrams q F.filterN, g ∉ gs → ∀ i ∈ filts m₀ g, i ∈ cand

/-- Every index is that of a word with a length. -/
def Bnd (m : WL) {α : Type} (l : List (ℕ × α)) : Prop :=
  ∀ i ∈ l.map Prod.fst, i < m.wordLens.length ∧ i < m.wordList.length

/-- A state of the first pass. -/
structure CountSt (Q : Query) (m₀ F : WL) (q : List Char) (cand : List ℕ)
    (seen cur : List (CountItem × List (ℕ × ℕ))) (todo : List CountItem) (ms : Dict ℕ (List ℚ)) : Prop where
  candOk : CandOk m₀ F q cand
  split : seen.map Prod.fst ++ todo = countItems F.nList q
  cov : CovC m₀ F seen
  acc : ms = accum F.nList.length [] (evsOf (baseC F q Q.normalize) (Passes F cand) (seen ++ cur))

/-- A state of the second pass. -/
structure PosSt (agg : List ℚ → S) (Q : Query) (m₀ m F : WL) (q : List Char) (k : ℕ) (cand : List ℕ)
    (seen cur : List (PosItem × List (ℕ × List ℚ))) (todo : List PosItem) (ns : List (ℤ × ℕ))
    (ms : Dict ℕ (List ℚ)) : Prop where
  candOk : SurvOk agg m₀ F Q.normalize q k cand
  elig : ∃ w ∈ F.wordList, Eligible F.nList F.filterN q w
  sizes : ns <:+ F.nList.zipIdx
  split : seen.map Prod.fst ++ (todo ++ posItems q ns) = posItems q F.nList.zipIdx
  cov : CovP m₀ F seen
  acc : ms = accum F.nList.length [] (evsOf baseP (· ∈ cand) (seen ++ cur))
  bnd : Bnd m ms

/-- What the lookup may raise. -/
def ErrOk (cf : List Char → List Char) (Q : Query) (F : WL) (e : PyErr) : Prop :=
  F.checkLookup cf Q.word Q.topK = .error e ∨
  (e = .zeroDivisionError ∧ ∃ q k, F.checkLookup cf Q.word Q.topK = .ok (q, k) ∧
    (∃ w ∈ F.wordList, Eligible F.nList F.filterN q w) ∧
    ((∃ n ∈ F.nList, (gramsOf n q).length = 1) ∨
      (Q.normalize = true ∧ ∃ w ∈ F.wordList, Eligible F.nList F.filterN q w ∧
        ∃ n ∈ F.nList, denom n q w = 0)))

/-- What is known of the reading thread: the lookup began when the list was `m₀`, it is now `m`, and it will
be `F`. -/
def RInv (cf : List Char → List Char) (agg : List ℚ → S) (Q : Query) (m₀ m F : WL) : RPc S → Prop
  | .enter => True
  | .filterGet q k gs cand => F.checkLookup cf Q.word Q.topK = .ok (q, k) ∧ FiltOk m₀ F q gs cand
  | .filterUpd q k g gs cand => F.checkLookup cf Q.word Q.topK = .ok (q, k) ∧
      FiltOk m₀ F q (g :: gs) cand
  | .countGet q k todo cand ms => F.checkLookup cf Q.word Q.topK = .ok (q, k) ∧
      ∃ seen, CountSt Q m₀ F q cand seen [] todo ms
  | .countNext q k it pos todo cand ms => F.checkLookup cf Q.word Q.topK = .ok (q, k) ∧
      ∃ seen es, es <+: cnts m it.g ∧ es.length = pos ∧
        CountSt Q m₀ F q cand seen [(it, es)] (it :: todo) ms
  | .countNum q k it e pos todo cand ms => F.checkLookup cf Q.word Q.topK = .ok (q, k) ∧
      (∃ seen es, es <+: cnts m it.g ∧ es.length = pos ∧
        CountSt Q m₀ F q cand seen [(it, es)] (it :: todo) ms) ∧
      (cnts m it.g)[pos]? = some e ∧ Passes F cand e.1 ∧ Q.normalize = true ∧
      e.1 < m.wordNumGrams.length
  | .posSize q k ns cand ms => F.checkLookup cf Q.word Q.topK = .ok (q, k) ∧
      ∃ seen, PosSt agg Q m₀ m F q k cand seen [] [] ns ms
  | .posGet q k todo ns cand ms => F.checkLookup cf Q.word Q.topK = .ok (q, k) ∧
      ∃ seen, PosSt agg Q m₀ m F q k cand seen [] todo ns ms
  | .posNext q k it pos todo ns cand ms => F.checkLookup cf Q.word Q.topK = .ok (q, k) ∧
      ∃ seen es, es <+: poss m it.g ∧ es.length = pos ∧
        PosSt agg Q m₀ m F q k cand seen [(it, es)] (it :: todo) ns ms
  | .lens q k todo acc => F.checkLookup cf Q.word Q.topK = .ok (q, k) ∧
      ∃ cand ms D, SurvOk agg m₀ F Q.normalize q k cand ∧ MatchOk m₀ F q cand ms ∧ Bnd m ms ∧
        D ++ todo = ms ∧ List.Forall₂ (fun p r => F.normalizeRow q Q.normalize p = .ok r) D acc
  | .words q k todo acc => F.checkLookup cf Q.word Q.topK = .ok (q, k) ∧
      ∃ scored D, ScoredOk agg m₀ F Q.normalize q k scored ∧ Bnd m scored ∧
        D ++ todo = mostCommon scored (k * 2) ∧
        List.Forall₂ (fun p r => r.1 = p.1 ∧ (ofLex r.2).1 = p.2 ∧ ∃ w, F.wordList[p.1]? = some w ∧
          nmd (.str q) (.str w) (.int 2) true Q.normalize = .ok (ofLex r.2).2) D acc
  | .pick todo acc => ∃ q k, F.checkLookup cf Q.word Q.topK = .ok (q, k) ∧
      ∃ items D, ItemsOk agg m₀ F Q.normalize q k items ∧ Bnd m items ∧
        D ++ todo = mostCommon items k ∧
        List.Forall₂ (fun p r => F.wordList[p.1]? = some r.1 ∧ r.2 = p.2) D acc
  | .done (.error e) => ErrOk cf Q F e
  | .done (.ok res) => ∃ q k, F.checkLookup cf Q.word Q.topK = .ok (q, k) ∧
      ∀ stored : List Char → Prop, (∀ w, stored w → ∃ i, Complete m₀ w i) →
        Found agg F.nList F.filterN Q.normalize stored F.wordList k q res

theorem Bnd.mono {α : Type} {l : List (ℕ × α)} (h : Bnd m l) (hg : Grows m m') : Bnd m' l :=
  fun i hi => ⟨lt_of_lt_of_le (h i hi).1 hg.lens.length_le, lt_of_lt_of_le (h i hi).2 hg.words.length_le⟩

theorem PosSt.mono {cand : List ℕ} {seen cur todo ns ms} (hg : Grows m m')
    (h : PosSt agg Q m₀ m F q k cand seen cur todo ns ms) :
    PosSt agg Q m₀ m' F q k cand seen cur todo ns ms := { h with bnd := h.bnd.mono hg }

theorem prefix_get {α : Type} {l l' : List α} (h : l <+: l') {i : ℕ} {a : α} (ha : l[i]? = some a) :
    l'[i]? = some a := by
  obtain ⟨t, rfl⟩ := h
  rw [List.getElem?_append_left (List.getElem?_eq_some_iff.1 ha).1]; exact ha

/-- Steps of the other threads. -/
theorem RInv.mono (hg : Grows m m') {p : RPc S} (h : RInv cf agg Q m₀ m F p) :
    RInv cf agg Q m₀ m' F p := by
  cases p with
  | countNext q k it pos todo cand ms =>
    obtain ⟨h1, seen, es, h2, h3, h4⟩ := h
    exact ⟨h1, seen, es, h2.trans (hg.counts _), h3, h4⟩
  | countNum q k it e pos todo cand ms =>
    obtain ⟨h1, ⟨seen, es, h2, h3, h4⟩, h5, h6, h7, h8⟩ := h
    exact ⟨h1, ⟨seen, es, h2.trans (hg.counts _), h3, h4⟩, prefix_get (hg.counts _) h5, h6, h7,
      lt_of_lt_of_le h8 hg.nums.length_le⟩
  | posSize q k ns cand ms =>
    obtain ⟨h1, seen, h2⟩ := h
    exact ⟨h1, seen, h2.mono hg⟩
  | posGet q k todo ns cand ms =>
    obtain ⟨h1, seen, h2⟩ := h
    exact ⟨h1, seen, h2.mono hg⟩
  | posNext q k it pos todo ns cand ms =>
    obtain ⟨h1, seen, es, h2, h3, h4⟩ := h
    exact ⟨h1, seen, es, h2.trans (hg.positions _), h3, h4.mono hg⟩
  | lens q k todo acc =>
    obtain ⟨h1, cand, ms, D, h2, h3, h4, h5, h6⟩ := h
    exact ⟨h1, cand, ms, D, h2, h3, h4.mono hg, h5, h6⟩
  | words q k todo acc =>
    obtain ⟨h1, scored, D, h2, h3, h4⟩ := h
    exact ⟨h1, scored, D, h2, h3.mono hg, h4⟩
  | pick todo acc =>
    obtain ⟨q, k, h1, items, D, h2, h3, h4⟩ := h
    exact ⟨q, k, h1, items, D, h2, h3.mono hg, h4⟩
  | done r => cases r <;> exact h
  | _ => exact h

theorem checkLookup_grows (hg : Grows m F) (a b : PyVal) : F.checkLookup cf a b = m.checkLookup cf a b := by
  unfold WL.checkLookup WL.fold
  rw [hg.ci]

theorem checkLookup_pos {a b : PyVal} (h : F.checkLookup cf a b = .ok (q, k)) : 1 ≤ k ∧ Clean q := by
  unfold WL.checkLookup at h
  cases a with
  | int i => cases h
  | other => cases h
  | str w =>
    simp only at h
    split at h
    · cases h
    cases b with
    | str s => cases h
    | other => cases h
    | int k =>
      simp only at h
      split at h
      · cases h
      rename_i hk
      split at h
      · cases h
      rename_i hcl
      rw [not_or] at hcl
      injection h with h
      injection h with h1 h2
      subst h1 h2
      exact ⟨by omega, hcl⟩

theorem get_none_of_has {κ ν : Type} [DecidableEq κ] {d : Dict κ ν} {g : κ} (h : ¬ Dict.has d g = true) :
    Dict.get? d g = none := by
  unfold Dict.has at h
  simpa using h

theorem evsOf_append {α β : Type} (base : α → ℕ × β → List Event) (ok : ℕ → Prop) [DecidablePred ok]
    (a b : List (α × List (ℕ × β))) : evsOf base ok (a ++ b) = evsOf base ok a ++ evsOf base ok b :=
  List.flatMap_append

theorem evsOf_snoc {α β : Type} (base : α → ℕ × β → List Event) (ok : ℕ → Prop) [DecidablePred ok]
    (a : List (α × List (ℕ × β))) (it : α) (es : List (ℕ × β)) (e : ℕ × β) :
    evsOf base ok (a ++ [(it, es ++ [e])]) =
      evsOf base ok (a ++ [(it, es)]) ++ if ok e.1 then base it e else [] := by
  rw [evsOf_append, evsOf_append, List.append_assoc]
  congr 1
  simp [evsOf]

theorem accum_append' (N : ℕ) (a b : List Event) : accum N [] (a ++ b) = accum N (accum N [] a) b := by
  simp [accum]

theorem evsOf_nil {α β : Type} (base : α → ℕ × β → List Event) (ok : ℕ → Prop) [DecidablePred ok]
    (a : List (α × List (ℕ × β))) (it : α) : evsOf base ok (a ++ [(it, [])]) = evsOf base ok (a ++ []) := by
  rw [evsOf_append, evsOf_append]
  congr 1

theorem FiltOk.done (h0 : Grows m₀ F) (hF : WLInv cf F) {cand : List ℕ} (h : FiltOk m₀ F q [] cand) :
    CandOk m₀ F q cand := by
  refine ⟨h.sub, fun w i hc hi => ?_⟩
  unfold WL.filterCandidates at hi
  split at hi
  · obtain ⟨g, hg, hi⟩ := List.mem_flatMap.1 hi
    rw [List.mem_dedup] at hg
    exact h.all g hg (by simp) i ((hc.same h0 hF g).2.2.2.1 hi)
  · cases hi

/-- A new entry is added in the first pass. -/
theorem CountSt.next {cand : List ℕ} {seen : List (CountItem × List (ℕ × ℕ))} {it : CountItem}
    {es : List (ℕ × ℕ)} {todo : List CountItem} {ms : Dict ℕ (List ℚ)} {e : ℕ × ℕ} {ms' : Dict ℕ (List ℚ)}
    (h : CountSt Q m₀ F q cand seen [(it, es)] (it :: todo) ms)
    (hms : ms' = accum F.nList.length ms (if Passes F cand e.1 then baseC F q Q.normalize it e else [])) :
    CountSt Q m₀ F q cand seen [(it, es ++ [e])] (it :: todo) ms' := by
  refine { h with acc := ?_ }
  rw [evsOf_snoc, accum_append', ← h.acc, hms]

theorem PosSt.next {cand : List ℕ} {seen : List (PosItem × List (ℕ × List ℚ))} {it : PosItem}
    {es : List (ℕ × List ℚ)} {todo : List PosItem} {ns : List (ℤ × ℕ)} {ms : Dict ℕ (List ℚ)}
    {e : ℕ × List ℚ} (h : PosSt agg Q m₀ m F q k cand seen [(it, es)] (it :: todo) ns ms)
    (he : e.1 < m.wordLens.length ∧ e.1 < m.wordList.length) (hn : m.nList = F.nList) :
    PosSt agg Q m₀ m F q k cand seen [(it, es ++ [e])] (it :: todo) ns
      (m.matchStep cand it.k it.l ms e) := by
  refine { h with acc := ?_, bnd := ?_ }
  · rw [evsOf_snoc, accum_append', ← h.acc]
    unfold WL.matchStep
    by_cases hc : e.1 ∈ cand
    · rw [if_neg (not_not.2 hc), if_pos hc, hn]; rfl
    · rw [if_pos hc, if_neg hc]; rfl
  · unfold WL.matchStep
    split
    · exact h.bnd
    · intro i hi
      unfold bump at hi
      rcases Dict.mem_keys_set.1 hi with rfl | hi
      · exact he
      rcases Dict.mem_keys_set.1 hi with rfl | hi
      · exact he
      · exact h.bnd i hi

theorem take_snoc {α : Type} {l es : List α} {pos : ℕ} {e : α} (h : es <+: l) (hl : es.length = pos)
    (he : l[pos]? = some e) : es ++ [e] <+: l := by
  obtain ⟨t, rfl⟩ := h
  subst hl
  rw [List.getElem?_append_right (le_refl _), Nat.sub_self] at he
  cases t with
  | nil => cases he
  | cons a t =>
    injection he with he; subst he
    exact ⟨t, by simp⟩

theorem eq_of_end {α : Type} {l es : List α} {pos : ℕ} (h : es <+: l) (hl : es.length = pos)
    (he : l[pos]? = none) : es = l := by
  have := List.getElem?_eq_none_iff.1 he
  exact h.eq_of_length_le (by omega)

/-- After the first pass. -/
theorem RInv.afterCounts (h0 : Grows m₀ F) (hF : WLInv cf F) (hagg : MonotoneAgg agg)
    (hchk : F.checkLookup cf Q.word Q.topK = .ok (q, k)) {ms : Dict ℕ (List ℚ)}
    (hms : MinOk m₀ F q Q.normalize ms) :
    RInv cf agg Q m₀ m F (afterCounts agg F.nList q k ms) := by
  unfold ListConc.afterCounts
  by_cases hl : ms.length = 0
  · rw [if_pos hl]
    refine ⟨q, k, hchk, fun stored hst => ?_⟩
    refine ⟨List.nodup_nil, Nat.zero_le _, List.Pairwise.nil, by simp, by simp, ?_⟩
    intro w hw hel _
    obtain ⟨i, hi⟩ := hst w hw
    have := (hms.all w i hi _).2 ⟨hel, rfl⟩
    rw [List.length_eq_zero_iff.1 hl] at this
    cases this
  · rw [if_neg hl]
    obtain ⟨t, ht, hsv⟩ := pruning h0 hF hagg (checkLookup_pos hchk).1 hms hl
    rw [ht]
    refine ⟨hchk, [], hsv, ?_, List.suffix_rfl, rfl, fun p hp => (by cases hp), rfl,
      fun i hi => (by cases hi)⟩
    cases ms with
    | nil => exact absurd rfl hl
    | cons p ms =>
      obtain ⟨w, hw, he, _⟩ := hms.sub p.1 p.2 (by simp)
      exact ⟨w, List.mem_of_getElem? hw, he⟩

/-- Steps of the reading thread. -/
theorem RInv.rstep (hg0 : Grows m₀ m) (hg : Grows m F) (hs : Sound m) (hF : WLInv cf F)
    (hagg : MonotoneAgg agg) (hQ : ∀ l, (Q.grams l).Perm l) {p : RPc S}
    (h : RInv cf agg Q m₀ m F p) : RInv cf agg Q m₀ m F (rstep cf agg Q m p) := by
  have h0 := hg0.trans hg
  cases p with
  | enter =>
    simp only [ListConc.rstep]
    rw [← checkLookup_grows hg]
    cases hc : F.checkLookup cf Q.word Q.topK with
    | error e => exact Or.inl hc
    | ok r =>
      obtain ⟨q, k⟩ := r
      simp only
      rw [← hg.filterN, ← hg.nList]
      by_cases hf : F.filterN ≠ 0
      · rw [if_pos hf]
        refine ⟨hc, ?_, fun i hi => (by cases hi), ?_⟩
        · intro g hg
          exact List.mem_dedup.1 ((hQ _).mem_iff.1 hg)
        · intro g hg hn
          exact absurd ((hQ _).mem_iff.2 (List.mem_dedup.2 hg)) hn
      · rw [if_neg hf]
        refine ⟨hc, [], ⟨fun i hi => (by cases hi), fun w i _ hi => ?_⟩, rfl, fun p hp => (by cases hp), rfl⟩
        unfold WL.filterCandidates at hi
        rwa [if_neg hf] at hi
  | filterGet q k gs cand =>
    obtain ⟨hc, h⟩ := h
    cases gs with
    | nil =>
      simp only [ListConc.rstep]
      rw [← hg.nList]
      exact ⟨hc, [], h.done h0 hF, rfl, fun p hp => (by cases hp), rfl⟩
    | cons g gs =>
      simp only [ListConc.rstep]
      split
      · exact ⟨hc, h⟩
      · rename_i hh
        have hn := get_none_of_has hh
        refine ⟨hc, fun g' hg' => h.grams g' (by simp [hg']), h.sub, fun g' hg' hng i hi => ?_⟩
        by_cases he : g' = g
        · subst he
          have := hg0.filt g' i hi
          unfold filts at this
          rw [hn] at this; cases this
        · exact h.all g' hg' (by simp [he, hng]) i hi
  | filterUpd q k g gs cand =>
    obtain ⟨hc, h⟩ := h
    refine ⟨hc, fun g' hg' => h.grams g' (by simp [hg']), ?_, fun g' hg' hng i hi => ?_⟩
    · intro i hi
      rcases List.mem_append.1 hi with hi | hi
      · exact h.sub i hi
      · have h1 := hg.filt g i hi
        have h2 := (hF.filt g i).1 h1
        unfold WL.filterCandidates
        rw [if_pos h2.1]
        exact List.mem_flatMap.2 ⟨g, List.mem_dedup.2 (h.grams g (by simp)), h1⟩
    · by_cases he : g' = g
      · subst he
        exact List.mem_append_right _ (hg0.filt g' i hi)
      · exact List.mem_append_left _ (h.all g' hg' (by simp [he, hng]) i hi)
  | countGet q k todo cand ms =>
    obtain ⟨hc, seen, h⟩ := h
    cases todo with
    | nil =>
      simp only [ListConc.rstep]
      rw [← hg.nList]
      have h1 := h.split
      rw [List.append_nil] at h1
      have h2 := h.acc
      rw [List.append_nil] at h2
      exact RInv.afterCounts h0 hF hagg hc (h2 ▸ first_pass h0 hF h.candOk h1 h.cov)
    | cons it todo =>
      simp only [ListConc.rstep]
      split
      · exact ⟨hc, seen, [], List.nil_prefix, rfl, h.candOk, h.split, h.cov, by
          rw [evsOf_nil]; exact h.acc⟩
      · rename_i hh
        have hn : cnts m it.g = [] := by
          unfold cnts; rw [get_none_of_has hh]; rfl
        refine ⟨hc, seen ++ [(it, [])], h.candOk, ?_, ?_, ?_⟩
        · rw [← h.split]; simp
        · intro p hp
          rcases List.mem_append.1 hp with hp | hp
          · exact h.cov p hp
          · rw [List.mem_singleton] at hp; subst hp
            refine ⟨?_, List.nil_prefix⟩
            have := hg0.counts it.g
            rw [hn] at this; exact this
        · rw [List.append_nil, evsOf_nil]; exact h.acc
  | countNext q k it pos todo cand ms =>
    obtain ⟨hc, seen, es, hes, hlen, h⟩ := h
    simp only [ListConc.rstep]
    split
    · rename_i hnone
      have he := eq_of_end hes hlen hnone
      refine ⟨hc, seen ++ [(it, es)], h.candOk, ?_, ?_, ?_⟩
      · rw [← h.split]; simp
      · intro p hp
        rcases List.mem_append.1 hp with hp | hp
        · exact h.cov p hp
        · rw [List.mem_singleton] at hp; subst hp
          rw [he]
          exact ⟨hg0.counts _, hg.counts _⟩
      · rw [List.append_nil]; exact h.acc
    · rename_i e he
      have hsn := take_snoc hes hlen he
      have hl : (es ++ [e]).length = pos + 1 := by simp [hlen]
      by_cases hp : m.filterN ≠ 0 ∧ e.1 ∉ cand
      · rw [if_pos hp]
        refine ⟨hc, seen, _, hsn, hl, h.next ?_⟩
        rw [if_neg]
        · rfl
        · intro hP
          rw [← hg.filterN] at hp
          exact hP hp
      · rw [if_neg hp]
        have hP : Passes F cand e.1 := by
          unfold Passes; rw [hg.filterN]; exact hp
        by_cases hno : Q.normalize = true
        · rw [if_pos hno]
          refine ⟨hc, ⟨seen, es, hes, hlen, h⟩, he, hP, hno, ?_⟩
          exact (hs e.1 ⟨it.g, Or.inl ⟨e, List.mem_of_getElem? he, rfl⟩⟩).1
        · rw [if_neg hno]
          refine ⟨hc, seen, _, hsn, hl, h.next ?_⟩
          rw [if_pos hP, ← hg.nList]
          have : Q.normalize = false := by simpa using hno
          simp [accum, baseC, WL.den, this]
  | countNum q k it e pos todo cand ms =>
    obtain ⟨hc, ⟨seen, es, hes, hlen, h⟩, he, hP, hno, hb⟩ := h
    have hsn := take_snoc hes hlen he
    have hl : (es ++ [e]).length = pos + 1 := by simp [hlen]
    have hit : it ∈ countItems F.nList q := by rw [← h.split]; simp
    obtain ⟨w, hw, hsh⟩ := shares_of_entry hF hit
      ((hg.counts it.g).subset (List.mem_of_getElem? he))
    have hrow : m.wordNumGrams[e.1]? = some (F.nList.map (numGrams w.length)) := by
      have h1 := List.getElem?_eq_getElem hb
      have h2 := prefix_get hg.nums h1
      rw [hF.nums, List.getElem?_map, hw] at h2
      rw [h1]; exact h2.symm
    have hk := (mem_countItems hit).1
    have hwn : (F.nList.map (numGrams w.length))[it.k]? = some (numGrams w.length it.n) := by
      rw [List.getElem?_map, hk]; rfl
    simp only [ListConc.rstep]
    rw [pyGet_ok' hrow]
    simp only
    rw [pyGet_ok' hwn]
    simp only
    have hd : numGrams q.length it.n + numGrams w.length it.n = denom it.n q w := (denom_eq _ _ _).symm
    have hpos := denom_pos_of_shares hsh
    rw [hd, if_neg hpos.ne']
    refine ⟨hc, seen, _, hsn, hl, h.next ?_⟩
    rw [if_pos hP, ← hg.nList]
    simp [accum, baseC, den_eq hF hw, hno]
  | posSize q k ns cand ms =>
    obtain ⟨hc, seen, h⟩ := h
    cases ns with
    | nil =>
      simp only [ListConc.rstep]
      have h1 := h.split
      simp only [posItems, List.flatMap_nil, List.append_nil] at h1
      have h2 := h.acc
      rw [List.append_nil] at h2
      exact ⟨hc, cand, ms, [], h.candOk, h2 ▸ second_pass h0 hF h1 h.cov, h.bnd, rfl, .nil⟩
    | cons nk ns =>
      simp only [ListConc.rstep]
      rw [queryLocations_eq]
      by_cases hl : (getNGrams q nk.1).length = 1
      · rw [if_pos hl]
        refine Or.inr ⟨rfl, q, k, hc, h.elig, Or.inl ⟨nk.1, ?_, ?_⟩⟩
        · have : nk ∈ F.nList.zipIdx := h.sizes.subset (by simp)
          exact List.mem_of_getElem? (List.mem_zipIdx_iff_getElem?.1 this)
        · rw [← getNGrams_eq_gramsOf]; exact hl
      · rw [if_neg hl]
        refine ⟨hc, seen, { h with sizes := ?_, split := ?_ }⟩
        · exact (List.suffix_cons _ _).trans h.sizes
        · rw [← h.split]; simp [posItems]
  | posGet q k todo ns cand ms =>
    obtain ⟨hc, seen, h⟩ := h
    cases todo with
    | nil => exact ⟨hc, seen, h⟩
    | cons it todo =>
      simp only [ListConc.rstep]
      split
      · exact ⟨hc, seen, [], List.nil_prefix, rfl, { h with acc := by rw [evsOf_nil]; exact h.acc }⟩
      · rename_i hh
        have hn : poss m it.g = [] := by
          unfold poss; rw [get_none_of_has hh]; rfl
        refine ⟨hc, seen ++ [(it, [])], { h with split := ?_, cov := ?_, acc := ?_ }⟩
        · rw [← h.split]; simp
        · intro p hp
          rcases List.mem_append.1 hp with hp | hp
          · exact h.cov p hp
          · rw [List.mem_singleton] at hp; subst hp
            refine ⟨?_, List.nil_prefix⟩
            have := hg0.positions it.g
            rw [hn] at this; exact this
        · rw [List.append_nil, evsOf_nil]; exact h.acc
  | posNext q k it pos todo ns cand ms =>
    obtain ⟨hc, seen, es, hes, hlen, h⟩ := h
    simp only [ListConc.rstep]
    split
    · rename_i hnone
      have he := eq_of_end hes hlen hnone
      refine ⟨hc, seen ++ [(it, es)], { h with split := ?_, cov := ?_, acc := ?_ }⟩
      · rw [← h.split]; simp
      · intro p hp
        rcases List.mem_append.1 hp with hp | hp
        · exact h.cov p hp
        · rw [List.mem_singleton] at hp; subst hp
          rw [he]
          exact ⟨hg0.positions _, hg.positions _⟩
      · rw [List.append_nil]; exact h.acc
    · rename_i e he
      have hsn := take_snoc hes hlen he
      have hl : (es ++ [e]).length = pos + 1 := by simp [hlen]
      exact ⟨hc, seen, _, hsn, hl,
        h.next (hs e.1 ⟨it.g, Or.inr ⟨e, List.mem_of_getElem? he, rfl⟩⟩).2 hg.nList.symm⟩
  | lens q k todo acc =>
    obtain ⟨hc, cand, ms, D, h1, h2, h3, h4, h5⟩ := h
    cases todo with
    | nil =>
      simp only [ListConc.rstep]
      rw [List.append_nil] at h4
      subst h4
      have hsc := scoring hF hagg h1 h2 h5
      refine ⟨hc, _, [], hsc, ?_, rfl, .nil⟩
      intro i hi
      rw [List.map_map] at hi
      obtain ⟨r, hr, rfl⟩ := List.mem_map.1 hi
      obtain ⟨p, hp, hpr⟩ := f2_right h5 r hr
      have : r.1 = p.1 := by
        obtain ⟨_, w, hw, hb⟩ := h2.sub p.1 p.2 hp
        have hlen : p.2.length = F.nList.length := by rw [hb.length_eq, List.length_map]
        rw [show p = (p.1, p.2) from rfl, normalizeRow_eq hF q _ hw hlen] at hpr
        split at hpr
        · cases hpr
        · injection hpr with hpr; rw [← hpr]
      simp only [Function.comp_apply, this]
      exact h3 _ (List.mem_map_of_mem hp)
    | cons p todo =>
      simp only [ListConc.rstep]
      have hp : p ∈ ms := by rw [← h4]; simp
      obtain ⟨hcand, w, hw, hb⟩ := h2.sub p.1 p.2 hp
      have hlen : p.2.length = F.nList.length := by rw [hb.length_eq, List.length_map]
      have heq : m.normalizeRow q Q.normalize p = F.normalizeRow q Q.normalize p := by
        have hlt := (h3 p.1 (List.mem_map_of_mem hp)).1
        have g1 := List.getElem?_eq_getElem hlt
        have g2 := prefix_get hg.lens g1
        unfold WL.normalizeRow
        rw [pyGet_ok' g1, pyGet_ok' g2, hg.nList]
      rw [heq]
      cases hr : F.normalizeRow q Q.normalize p with
      | error e =>
        rw [show p = (p.1, p.2) from rfl, normalizeRow_eq hF q _ hw hlen] at hr
        split at hr
        · rename_i hz
          injection hr with hr
          obtain ⟨w', hw', hel⟩ := h1.sub p.1 hcand
          rw [hw] at hw'; injection hw' with hw'; subst hw'
          have hm := List.mem_of_getElem? hw
          exact Or.inr ⟨hr.symm, q, k, hc, ⟨w, hm, hel⟩, Or.inr ⟨hz.1, w, hm, hel, hz.2⟩⟩
        · cases hr
      | ok r =>
        refine ⟨hc, cand, ms, D ++ [p], h1, h2, h3, ?_, ?_⟩
        · rw [← h4]; simp
        · exact List.rel_append h5 (.cons hr .nil)
  | words q k todo acc =>
    obtain ⟨hc, scored, D, h1, h2, h3, h4⟩ := h
    cases todo with
    | nil =>
      simp only [ListConc.rstep]
      rw [List.append_nil] at h3
      subst h3
      have hit := choosing h0 hF h1 h4
      refine ⟨q, k, hc, acc, [], hit, ?_, rfl, .nil⟩
      intro i hi
      obtain ⟨r, hr, rfl⟩ := List.mem_map.1 hi
      obtain ⟨p, hp, he, _⟩ := f2_right h4 r hr
      rw [he]
      exact h2 p.1 (List.mem_map_of_mem (mem_of_mem_take_sortDesc hp))
    | cons p todo =>
      simp only [ListConc.rstep]
      have hp : p ∈ scored := by
        apply mem_of_mem_take_sortDesc (key := Prod.snd) (k := k * 2)
        change p ∈ mostCommon scored (k * 2)
        rw [← h3]; simp
      have hlt := (h2 p.1 (List.mem_map_of_mem hp)).2
      obtain ⟨w, hw, _⟩ := h1.sub p.1 p.2 hp
      obtain ⟨x, hx, hr⟩ := rescore_ok hF (checkLookup_pos hc).2 Q.normalize hw p.2
      have heq : m.rescore q Q.normalize p = F.rescore q Q.normalize p := by
        have g1 := List.getElem?_eq_getElem hlt
        have g2 := prefix_get hg.words g1
        unfold WL.rescore
        rw [pyGet_ok' g1, pyGet_ok' g2]
      rw [heq, show p = (p.1, p.2) from rfl, hr]
      refine ⟨hc, scored, D ++ [p], h1, h2, ?_, ?_⟩
      · rw [← h3]; simp
      · exact List.rel_append h4 (.cons ⟨rfl, rfl, w, hw, hx⟩ .nil)
  | pick todo acc =>
    obtain ⟨q, k, hc, items, D, h1, h2, h3, h4⟩ := h
    cases todo with
    | nil =>
      simp only [ListConc.rstep]
      rw [List.append_nil] at h3
      subst h3
      exact ⟨q, k, hc, fun stored hst => result h0 hF h1 h4 hst⟩
    | cons p todo =>
      simp only [ListConc.rstep]
      have hp : p ∈ items := by
        apply mem_of_mem_take_sortDesc (key := Prod.snd) (k := k)
        change p ∈ mostCommon items k
        rw [← h3]; simp
      have hlt := (h2 p.1 (List.mem_map_of_mem hp)).2
      have g1 := List.getElem?_eq_getElem hlt
      have g2 := prefix_get hg.words g1
      rw [pyGet_ok' g1]
      refine ⟨q, k, hc, items, D ++ [p], h1, h2, ?_, ?_⟩
      · rw [← h3]; simp
      · exact List.rel_append h4 (.cons ⟨g2, rfl⟩ .nil)
  | done r => exact h

end ListConc
end Verif
