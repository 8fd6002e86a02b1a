import Verif.Tok.CutLemmas
import Mathlib.Data.List.SplitBy

/-!
# Merging apostrophes
-/

namespace Verif
namespace Tok

open TokSpec

theorem strIn_iff {S : List ℕ} {s : List ℕ} : strIn S s = true ↔ ∃ c ∈ S, s = [c] := by
  unfold strIn
  split
  · simp
  · rename_i h
    simp only [Bool.false_eq_true, false_iff]
    rintro ⟨c, -, rfl⟩
    exact h c rfl

/-- The variables before the loop. -/
abbrev mInit : MState := ⟨false, none, none, none⟩

/-- The variables inside an invalid word. -/
abbrev mWait : MState := ⟨true, none, none, none⟩

theorem mergeLoop_step {t : Token} {ts : List Token} {s s' : MState} {out y : List Token}
    (h : mergeStep s t = .ok (s', out)) (h2 : mergeLoop ts s' = .ok y) :
    mergeLoop (t :: ts) s = .ok (out ++ y) := by
  unfold mergeLoop
  rw [h]
  change (do let rest ← mergeLoop ts s'; Except.ok (out ++ rest)) = _
  rw [h2]
  rfl

theorem step_other {t : Token} (h : ¬ WordOrApostrophe t) :
    mergeStep mInit t = .ok (mInit, [t]) ∧ mergeStep mWait t = .ok (mInit, [t]) := by
  have h1 : (t.category == .WORD) = false := by
    simp only [beq_eq_false_iff_ne]
    exact fun e => h (Or.inl e)
  have h2 : strIn apostrophes t.text = false := by
    rw [← Bool.not_eq_true, strIn_iff]
    exact fun e => h (Or.inr e)
  constructor <;> simp [mergeStep, h1, h2]

theorem step_wait {t : Token} (h : WordOrApostrophe t) :
    mergeStep mWait t = .ok (mWait, [t]) := by
  have : (t.category == .WORD || strIn apostrophes t.text) = true := by
    rcases h with h | h
    · simp [h]
    · rw [apostrophes_eq, strIn_iff.mpr h]; simp
  simp [mergeStep, this]

/-- `rest` starts with a token that is neither word nor apostrophe, or is empty. -/
abbrev Fresh (rest : List Token) : Prop := ∀ t, rest.head? = some t → ¬ WordOrApostrophe t

theorem wait_fresh {rest y : List Token} (hr : Fresh rest) (hy : mergeLoop rest mInit = .ok y) :
    mergeLoop rest mWait = .ok y := by
  cases rest with
  | nil => exact hy
  | cons t ts =>
    obtain ⟨h1, h2⟩ := step_other (hr t rfl)
    rw [← hy]
    unfold mergeLoop
    rw [h1, h2]

theorem wait_run {r rest y : List Token} (h : ∀ t ∈ r, WordOrApostrophe t) (hr : Fresh rest)
    (hy : mergeLoop rest mInit = .ok y) : mergeLoop (r ++ rest) mWait = .ok (r ++ y) := by
  induction r with
  | nil => exact wait_fresh hr hy
  | cons t r ih =>
    exact mergeLoop_step (out := [t]) (step_wait (h t (by simp))) (ih fun u hu => h u (by simp [hu]))

theorem other_run {r rest y : List Token} (h : ∀ t ∈ r, ¬ WordOrApostrophe t)
    (hy : mergeLoop rest mInit = .ok y) : mergeLoop (r ++ rest) mInit = .ok (r ++ y) := by
  induction r with
  | nil => exact hy
  | cons t r ih =>
    exact mergeLoop_step (out := [t]) (step_other (h t (by simp))).1 (ih fun u hu => h u (by simp [hu]))

theorem mergedRun_other {r : List Token} (h : ∀ t ∈ r, ¬ WordOrApostrophe t) :
    mergedRun r = r := by
  unfold mergedRun
  split
  · rename_i a b c
    rw [if_neg]
    exact fun e => h a (by simp) (Or.inl e.1)
  · rfl

theorem beq_word {t : Token} (h : t.category = .WORD) : (t.category == .WORD) = true := by simp [h]

theorem beq_not_word {t : Token} (h : t.category ≠ .WORD) : (t.category == .WORD) = false := by
  simp [h]

theorem apos_of {t : Token} (h : WordOrApostrophe t) (hw : t.category ≠ .WORD) :
    strIn apostrophes t.text = true := by
  rcases h with h | h
  · exact absurd h hw
  · exact strIn_iff.mpr h

/-- One maximal run of words and apostrophes. -/
theorem word_run {r rest y : List Token} (h : ∀ t ∈ r, WordOrApostrophe t) (ha : Apart r)
    (hr : Fresh rest) (hy : mergeLoop rest mInit = .ok y) :
    mergeLoop (r ++ rest) mInit = .ok (mergedRun r ++ y) := by
  rcases r with _ | ⟨a, r⟩
  · simpa [mergedRun] using hy
  by_cases hwa : a.category = .WORD
  swap
  · -- starts with an apostrophe
    have hm : mergedRun (a :: r) = a :: r := by
      unfold mergedRun
      split
      · rename_i a' b c heq
        simp only [List.cons.injEq] at heq
        rw [if_neg (fun e => hwa (heq.1 ▸ e.1)), heq.1, heq.2]
      · rfl
    rw [hm]
    refine mergeLoop_step (s' := mWait) (out := [a]) ?_
      (wait_run (fun u hu => h u (by simp [hu])) hr hy)
    simp [mergeStep, beq_not_word hwa, apos_of (h a (by simp)) hwa]
  have s1 : mergeStep mInit a = .ok (⟨false, some a, none, none⟩, []) := by
    simp [mergeStep, hwa]
  rcases r with _ | ⟨b, r⟩
  · -- a single word
    cases rest with
    | nil =>
      have : y = [] := (Except.ok.inj hy).symm
      subst this
      exact mergeLoop_step (out := []) (y := [a]) s1 rfl
    | cons t ts =>
      have hn := hr t rfl
      obtain ⟨z, hz, rfl⟩ : ∃ z, mergeLoop ts mInit = .ok z ∧ y = t :: z := by
        unfold mergeLoop at hy
        rw [(step_other hn).1] at hy
        cases hz : mergeLoop ts mInit with
        | error e =>
          change (do let rest ← mergeLoop ts mInit; Except.ok ([t] ++ rest)) = _ at hy
          rw [hz] at hy
          cases hy
        | ok z =>
          change (do let rest ← mergeLoop ts mInit; Except.ok ([t] ++ rest)) = _ at hy
          rw [hz] at hy
          exact ⟨z, rfl, (Except.ok.inj hy).symm⟩
      refine mergeLoop_step (out := []) s1 ?_
      refine mergeLoop_step (s' := mInit) (out := [a, t]) ?_ hz
      have h2 : strIn apostrophes t.text = false := by
        rw [← Bool.not_eq_true, strIn_iff]
        exact fun e => hn (Or.inr e)
      simp [mergeStep, beq_not_word (fun e => hn (Or.inl e)), h2]
  have hwb : b.category ≠ .WORD := by
    intro e
    unfold Apart at ha
    rw [List.isChain_cons_cons] at ha
    exact ha.1 ⟨hwa, e⟩
  have hab : strIn apostrophes b.text = true := apos_of (h b (by simp)) hwb
  have s2 : mergeStep ⟨false, some a, none, none⟩ b = .ok (⟨false, some a, some b, none⟩, []) := by
    simp [mergeStep, hwb, hab]
  rcases r with _ | ⟨c, r⟩
  · -- word, apostrophe
    cases rest with
    | nil =>
      have : y = [] := (Except.ok.inj hy).symm
      subst this
      exact mergeLoop_step (out := []) s1 (mergeLoop_step (out := []) s2 rfl)
    | cons t ts =>
      have hn := hr t rfl
      obtain ⟨z, hz, rfl⟩ : ∃ z, mergeLoop ts mInit = .ok z ∧ y = t :: z := by
        unfold mergeLoop at hy
        rw [(step_other hn).1] at hy
        cases hz : mergeLoop ts mInit with
        | error e =>
          change (do let rest ← mergeLoop ts mInit; Except.ok ([t] ++ rest)) = _ at hy
          rw [hz] at hy
          cases hy
        | ok z =>
          change (do let rest ← mergeLoop ts mInit; Except.ok ([t] ++ rest)) = _ at hy
          rw [hz] at hy
          exact ⟨z, rfl, (Except.ok.inj hy).symm⟩
      refine mergeLoop_step (out := []) s1 (mergeLoop_step (out := []) s2 ?_)
      refine mergeLoop_step (s' := mInit) (out := [a, b, t]) ?_ hz
      have h2 : strIn apostrophes t.text = false := by
        rw [← Bool.not_eq_true, strIn_iff]
        exact fun e => hn (Or.inr e)
      simp [mergeStep, beq_not_word (fun e => hn (Or.inl e)), h2]
  by_cases hwc : c.category = .WORD
  swap
  · -- word, apostrophe, apostrophe, …
    have hm : mergedRun (a :: b :: c :: r) = a :: b :: c :: r := by
      unfold mergedRun
      split
      · rename_i a' b' c' heq
        simp only [List.cons.injEq] at heq
        rw [if_neg (fun e => hwc (heq.2.2.1 ▸ e.2.2.2)), heq.1, heq.2.1, heq.2.2.1, heq.2.2.2]
      · rfl
    rw [hm]
    refine mergeLoop_step (out := []) s1 (mergeLoop_step (out := []) s2 ?_)
    refine mergeLoop_step (s' := mWait) (out := [a, b, c]) ?_
      (wait_run (fun u hu => h u (by simp [hu])) hr hy)
    simp [mergeStep, beq_not_word hwc, apos_of (h c (by simp)) hwc]
  have s3 : mergeStep ⟨false, some a, some b, none⟩ c =
      .ok (⟨false, some a, some b, some c⟩, []) := by
    simp [mergeStep, hwc]
  rcases r with _ | ⟨d, r⟩
  · -- word, apostrophe, word
    have hm : mergedRun [a, b, c] = [joinTok a b c] := by
      exact if_pos ⟨hwa, hwb, h b (by simp), hwc⟩
    rw [hm]
    cases rest with
    | nil =>
      have : y = [] := (Except.ok.inj hy).symm
      subst this
      exact mergeLoop_step (out := []) s1
        (mergeLoop_step (out := []) s2 (mergeLoop_step (out := []) s3 rfl))
    | cons t ts =>
      have hn := hr t rfl
      obtain ⟨z, hz, rfl⟩ : ∃ z, mergeLoop ts mInit = .ok z ∧ y = t :: z := by
        unfold mergeLoop at hy
        rw [(step_other hn).1] at hy
        cases hz : mergeLoop ts mInit with
        | error e =>
          change (do let rest ← mergeLoop ts mInit; Except.ok ([t] ++ rest)) = _ at hy
          rw [hz] at hy
          cases hy
        | ok z =>
          change (do let rest ← mergeLoop ts mInit; Except.ok ([t] ++ rest)) = _ at hy
          rw [hz] at hy
          exact ⟨z, rfl, (Except.ok.inj hy).symm⟩
      refine mergeLoop_step (out := []) s1
        (mergeLoop_step (out := []) s2 (mergeLoop_step (out := []) s3 ?_))
      refine mergeLoop_step (s' := mInit) (out := [joinTok a b c, t]) ?_ hz
      have h2 : strIn apostrophes t.text = false := by
        rw [← Bool.not_eq_true, strIn_iff]
        exact fun e => hn (Or.inr e)
      simp [mergeStep, beq_not_word (fun e => hn (Or.inl e)), h2]
  · -- longer
    have hwd : d.category ≠ .WORD := by
      intro e
      unfold Apart at ha
      simp only [List.isChain_cons_cons] at ha
      exact ha.2.2.1 ⟨hwc, e⟩
    have hm : mergedRun (a :: b :: c :: d :: r) = a :: b :: c :: d :: r := rfl
    rw [hm]
    refine mergeLoop_step (out := []) s1
      (mergeLoop_step (out := []) s2 (mergeLoop_step (out := []) s3 ?_))
    refine mergeLoop_step (s' := mWait) (out := [a, b, c, d]) ?_
      (wait_run (fun u hu => h u (by simp [hu])) hr hy)
    simp [mergeStep, beq_not_word hwd, apos_of (h d (by simp)) hwd]

theorem chain_same {p : Token → Prop} {r : List Token} (h : r.IsChain fun x y => p x ↔ p y) :
    ∀ a, r.head? = some a → ∀ t ∈ r, (p t ↔ p a) := by
  induction r with
  | nil => simp
  | cons b r ih =>
    intro a ha t ht
    simp only [List.head?_cons, Option.some.injEq] at ha
    subst ha
    cases r with
    | nil =>
      rw [List.mem_singleton.mp ht]
    | cons c r =>
      rw [List.isChain_cons_cons] at h
      rcases List.mem_cons.mp ht with e | e
      · rw [e]
      · rw [ih h.2 c rfl t e]
        exact h.1.symm

theorem merge_runs (R : List (List Token)) (hne : [] ∉ R)
    (hc : ∀ m ∈ R, m.IsChain fun x y =>
      decide (WordOrApostrophe x ↔ WordOrApostrophe y) = true)
    (hc' : R.IsChain fun a b => ∃ ha hb,
      decide (WordOrApostrophe (a.getLast ha) ↔ WordOrApostrophe (b.head hb)) = false)
    (hap : Apart R.flatten) :
    mergeLoop R.flatten mInit = .ok (R.flatMap mergedRun) := by
  induction R with
  | nil => rfl
  | cons r R ih =>
    have hr0 : r ≠ [] := fun e => hne (by simp [e])
    have hap' : Apart r ∧ Apart R.flatten := by
      unfold Apart at *
      rw [List.flatten_cons, List.isChain_append] at hap
      exact ⟨hap.1, hap.2.1⟩
    have hc'' := hc'.tail
    have hy := ih (fun e => hne (by simp [e])) (fun m hm => hc m (by simp [hm])) hc'' hap'.2
    have hch : r.IsChain fun x y => WordOrApostrophe x ↔ WordOrApostrophe y := by
      have := hc r (by simp)
      simpa using this
    obtain ⟨a, r', rfl⟩ := List.exists_cons_of_ne_nil hr0
    have hsame := chain_same hch a rfl
    rw [List.flatten_cons, List.flatMap_cons]
    by_cases hwa : WordOrApostrophe a
    · refine word_run (fun t ht => (hsame t ht).mpr hwa) hap'.1 ?_ hy
      intro t ht
      cases R with
      | nil => simp at ht
      | cons s R =>
        rw [List.isChain_cons_cons] at hc'
        obtain ⟨⟨h1, h2, h3⟩, -⟩ := hc'
        obtain ⟨b, s', rfl⟩ := List.exists_cons_of_ne_nil h2
        simp only [List.flatten_cons, List.cons_append, List.head?_cons, Option.some.injEq] at ht
        subst ht
        intro hb
        exact (decide_eq_false_iff_not.mp h3) ⟨fun _ => hb, fun _ => (hsame _ (List.getLast_mem h1)).mpr hwa⟩
    · have hall : ∀ t ∈ a :: r', ¬ WordOrApostrophe t := fun t ht e => hwa ((hsame t ht).mp e)
      rw [mergedRun_other hall]
      exact other_run hall hy

theorem merge_eq {ts : List Token} (h : Apart ts) :
    mergeApostrophes ts = .ok ((runs ts).flatMap mergedRun) := by
  obtain ⟨h1, h2, h3, h4⟩ := (List.splitBy_eq_iff (m := ts) (l := runs ts)
    (r := fun a b => decide (WordOrApostrophe a ↔ WordOrApostrophe b))).mp rfl
  have := merge_runs (runs ts) h2 h3 h4 (h1 ▸ h)
  rw [← h1] at this
  exact this

/-! ## Merging keeps the cutting lossless -/

theorem textOf_mergedRun (r : List Token) : textOf (mergedRun r) = textOf r := by
  unfold mergedRun
  split
  · split_ifs <;> simp [textOf]
  · rfl

theorem starts_mergedRun {p : ℕ} {r : List Token} (h : Starts p r) : Starts p (mergedRun r) := by
  unfold mergedRun
  split
  · split_ifs
    · obtain ⟨h1, h2, -⟩ := h
      exact ⟨h1, by simp [h2], trivial⟩
    · exact h
  · exact h

theorem textOf_merged (R : List (List Token)) :
    textOf (R.flatMap mergedRun) = textOf R.flatten := by
  induction R with
  | nil => rfl
  | cons r R ih => rw [List.flatMap_cons, List.flatten_cons, textOf_append, textOf_append, ih,
      textOf_mergedRun]

theorem starts_merged {p : ℕ} {R : List (List Token)} (h : Starts p R.flatten) :
    Starts p (R.flatMap mergedRun) := by
  induction R generalizing p with
  | nil => trivial
  | cons r R ih =>
    rw [List.flatten_cons, starts_append] at h
    rw [List.flatMap_cons, starts_append, textOf_mergedRun]
    exact ⟨starts_mergedRun h.1, ih h.2⟩

theorem flatten_runs (ts : List Token) : (runs ts).flatten = ts := List.flatten_splitBy _ _

theorem merged_lossless {text : List ℕ} {ts : List Token} (h : Lossless text ts) :
    Lossless text ((runs ts).flatMap mergedRun) := by
  obtain ⟨h1, h2⟩ := lossless_iff.mp h
  rw [lossless_iff, textOf_merged, flatten_runs]
  refine ⟨h1, starts_merged ?_⟩
  rwa [flatten_runs]

/-- The tokens given to the sentence splitter, by cases. -/
theorem tokenizeTokens_ok (cat : ℕ → Cat) (text : List ℕ) (merge : Bool) :
    ∃ ts, tokenizeTokens cat text merge = .ok ts ∧ Lossless text ts ∧
      ∀ t ∈ ts, t.category = .WORD ∨ Shape (IsText cat) t := by
  have hw := allTokens_wellCut cat text
  cases merge with
  | false => exact ⟨_, rfl, hw.lossless, fun t ht => Or.inr (hw.shape t ht)⟩
  | true =>
    refine ⟨_, merge_eq hw.apart, merged_lossless hw.lossless, ?_⟩
    intro t ht
    obtain ⟨r, hr, htr⟩ := List.mem_flatMap.mp ht
    have hsub : ∀ u ∈ r, Shape (IsText cat) u := by
      intro u hu
      refine hw.shape u ?_
      rw [← flatten_runs (allTokens cat text)]
      exact List.mem_flatten.mpr ⟨r, hr, hu⟩
    unfold mergedRun at htr
    split at htr
    · split_ifs at htr
      · rw [List.mem_singleton.mp htr]; exact Or.inl rfl
      · exact Or.inr (hsub t htr)
    · exact Or.inr (hsub t htr)

end Tok
end Verif
