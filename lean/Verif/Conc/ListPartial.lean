import Verif.Conc.ListGrow

/-!
# Scores accumulated from part of the entries
-/

namespace Verif
namespace ListConc

open GramSpec IndexSpec

section
variable {α β : Type} (base : α → ℕ × β → List Event)

/-- The events of some entries, of those words that are admitted. -/
def evsOf (ok : ℕ → Prop) [DecidablePred ok] (seen : List (α × List (ℕ × β))) : List Event :=
  seen.flatMap fun p => p.2.flatMap fun e => if ok e.1 then base p.1 e else []

/-- What the events of an entry add to component `k` of word `i`. -/
def part (i k : ℕ) (a : α) (e : ℕ × β) : ℚ :=
  ((base a e).map (fun v => if v.1 = i ∧ v.2.1 = k then v.2.2 else 0)).sum

variable {base}

theorem sum_evsOf (ok : ℕ → Prop) [DecidablePred ok] (seen : List (α × List (ℕ × β))) (i k : ℕ) :
    ((evsOf base ok seen).map (fun v => if v.1 = i ∧ v.2.1 = k then v.2.2 else 0)).sum =
      (seen.map fun p => (p.2.map fun e => if ok e.1 then part base i k p.1 e else 0).sum).sum := by
  unfold evsOf
  rw [sum_map_flatMap]
  refine congrArg List.sum (List.map_congr_left fun p _ => ?_)
  rw [sum_map_flatMap]
  refine congrArg List.sum (List.map_congr_left fun e _ => ?_)
  split
  · rfl
  · rfl

theorem part_other (htag : ∀ a e, ∀ v ∈ base a e, v.1 = e.1) {i k : ℕ} {a : α} {e : ℕ × β}
    (h : e.1 ≠ i) : part base i k a e = 0 := by
  unfold part
  apply List.sum_eq_zero
  intro x hx
  obtain ⟨v, hv, rfl⟩ := List.mem_map.1 hx
  rw [if_neg]
  rintro ⟨h1, _⟩
  exact h ((htag a e v hv).symm.trans h1)

variable {ok ok' : ℕ → Prop} [DecidablePred ok] [DecidablePred ok'] {full : α → List (ℕ × β)}
  {seen : List (α × List (ℕ × β))}

/-- From part of the entries one gets at most what one gets from all of them. -/
theorem evTotal_le (hpre : ∀ p ∈ seen, p.2 <+: full p.1) (hok : ∀ i, ok i → ok' i)
    (hnn : ∀ p ∈ seen, ∀ e ∈ full p.1, ok' e.1 → ∀ i k, 0 ≤ part base i k p.1 e) (N i : ℕ) :
    List.Forall₂ (fun a b => 0 ≤ a ∧ a ≤ b) (evTotal N (evsOf base ok seen) i)
      (evTotal N (evsOf base ok' (seen.map fun p => (p.1, full p.1))) i) := by
  unfold evTotal
  rw [List.forall₂_map_left_iff, List.forall₂_map_right_iff, List.forall₂_same]
  intro k _
  rw [sum_evsOf, sum_evsOf, List.map_map]
  have h0 : ∀ p ∈ seen, 0 ≤ (p.2.map fun e => if ok e.1 then part base i k p.1 e else 0).sum := by
    intro p hp
    apply List.sum_nonneg
    intro x hx
    obtain ⟨e, he, rfl⟩ := List.mem_map.1 hx
    split
    · rename_i h
      exact hnn p hp e ((hpre p hp).subset he) (hok _ h) i k
    · exact le_refl _
  refine ⟨List.sum_nonneg fun x hx => ?_, List.sum_le_sum fun p hp => ?_⟩
  · obtain ⟨p, hp, rfl⟩ := List.mem_map.1 hx
    exact h0 p hp
  · obtain ⟨t, ht⟩ := hpre p hp
    simp only [Function.comp_apply]
    have h1 : ∀ e ∈ full p.1, (if ok e.1 then part base i k p.1 e else 0) ≤
        (if ok' e.1 then part base i k p.1 e else 0) := by
      intro e he
      by_cases h : ok e.1
      · rw [if_pos h, if_pos (hok _ h)]
      · rw [if_neg h]
        split
        · rename_i h'
          exact hnn p hp e he h' i k
        · exact le_refl _
    have h2 : 0 ≤ (t.map fun e => if ok' e.1 then part base i k p.1 e else 0).sum := by
      apply List.sum_nonneg
      intro x hx
      obtain ⟨e, he, rfl⟩ := List.mem_map.1 hx
      split
      · rename_i h'
        exact hnn p hp e (ht ▸ List.mem_append_right _ he) h' i k
      · exact le_refl _
    have h3 : (p.2.map fun e => if ok e.1 then part base i k p.1 e else 0).sum ≤
        (p.2.map fun e => if ok' e.1 then part base i k p.1 e else 0).sum :=
      List.sum_le_sum fun e he => h1 e (ht ▸ List.mem_append_left _ he)
    rw [← ht, List.map_append, List.sum_append]
    linarith

theorem sum_filter_tag {f : ℕ × β → ℚ} {i : ℕ} (hf : ∀ e, e.1 ≠ i → f e = 0) (l : List (ℕ × β)) :
    (l.map f).sum = ((l.filter fun e => e.1 = i).map f).sum := by
  induction l with
  | nil => rfl
  | cons e l ih =>
    rw [List.map_cons, List.sum_cons, List.filter_cons]
    by_cases h : e.1 = i
    · rw [if_pos (by simpa using h), List.map_cons, List.sum_cons, ih]
    · rw [if_neg (by simpa using h), hf e h, zero_add, ih]

/-- A word all entries of which have been seen gets its full score. -/
theorem evTotal_eq (htag : ∀ a e, ∀ v ∈ base a e, v.1 = e.1) {i : ℕ} (hok : ok i ↔ ok' i)
    (hsame : ∀ p ∈ seen, (p.2.filter fun e => e.1 = i) = (full p.1).filter fun e => e.1 = i) (N : ℕ) :
    evTotal N (evsOf base ok seen) i =
      evTotal N (evsOf base ok' (seen.map fun p => (p.1, full p.1))) i := by
  unfold evTotal
  refine List.map_congr_left fun k _ => ?_
  rw [sum_evsOf, sum_evsOf, List.map_map]
  refine congrArg List.sum (List.map_congr_left fun p hp => ?_)
  simp only [Function.comp_apply]
  rw [sum_filter_tag (i := i), sum_filter_tag (i := i) (l := full p.1), hsame p hp]
  · refine congrArg List.sum (List.map_congr_left fun e he => ?_)
    have hi : e.1 = i := by simpa using (List.mem_filter.1 he).2
    rw [hi]
    by_cases h : ok i
    · rw [if_pos h, if_pos (hok.1 h)]
    · rw [if_neg h, if_neg (fun h' => h (hok.2 h'))]
  · intro e he; rw [part_other htag he, ite_self]
  · intro e he; rw [part_other htag he, ite_self]

theorem mem_evsOf (htag : ∀ a e, ∀ v ∈ base a e, v.1 = e.1) (hne : ∀ a e, base a e ≠ []) {i : ℕ} :
    i ∈ (evsOf base ok seen).map Prod.fst ↔ ok i ∧ ∃ p ∈ seen, (p.2.filter fun e => e.1 = i) ≠ [] := by
  unfold evsOf
  constructor
  · intro h
    obtain ⟨v, hv, rfl⟩ := List.mem_map.1 h
    obtain ⟨p, hp, hv⟩ := List.mem_flatMap.1 hv
    obtain ⟨e, he, hv⟩ := List.mem_flatMap.1 hv
    split at hv
    · rename_i hk
      have := htag _ _ v hv
      refine ⟨this ▸ hk, p, hp, fun hc => ?_⟩
      have : e ∈ p.2.filter fun e => e.1 = v.1 :=
        List.mem_filter.2 ⟨he, decide_eq_true this.symm⟩
      rw [hc] at this; cases this
    · cases hv
  · rintro ⟨hk, p, hp, hn⟩
    obtain ⟨e, he⟩ := List.exists_mem_of_ne_nil _ hn
    obtain ⟨he, hi⟩ := List.mem_filter.1 he
    have hi : e.1 = i := by simpa using hi
    obtain ⟨v, hv⟩ := List.exists_mem_of_ne_nil _ (hne p.1 e)
    refine List.mem_map.2 ⟨v, List.mem_flatMap.2 ⟨p, hp, List.mem_flatMap.2 ⟨e, he, ?_⟩⟩, ?_⟩
    · rw [hi, if_pos hk]; exact hv
    · rw [htag _ _ v hv, hi]

/-- What is found from part of the entries. -/
theorem accum_part (htag : ∀ a e, ∀ v ∈ base a e, v.1 = e.1) (hne : ∀ a e, base a e ≠ [])
    (hpre : ∀ p ∈ seen, p.2 <+: full p.1) (hok : ∀ i, ok i → ok' i)
    (hnn : ∀ p ∈ seen, ∀ e ∈ full p.1, ok' e.1 → ∀ i k, 0 ≤ part base i k p.1 e) (N : ℕ) :
    (∀ i v, (i, v) ∈ accum N [] (evsOf base ok seen) → ok i ∧
      i ∈ (evsOf base ok' (seen.map fun p => (p.1, full p.1))).map Prod.fst ∧
      List.Forall₂ (fun a b => 0 ≤ a ∧ a ≤ b) v
        (evTotal N (evsOf base ok' (seen.map fun p => (p.1, full p.1))) i)) ∧
    ∀ i, (ok i ↔ ok' i) →
      (∀ p ∈ seen, (p.2.filter fun e => e.1 = i) = (full p.1).filter fun e => e.1 = i) →
      (∀ v, (i, v) ∈ accum N [] (evsOf base ok seen) ↔
        i ∈ (evsOf base ok' (seen.map fun p => (p.1, full p.1))).map Prod.fst ∧
        v = evTotal N (evsOf base ok' (seen.map fun p => (p.1, full p.1))) i) := by
  constructor
  · intro i v hv
    rw [Dict.mem_iff_get? (nodup_keys_accum _ _), get?_accum] at hv
    split at hv
    · rename_i hi
      injection hv with hv
      rw [mem_evsOf htag hne] at hi
      refine ⟨hi.1, ?_, ?_⟩
      · rw [mem_evsOf htag hne]
        obtain ⟨p, hp, hn⟩ := hi.2
        refine ⟨hok i hi.1, (p.1, full p.1), List.mem_map.2 ⟨p, hp, rfl⟩, fun hc => hn ?_⟩
        obtain ⟨t, ht⟩ := hpre p hp
        simp only at hc
        rw [← ht, List.filter_append] at hc
        exact (List.append_eq_nil_iff.1 hc).1
      · rw [← hv]; exact evTotal_le hpre hok hnn N i
    · cases hv
  · intro i hio hsame v
    rw [Dict.mem_iff_get? (nodup_keys_accum _ _), get?_accum, evTotal_eq htag hio hsame]
    have hm : i ∈ (evsOf base ok seen).map Prod.fst ↔
        i ∈ (evsOf base ok' (seen.map fun p => (p.1, full p.1))).map Prod.fst := by
      rw [mem_evsOf htag hne, mem_evsOf htag hne, hio]
      refine and_congr_right fun _ => ?_
      constructor
      · rintro ⟨p, hp, hn⟩
        exact ⟨_, List.mem_map.2 ⟨p, hp, rfl⟩, by rw [← hsame p hp]; exact hn⟩
      · rintro ⟨p', hp', hn⟩
        obtain ⟨p, hp, rfl⟩ := List.mem_map.1 hp'
        exact ⟨p, hp, by rw [hsame p hp]; exact hn⟩
    by_cases h : i ∈ (evsOf base ok seen).map Prod.fst
    · rw [if_pos h]
      constructor
      · intro e; injection e with e; exact ⟨hm.1 h, e.symm⟩
      · rintro ⟨_, rfl⟩; rfl
    · rw [if_neg h]
      constructor
      · intro e; cases e
      · rintro ⟨h', _⟩; exact absurd (hm.2 h') h

end

end ListConc
end Verif
