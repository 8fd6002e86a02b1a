import Verif.Auto.SearchLemmas

/-!
# Lemmas about `Matcher` and `find_all_matches`
-/

namespace Verif
namespace Auto

open AutoSpec EditSpec Edit

/-- `bisect_left` separates the smaller entries from the others. -/
theorem bisectLeftLoop_spec {a : List (List ℕ)} (hs : a.Pairwise (· ≤ ·)) (x : List ℕ) :
    ∀ (fuel lo hi : ℕ), hi ≤ lo + fuel → lo ≤ hi → hi ≤ a.length →
      (∀ i (h : i < a.length), i < lo → a[i] < x) → (∀ i (h : i < a.length), hi ≤ i → x ≤ a[i]) →
      ∃ pos, bisectLeftLoop a x fuel lo hi = .ok pos ∧ pos ≤ a.length ∧
        (∀ i (h : i < a.length), i < pos → a[i] < x) ∧ (∀ i (h : i < a.length), pos ≤ i → x ≤ a[i]) := by
  have mono : ∀ i j (hi : i < a.length) (hj : j < a.length), i ≤ j → a[i] ≤ a[j] := by
    intro i j hi hj hij
    rcases Nat.lt_or_eq_of_le hij with h | h
    · exact List.pairwise_iff_getElem.mp hs i j hi hj h
    · subst h; exact le_refl _
  intro fuel
  induction fuel with
  | zero =>
    intro lo hi h1 h2 h3 h4 h5
    have : lo = hi := by omega
    subst this
    exact ⟨lo, rfl, h3, h4, h5⟩
  | succ fuel ih =>
    intro lo hi h1 h2 h3 h4 h5
    unfold bisectLeftLoop
    by_cases hlt : lo < hi
    · rw [if_pos hlt]
      have hmid : (lo + hi) / 2 < a.length := by omega
      simp only [pyGet_ok hmid]
      by_cases hc : a[(lo + hi) / 2] < x
      · rw [if_pos hc]
        refine ih _ _ (by omega) (by omega) h3 ?_ h5
        intro i hi' hlt'
        exact lt_of_le_of_lt (mono i _ hi' hmid (by omega)) hc
      · rw [if_neg hc]
        refine ih _ _ (by omega) (by omega) (by omega) h4 ?_
        intro i hi' hge
        exact le_trans (not_lt.mp hc) (mono _ i hmid hi' hge)
    · rw [if_neg hlt]
      have : lo = hi := by omega
      subst this
      exact ⟨lo, rfl, h3, h4, h5⟩

/-- The value `next_valid_string` should have. -/
def Next (d : DFA) (input : List ℕ) (r : Option (List ℕ)) : Prop :=
  (∃ w, IsLeast {w | d.acc 0 w ∧ input ≤ w} w ∧ r = some w) ∨
    ((∀ w, input ≤ w → ¬ d.acc 0 w) ∧ r = none)

theorem next_uniform {d : DFA} (hd : Searchable d) (L : List (List ℕ))
    (hch : ∀ u ∈ L, ∀ c ∈ u, c < 0x10FFFF) :
    ∃ N, ∀ u ∈ L, ∀ fuel, N ≤ fuel → ∃ r, Next d u r ∧ d.nextValidString fuel u = some (.ok r) := by
  induction L with
  | nil => exact ⟨0, by simp⟩
  | cons v L ih =>
    obtain ⟨N, hN⟩ := ih (fun u hu => hch u (List.mem_cons_of_mem _ hu))
    have hv : ∃ M, ∀ fuel, M ≤ fuel → ∃ r, Next d v r ∧ d.nextValidString fuel v = some (.ok r) := by
      rcases nextValidString_spec hd v (hch v (by simp)) with ⟨w, hw, M, hM⟩ | ⟨hno, M, hM⟩
      · exact ⟨M, fun fuel hf => ⟨some w, Or.inl ⟨w, hw, rfl⟩, hM fuel hf⟩⟩
      · exact ⟨M, fun fuel hf => ⟨none, Or.inr ⟨hno, rfl⟩, hM fuel hf⟩⟩
    obtain ⟨M, hM⟩ := hv
    refine ⟨max N M, fun u hu fuel hf => ?_⟩
    rcases List.mem_cons.mp hu with rfl | hu
    · exact hM fuel (by omega)
    · exact hN u hu fuel (by omega)

theorem lt_snoc_zero (u : List ℕ) : u < u ++ [0] := by
  induction u with
  | nil => exact List.nil_lt_cons _ _
  | cons c u ih => exact List.cons_lt_cons_iff.mpr (Or.inr ⟨rfl, ih⟩)

/-- Nothing lies between a word and the word followed by `'\0'`. -/
theorem snoc_zero_le {u w : List ℕ} (h : u < w) : u ++ [0] ≤ w := by
  induction u generalizing w with
  | nil =>
    cases w with
    | nil => exact absurd h (lt_irrefl _)
    | cons c w =>
      rcases Nat.eq_zero_or_pos c with rfl | hc
      · exact cons_le_same (nil_le' _)
      · exact cons_le_of_lt hc
  | cons a u ih =>
    cases w with
    | nil => simp at h
    | cons c w =>
      rcases List.cons_lt_cons_iff.mp h with h' | ⟨rfl, h'⟩
      · exact cons_le_of_lt h'
      · exact cons_le_same (ih h')

/-- The loop of `find_all_matches`. -/
theorem matchLoop_spec {d : DFA} {entries : List (List ℕ)} (hs : entries.Pairwise (· ≤ ·)) {N fuel : ℕ}
    (hN : ∀ u ∈ entries ++ entries.map (· ++ [0]), ∀ fuel, N ≤ fuel →
      ∃ r, Next d u r ∧ d.nextValidString fuel u = some (.ok r)) (hf : N ≤ fuel)
    (hnil : ¬ d.acc 0 []) :
    ∀ (rounds prev : ℕ) (m : Option (List ℕ)),
      (∀ w, m = some w → d.acc 0 w ∧ prev ≤ entries.length ∧
        (∀ i (h : i < entries.length), i < prev → entries[i] < w) ∧
        2 * (entries.filter (fun u => w ≤ u)).length + (if w ∈ entries then 0 else 1) + 1 < rounds) →
      1 ≤ rounds →
      ∃ out, matchLoop d fuel entries rounds prev m = some (.ok out) ∧ out.Pairwise (· < ·) ∧
        ∀ w, w ∈ out ↔ w ∈ entries ∧ d.acc 0 w ∧ ∃ v, m = some v ∧ v ≤ w := by
  intro rounds
  induction rounds with
  | zero => intro prev m _ h; omega
  | succ rounds ih =>
    intro prev m hm _
    cases m with
    | none => exact ⟨[], rfl, .nil, by simp⟩
    | some w =>
      obtain ⟨hacc, hprev, hlow, hround⟩ := hm w rfl
      cases w with
      | nil => exact absurd hacc hnil
      | cons c cs =>
        obtain ⟨pos, hpos, hple, hp1, hp2⟩ := bisectLeftLoop_spec hs (c :: cs) entries.length prev
          entries.length (by omega) hprev (le_refl _) hlow (fun i h h' => by omega)
        unfold matchLoop
        simp only [matcherCall, bisectLeft, hpos]
        by_cases hlen : pos < entries.length
        · rw [List.getElem?_eq_getElem hlen]
          have hge : c :: cs ≤ entries[pos] := hp2 pos hlen (le_refl _)
          have hmem : entries[pos] ∈ entries := List.getElem_mem hlen
          generalize hx : entries[pos] = x at hge hmem
          have hfirst : ∀ u ∈ entries, c :: cs ≤ u → x ≤ u := by
            intro u hu hcu
            obtain ⟨i, hi, rfl⟩ := List.mem_iff_getElem.mp hu
            by_cases hip : i < pos
            · exact absurd (hp1 i hi hip) (not_lt.mpr hcu)
            · rcases Nat.lt_or_eq_of_le (not_lt.mp hip) with h | h
              · rw [← hx]; exact List.pairwise_iff_getElem.mp hs pos i hlen hi h
              · subst h; exact hx.symm.le
          cases x with
          | nil => exact absurd hge (not_le.mpr (List.nil_lt_cons _ _))
          | cons a as =>
            simp only
            generalize hy : (if c :: cs = a :: as then (a :: as) ++ [0] else a :: as) = y
            have hyle : c :: cs ≤ y := by
              rw [← hy]
              split
              · exact le_trans hge (le_of_lt (lt_snoc_zero _))
              · exact hge
            have hymem : y ∈ entries ++ entries.map (· ++ [0]) := by
              rw [← hy]
              split
              · exact List.mem_append_right _ (List.mem_map_of_mem hmem)
              · exact List.mem_append_left _ hmem
            obtain ⟨r, hr, hrv⟩ := hN y hymem fuel hf
            rw [hrv]
            simp only
            have hstep := ih pos r (by
              rintro v rfl
              rcases hr with ⟨v', hv', h⟩ | ⟨-, h⟩
              · cases h
                have hyv : y ≤ v := hv'.1.2
                have hcv : c :: cs ≤ v := le_trans hyle hyv
                refine ⟨hv'.1.1, hple, fun i h h' => lt_of_lt_of_le (hp1 i h h') hcv, ?_⟩
                by_cases hhit : c :: cs = a :: as
                · -- the word itself is passed
                  have hlt : c :: cs < v := by
                    refine lt_of_lt_of_le ?_ hyv
                    rw [← hy, if_pos hhit, ← hhit]
                    exact lt_snoc_zero _
                  have hcin : c :: cs ∈ entries := by rw [hhit]; exact hmem
                  rw [if_pos hcin] at hround
                  have hsub : (entries.filter (fun u => v ≤ u)).length <
                      (entries.filter (fun u => (c :: cs) ≤ u)).length := by
                    have e : entries.filter (fun u => v ≤ u) =
                        (entries.filter (fun u => (c :: cs) ≤ u)).filter (fun u => v ≤ u) := by
                      rw [List.filter_filter]
                      apply List.filter_congr
                      intro u _
                      by_cases hvu : v ≤ u
                      · simp [hvu, le_trans hcv hvu]
                      · simp [hvu]
                    rw [e]
                    refine List.length_filter_lt_length_iff_exists.mpr ⟨c :: cs, ?_, ?_⟩
                    · simp [hcin]
                    · simpa using hlt
                  split <;> omega
                · have hcnot : c :: cs ∉ entries := fun h => hhit
                    (le_antisymm hge (hfirst _ h (le_refl _)))
                  rw [if_neg hcnot] at hround
                  have hle : (entries.filter (fun u => v ≤ u)).length ≤
                      (entries.filter (fun u => (c :: cs) ≤ u)).length := by
                    have e : entries.filter (fun u => v ≤ u) =
                        (entries.filter (fun u => (c :: cs) ≤ u)).filter (fun u => v ≤ u) := by
                      rw [List.filter_filter]
                      apply List.filter_congr
                      intro u _
                      by_cases hvu : v ≤ u
                      · simp [hvu, le_trans hcv hvu]
                      · simp [hvu]
                    rw [e]
                    exact List.length_filter_le _ _
                  by_cases hvin : v ∈ entries
                  · rw [if_pos hvin]; omega
                  · rw [if_neg hvin]
                    have hsub : (entries.filter (fun u => v ≤ u)).length <
                        (entries.filter (fun u => (c :: cs) ≤ u)).length := by
                      have e : entries.filter (fun u => v ≤ u) =
                          (entries.filter (fun u => (c :: cs) ≤ u)).filter (fun u => v ≤ u) := by
                        rw [List.filter_filter]
                        apply List.filter_congr
                        intro u _
                        by_cases hvu : v ≤ u
                        · simp [hvu, le_trans hcv hvu]
                        · simp [hvu]
                      rw [e]
                      refine List.length_filter_lt_length_iff_exists.mpr ⟨a :: as, ?_, ?_⟩
                      · simp [hmem, hge]
                      · have : y = a :: as := by rw [← hy, if_neg hhit]
                        rw [this] at hyv
                        have : a :: as < v := lt_of_le_of_ne hyv (by
                          rintro rfl; exact hvin hmem)
                        simpa using this
                    omega
              · cases h) (by
              have : 0 < rounds := by omega
              exact this)
            obtain ⟨out, ho1, ho2, ho3⟩ := hstep
            rw [ho1]
            simp only
            have hout : ∀ w, w ∈ out ↔ w ∈ entries ∧ d.acc 0 w ∧ y ≤ w := by
              intro w
              rw [ho3]
              refine and_congr_right (fun _ => and_congr_right (fun ha => ?_))
              rcases hr with ⟨v, hv, rfl⟩ | ⟨hno, rfl⟩
              · constructor
                · rintro ⟨v', h, hvw⟩
                  cases h
                  exact le_trans hv.1.2 hvw
                · intro hyw
                  exact ⟨v, rfl, hv.2 ⟨ha, hyw⟩⟩
              · constructor
                · rintro ⟨v', h, -⟩; cases h
                · intro hyw; exact absurd ha (hno w hyw)
            refine ⟨_, rfl, ?_, ?_⟩
            · split
              · rename_i hhit
                refine List.pairwise_cons.mpr ⟨fun w hw => ?_, ho2⟩
                have := ((hout w).mp hw).2.2
                rw [← hy, if_pos hhit, ← hhit] at this
                exact lt_of_lt_of_le (lt_snoc_zero _) this
              · exact ho2
            · intro w
              simp only [Option.some.injEq, exists_eq_left']
              by_cases hhit : c :: cs = a :: as
              · rw [if_pos hhit, List.mem_cons, hout]
                rw [if_pos hhit, ← hhit] at hy
                constructor
                · rintro (rfl | ⟨h1, h2, h3⟩)
                  · exact ⟨hhit ▸ hmem, hacc, le_refl _⟩
                  · exact ⟨h1, h2, le_trans hyle h3⟩
                · rintro ⟨h1, h2, h3⟩
                  rcases eq_or_lt_of_le h3 with h | h
                  · exact Or.inl h.symm
                  · refine Or.inr ⟨h1, h2, ?_⟩
                    rw [← hy]; exact snoc_zero_le h
              · rw [if_neg hhit, hout]
                rw [if_neg hhit] at hy
                constructor
                · rintro ⟨h1, h2, h3⟩
                  exact ⟨h1, h2, le_trans hyle h3⟩
                · rintro ⟨h1, h2, h3⟩
                  exact ⟨h1, h2, by rw [← hy]; exact hfirst w h1 h3⟩
        · rw [List.getElem?_eq_none (by omega)]
          refine ⟨[], rfl, .nil, fun w => ?_⟩
          simp only [List.not_mem_nil, Option.some.injEq, exists_eq_left', false_iff, not_and, not_le]
          intro hw _
          obtain ⟨i, hi, rfl⟩ := List.mem_iff_getElem.mp hw
          exact hp1 i hi (by omega)

end Auto
end Verif
