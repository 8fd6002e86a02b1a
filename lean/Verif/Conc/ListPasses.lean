import Verif.Conc.ListPartial

/-!
# What a lookup finds in a growing list: the two passes
-/

namespace Verif
namespace ListConc

open GramSpec IndexSpec

variable {cf : List Char → List Char} {m₀ F : WL} {q : List Char} {normalize : Bool}

/-- What the first pass adds for an entry. -/
def baseC (F : WL) (q : List Char) (normalize : Bool) (it : CountItem) (e : ℕ × ℕ) : List Event :=
  [(e.1, it.k, ((min it.c e.2 : ℕ) : ℚ) / F.den q normalize it.n e.1)]

/-- What the second pass adds for an entry. -/
def baseP (it : PosItem) (e : ℕ × List ℚ) : List Event :=
  [(e.1, it.k, (it.l.length : ℚ) + e.2.length), (e.1, it.k, -(emd it.l e.2))]

/-- The filter lets the word with this index pass. -/
def Passes (F : WL) (cand : List ℕ) (i : ℕ) : Prop := ¬ (F.filterN ≠ 0 ∧ i ∉ cand)

instance (F : WL) (cand : List ℕ) : DecidablePred (Passes F cand) := fun _ => by
  unfold Passes; infer_instance

/-- The iterations of the second pass. -/
def posItems (q : List Char) (ns : List (ℤ × ℕ)) : List PosItem :=
  ns.flatMap fun nk => (Dict.group (locatedOf (getNGrams q nk.1))).map fun gl => ⟨nk.2, gl.1, gl.2⟩

theorem minEvents_eq : F.minEvents q normalize = evsOf (baseC F q normalize)
    (Passes F (F.filterCandidates q)) ((countItems F.nList q).map fun it => (it, cnts F it.g)) := by
  unfold WL.minEvents evsOf countItems
  rw [List.flatMap_map, List.flatMap_assoc]
  refine List.flatMap_congr fun nk _ => ?_
  rw [List.flatMap_map]
  refine List.flatMap_congr fun gc _ => ?_
  refine List.flatMap_congr fun e _ => ?_
  by_cases h : F.skipped q e.1
  · rw [if_pos h, if_neg (fun h' : Passes F _ e.1 => h' h)]
  · rw [if_neg h, if_pos (show Passes F _ e.1 from h)]; rfl

theorem matchEvents_eq (cand : List ℕ) : F.matchEvents q cand = evsOf baseP (· ∈ cand)
    ((posItems q F.nList.zipIdx).map fun it => (it, poss F it.g)) := by
  unfold WL.matchEvents evsOf posItems
  rw [List.flatMap_map, List.flatMap_assoc]
  refine List.flatMap_congr fun nk _ => ?_
  rw [List.flatMap_map]
  refine List.flatMap_congr fun gc _ => ?_
  refine List.flatMap_congr fun e _ => ?_
  by_cases h : e.1 ∈ cand
  · rw [if_neg (not_not.2 h), if_pos h]; rfl
  · rw [if_pos h, if_neg h]

theorem filter_between {α : Type} {f : α → Bool} {a b c : List α} (h1 : a <+: b) (h2 : b <+: c)
    (h : c.filter f = a.filter f) : b.filter f = c.filter f := by
  obtain ⟨t, rfl⟩ := h1
  obtain ⟨u, rfl⟩ := h2
  rw [List.filter_append, List.filter_append] at h
  have hl := congrArg List.length h
  simp only [List.length_append] at hl
  have : u.filter f = [] := List.length_eq_zero_iff.1 (by omega)
  rw [List.filter_append (l₁ := a ++ t), this, List.append_nil]

/-- All entries of the beginning have been seen, and only entries. -/
def CovC (m₀ F : WL) (seen : List (CountItem × List (ℕ × ℕ))) : Prop :=
  ∀ p ∈ seen, cnts m₀ p.1.g <+: p.2 ∧ p.2 <+: cnts F p.1.g

/-- The same for positions. -/
def CovP (m₀ F : WL) (seen : List (PosItem × List (ℕ × List ℚ))) : Prop :=
  ∀ p ∈ seen, poss m₀ p.1.g <+: p.2 ∧ p.2 <+: poss F p.1.g

/-- The candidates found in the filter. -/
structure CandOk (m₀ F : WL) (q : List Char) (cand : List ℕ) : Prop where
  sub : ∀ i ∈ cand, i ∈ F.filterCandidates q
  all : ∀ w i, Complete m₀ w i → i ∈ F.filterCandidates q → i ∈ cand

/-- The result of the first pass. -/
structure MinOk (m₀ F : WL) (q : List Char) (normalize : Bool) (ms : Dict ℕ (List ℚ)) : Prop where
  nodup : (Dict.keys ms).Nodup
  sub : ∀ i v, (i, v) ∈ ms → ∃ w, F.wordList[i]? = some w ∧ Eligible F.nList F.filterN q w ∧
    List.Forall₂ (fun a b => 0 ≤ a ∧ a ≤ b) v (lowerVec F.nList normalize q w)
  all : ∀ w i, Complete m₀ w i → ∀ v, (i, v) ∈ ms ↔
    Eligible F.nList F.filterN q w ∧ v = lowerVec F.nList normalize q w

/-- The result of the second pass. -/
structure MatchOk (m₀ F : WL) (q : List Char) (cand : List ℕ) (ms : Dict ℕ (List ℚ)) : Prop where
  nodup : (Dict.keys ms).Nodup
  sub : ∀ i v, (i, v) ∈ ms → i ∈ cand ∧ ∃ w, F.wordList[i]? = some w ∧
    List.Forall₂ (fun a b => 0 ≤ a ∧ a ≤ b) v (F.nList.map fun n => simN n q w)
  all : ∀ w i, Complete m₀ w i → ∀ v, (i, v) ∈ ms ↔ i ∈ cand ∧ (∃ n ∈ F.nList, Shares n q w) ∧
    v = F.nList.map fun n => simN n q w

theorem mem_countItems {ns : List ℤ} {it : CountItem} (h : it ∈ countItems ns q) :
    ns[it.k]? = some it.n ∧ (it.g, it.c) ∈ counter (getNGrams q it.n) := by
  unfold countItems at h
  obtain ⟨nk, hnk, h⟩ := List.mem_flatMap.1 h
  obtain ⟨gc, hgc, rfl⟩ := List.mem_map.1 h
  exact ⟨List.mem_zipIdx_iff_getElem?.1 hnk, hgc⟩

theorem mem_posItems {ns : List ℤ} {it : PosItem} (h : it ∈ posItems q ns.zipIdx) :
    ∃ n, ns[it.k]? = some n ∧ it.l = Dict.locs (locatedOf (getNGrams q n)) it.g := by
  unfold posItems at h
  obtain ⟨nk, hnk, h⟩ := List.mem_flatMap.1 h
  obtain ⟨gc, hgc, rfl⟩ := List.mem_map.1 h
  exact ⟨nk.1, List.mem_zipIdx_iff_getElem?.1 hnk, (mem_group_locatedOf.1 hgc).2⟩

/-- An entry found in the first pass belongs to a word that shares the n-gram. -/
theorem shares_of_entry (hF : WLInv cf F) {it : CountItem} (hit : it ∈ countItems F.nList q)
    {e : ℕ × ℕ} (he : e ∈ cnts F it.g) : ∃ w, F.wordList[e.1]? = some w ∧ Shares it.n q w := by
  obtain ⟨h1, h2⟩ := mem_countItems hit
  have hn := hF.posN it.n (List.mem_of_getElem? h1)
  obtain ⟨hg1, hg2, _⟩ := gram_len hn h2
  obtain ⟨w, hw, _, hgw, _⟩ := mem_counts hF he
  refine ⟨w, hw, it.g, ?_, ?_⟩
  · rw [← getNGrams_eq_gramsOf]; exact hg2
  · rw [← getNGrams_eq_gramsOf, ← hg1]; exact hgw

theorem first_pass (h0 : Grows m₀ F) (hF : WLInv cf F) {cand : List ℕ} (hc : CandOk m₀ F q cand)
    {seen : List (CountItem × List (ℕ × ℕ))} (hs : seen.map Prod.fst = countItems F.nList q)
    (hcov : CovC m₀ F seen) :
    MinOk m₀ F q normalize (accum F.nList.length [] (evsOf (baseC F q normalize) (Passes F cand) seen)) := by
  have htag : ∀ (a : CountItem) (e : ℕ × ℕ), ∀ v ∈ baseC F q normalize a e, v.1 = e.1 := by
    intro a e v hv
    rw [baseC, List.mem_singleton] at hv; rw [hv]
  have hne : ∀ (a : CountItem) (e : ℕ × ℕ), baseC F q normalize a e ≠ [] := fun a e h => by
    cases h
  have hfull : (seen.map fun p => (p.1, cnts F p.1.g)) =
      (countItems F.nList q).map fun it => (it, cnts F it.g) := by
    rw [← hs, List.map_map]; rfl
  obtain ⟨hA, hB⟩ := accum_part (base := baseC F q normalize) (ok := Passes F cand)
    (ok' := Passes F (F.filterCandidates q)) (full := fun it => cnts F it.g) (seen := seen) htag hne
    (fun p hp => (hcov p hp).2) (fun i hi hc' => hi ⟨hc'.1, fun h => hc'.2 (hc.sub i h)⟩)
    (by
      intro p hp e he _ i k
      obtain ⟨w, hw, hsh⟩ := shares_of_entry hF (hs ▸ List.mem_map_of_mem hp) he
      have hd : 0 ≤ F.den q normalize p.1.n e.1 := by
        rw [den_eq hF hw]
        split
        · exact_mod_cast (denom_pos_of_shares hsh).le
        · exact zero_le_one
      unfold part baseC
      rw [List.map_cons, List.map_nil, List.sum_singleton]
      split
      · exact div_nonneg (Nat.cast_nonneg _) hd
      · exact le_refl _) F.nList.length
  simp only [hfull] at hA hB
  rw [← minEvents_eq] at hA hB
  refine ⟨nodup_keys_accum _ _, ?_, ?_⟩
  · intro i v hv
    obtain ⟨_, h1, h2⟩ := hA i v hv
    obtain ⟨w, hw, he⟩ := (mem_minEvents hF q normalize i).1 h1
    refine ⟨w, hw, he, ?_⟩
    rw [evTotal_minEvents hF q normalize hw he.1] at h2
    exact h2
  · intro w i hcomp v
    have hw := (hcomp.same h0 hF []).1
    rw [hB i ?_ ?_ v, mem_minEvents hF]
    · constructor
      · rintro ⟨⟨w', hw', he⟩, hv⟩
        rw [hw] at hw'; injection hw' with hw'; subst hw'
        exact ⟨he, by rw [hv, evTotal_minEvents hF q normalize hw he.1]⟩
      · rintro ⟨he, hv⟩
        exact ⟨⟨w, hw, he⟩, by rw [hv, evTotal_minEvents hF q normalize hw he.1]⟩
    · exact ⟨fun hi hc' => hi ⟨hc'.1, fun h => hc'.2 (hc.sub i h)⟩,
        fun hi hc' => hi ⟨hc'.1, fun h => hc'.2 (hc.all w i hcomp h)⟩⟩
    · intro p hp
      exact filter_between (hcov p hp).1 (hcov p hp).2 (hcomp.same h0 hF _).2.1

theorem second_pass (h0 : Grows m₀ F) (hF : WLInv cf F) {cand : List ℕ}
    {seen : List (PosItem × List (ℕ × List ℚ))} (hs : seen.map Prod.fst = posItems q F.nList.zipIdx)
    (hcov : CovP m₀ F seen) :
    MatchOk m₀ F q cand (accum F.nList.length [] (evsOf baseP (· ∈ cand) seen)) := by
  have htag : ∀ (a : PosItem) (e : ℕ × List ℚ), ∀ v ∈ baseP a e, v.1 = e.1 := by
    intro a e v hv
    rw [baseP, List.mem_cons, List.mem_singleton] at hv
    rcases hv with hv | hv <;> rw [hv]
  have hne : ∀ (a : PosItem) (e : ℕ × List ℚ), baseP a e ≠ [] := fun a e h => by cases h
  have hfull : (seen.map fun p => (p.1, poss F p.1.g)) =
      (posItems q F.nList.zipIdx).map fun it => (it, poss F it.g) := by
    rw [← hs, List.map_map]; rfl
  obtain ⟨hA, hB⟩ := accum_part (base := baseP) (ok := (· ∈ cand)) (ok' := (· ∈ cand))
    (full := fun it => poss F it.g) (seen := seen) htag hne
    (fun p hp => (hcov p hp).2) (fun i hi => hi)
    (by
      intro p hp e he _ i k
      obtain ⟨n, _, hl⟩ := mem_posItems (hs ▸ List.mem_map_of_mem hp)
      have hpe := (hF.positions p.1.g).mem_iff.1 he
      obtain ⟨w, hw, hpe⟩ := mem_posEntries.1 hpe
      obtain ⟨_, _, he2⟩ := posEntry_some hpe
      have h3 : 0 ≤ contrib p.1.l e.2 := by
        have := min_le_contrib (spread1_of_unit (unitLocated_locatedOf (getNGrams q n))
          (unitLocated_locatedOf (getNGrams w p.1.g.length)) p.1.g)
        rw [he2, hl]
        exact le_trans (le_min (Nat.cast_nonneg _) (Nat.cast_nonneg _)) this
      unfold part baseP
      rw [List.map_cons, List.map_cons, List.map_nil, List.sum_cons, List.sum_singleton]
      simp only
      split
      · unfold contrib at h3; linarith
      · simp) F.nList.length
  simp only [hfull] at hA hB
  rw [← matchEvents_eq] at hA hB
  refine ⟨nodup_keys_accum _ _, ?_, ?_⟩
  · intro i v hv
    obtain ⟨hi, h1, h2⟩ := hA i v hv
    obtain ⟨_, w, hw, _⟩ := (mem_matchEvents hF q cand i).1 h1
    refine ⟨hi, w, hw, ?_⟩
    rw [evTotal_matchEvents hF q hw hi] at h2
    exact h2
  · intro w i hcomp v
    have hw := (hcomp.same h0 hF []).1
    rw [hB i trivial ?_ v, mem_matchEvents hF]
    · constructor
      · rintro ⟨⟨hi, w', hw', he⟩, hv⟩
        rw [hw] at hw'; injection hw' with hw'; subst hw'
        exact ⟨hi, he, by rw [hv, evTotal_matchEvents hF q hw hi]⟩
      · rintro ⟨hi, he, hv⟩
        exact ⟨⟨hi, w, hw, he⟩, by rw [hv, evTotal_matchEvents hF q hw hi]⟩
    · intro p hp
      exact filter_between (hcov p hp).1 (hcov p hp).2 (hcomp.same h0 hF _).2.2.1

end ListConc
end Verif
