import Verif.Index.SymProps
import Verif.Index.V3RankProps

/-!
# Property C243: ApproxWordListV5b and V3 with renamed characters

The full scans of C221 and C224 depend on the words only through which n-grams are equal.
-/

namespace Verif

open GramSpec IndexSpec Fp

variable {f : Char → Char} {cf : List Char → List Char} {S : Type} [LinearOrder S]

theorem CharRen.grams (h : CharRen f) (n : ℕ) (w : List Char) :
    grams n (w.map f) = (grams n w).map (List.map f) := grams_map h.stx h.etx n w

theorem CharRen.gramsOf (h : CharRen f) (n : ℤ) (w : List Char) :
    gramsOf n (w.map f) = (gramsOf n w).map (List.map f) := by
  unfold IndexSpec.gramsOf
  split
  · exact h.grams _ _
  · simp [List.map_map, Function.comp_def]

theorem CharRen.mem (h : CharRen f) {g : List Char} {gs : List (List Char)} :
    g.map f ∈ gs.map (List.map f) ↔ g ∈ gs := List.mem_map_of_injective h.map_inj

theorem CharRen.posOf (h : CharRen f) (gs : List (List Char)) (g : List Char) :
    posOf (gs.map (List.map f)) (g.map f) = posOf gs g := by
  unfold IndexSpec.posOf
  rw [zipIdx_map', List.filter_map, List.map_map, List.length_map]
  have e : (fun p : List Char × ℕ => decide (p.1 = g.map f)) ∘
      (fun p : List Char × ℕ => (p.1.map f, p.2)) = fun p => decide (p.1 = g) := by
    funext p
    simp only [Function.comp_apply, decide_eq_decide]
    exact h.map_inj.eq_iff
  rw [e]
  rfl

/-- A sum over the common n-grams. -/
theorem CharRen.sum (h : CharRen f) (A B : List (List Char)) (F : List Char → ℚ) :
    ∑ g ∈ (A.map (List.map f)).toFinset ∩ (B.map (List.map f)).toFinset, F g =
      ∑ g ∈ A.toFinset ∩ B.toFinset, F (g.map f) := by
  rw [← Finset.sum_image (f := F) (g := List.map f) h.map_inj.injOn]
  congr 1
  ext g
  simp only [Finset.mem_inter, List.mem_toFinset, List.mem_map, Finset.mem_image]
  constructor
  · rintro ⟨⟨a, ha, rfl⟩, b, hb, e⟩
    rw [h.map_inj e] at hb
    exact ⟨a, ⟨ha, hb⟩, rfl⟩
  · rintro ⟨a, ⟨h1, h2⟩, rfl⟩
    exact ⟨⟨a, h1, rfl⟩, a, h2, rfl⟩

theorem CharRen.scoreVec (h : CharRen f) (ns : List ℤ) (normalize : Bool) (q w : List Char) :
    scoreVec ns normalize (q.map f) (w.map f) = scoreVec ns normalize q w := by
  unfold IndexSpec.scoreVec
  apply List.map_congr_left
  intro n _
  unfold scoreN denom simN
  rw [h.gramsOf, h.gramsOf, h.sum, List.length_map, List.length_map]
  simp only [h.posOf, List.count_map_of_injective _ _ h.map_inj]

theorem CharRen.scoreVec3 (h : CharRen f) (ns : List ℤ) (q w : List Char) :
    scoreVec3 ns (q.map f) (w.map f) = scoreVec3 ns q w := by
  unfold IndexSpec.scoreVec3
  apply List.map_congr_left
  intro n _
  unfold score3 overlap3
  rw [h.gramsOf, h.grams, h.sum, List.length_map]
  simp only [h.posOf, List.count_map_of_injective _ _ h.map_inj]

theorem CharRen.shares (h : CharRen f) (n : ℤ) (q w : List Char) :
    Shares n (q.map f) (w.map f) ↔ Shares n q w := by
  unfold Shares
  rw [h.gramsOf, h.gramsOf]
  constructor
  · rintro ⟨g, h1, h2⟩
    obtain ⟨a, ha, rfl⟩ := List.mem_map.mp h1
    exact ⟨a, ha, h.mem.mp h2⟩
  · rintro ⟨g, h1, h2⟩
    exact ⟨g.map f, h.mem.mpr h1, h.mem.mpr h2⟩

theorem CharRen.eligible (h : CharRen f) (ns : List ℤ) (fn : ℤ) (q w : List Char) :
    Eligible ns fn (q.map f) (w.map f) ↔ Eligible ns fn q w := by
  unfold Eligible
  simp only [h.shares]

theorem CharRen.discovered (h : CharRen f) (ns : List ℤ) (fn : ℤ) (q : List Char)
    (words : List (List Char)) :
    discovered ns fn (q.map f) (words.map (List.map f)) =
      (discovered ns fn q words).map (List.map f) := by
  unfold IndexSpec.discovered
  rw [← firsts_map (fun a _ b _ e => h.map_inj e), List.map_flatMap]
  congr 1
  apply List.flatMap_congr
  intro n _
  rw [h.gramsOf, firsts_map (fun a _ b _ e => h.map_inj e), List.flatMap_map, List.map_flatMap]
  apply List.flatMap_congr
  intro g _
  unfold eligibleWords
  rw [List.filter_map, List.filter_map, List.filter_filter, List.filter_filter]
  congr 1
  apply List.filter_congr
  intro w _
  simp only [Function.comp_apply, h.gramsOf, h.eligible, h.mem]

theorem CharRen.discovered3 (h : CharRen f) (ns : List ℤ) (q : List Char)
    (words : List (List Char)) :
    discovered3 ns (q.map f) (words.map (List.map f)) =
      (discovered3 ns q words).map (List.map f) := by
  unfold IndexSpec.discovered3
  rw [← firsts_map (fun a _ b _ e => h.map_inj e), List.map_flatMap]
  congr 1
  apply List.flatMap_congr
  intro n _
  rw [h.grams, firsts_map (fun a _ b _ e => h.map_inj e), List.flatMap_map, List.map_flatMap]
  apply List.flatMap_congr
  intro g _
  rw [List.filter_map]
  congr 1
  apply List.filter_congr
  intro w _
  simp only [Function.comp_apply, h.gramsOf, h.mem]

/-- **C243.** An `ApproxWordListV5b` does not care which characters the words are made of: with all
words renamed by an injective map of characters that keeps the markers, a lookup of the renamed query
returns the renamed words, in the same order and with the same scores; exceptions included. Case
folding, if used, must commute with the map. -/
theorem C243_v5b_rename (hcf : ∀ w, cf (cf w) = cf w) {n : NArg} {cs : Option Bool}
    {fn : Option PyVal} {st₀ : WL} (h0 : WL.v5bNew n cs fn = .ok st₀)
    (hf : Function.Injective f) (hs : f stx = stx) (he : f etx = etx)
    (hren : st₀.caseInsensitive = true → ∀ w, cf (w.map f) = (cf w).map f)
    {agg : List ℚ → S} (hagg : MonotoneAgg agg) (vs : List PyVal) (v k : PyVal) (normalize : Bool) :
    (st₀.v5bRun cf (vs.map (renVal (List.map f)))).v5bLookup agg cf (renVal (List.map f) v) k
        normalize =
      ((st₀.v5bRun cf vs).v5bLookup agg cf v k normalize).map (List.map fun r => (r.1.map f, r.2)) := by
  have h : CharRen f := ⟨hf, hs, he⟩
  obtain ⟨b, fi, -, -, h1, h2⟩ := C85_v5b_same_index hcf h0
  obtain ⟨h3, h4⟩ := run_ren h (vs.map WLOp.add) (st := st₀) hren
  rw [renWL_new h1, ← h2 vs] at h3
  have e : (vs.map WLOp.add).map (renWLOp (List.map f)) =
      (vs.map (renVal (List.map f))).map WLOp.add := by
    rw [List.map_map, List.map_map]; rfl
  rw [e, ← h2] at h3
  have hr' : (st₀.v5bRun cf (vs.map (renVal (List.map f)))).V5bReachable cf :=
    ⟨n, cs, fn, st₀, _, h0, rfl⟩
  have hr : (st₀.v5bRun cf vs).V5bReachable cf := ⟨n, cs, fn, st₀, _, h0, rfl⟩
  rw [h3] at hr' ⊢
  rw [← h2 vs] at h4
  generalize st₀.v5bRun cf vs = st at hr hr' h4 ⊢
  rw [← h4] at hren
  cases v with
  | int i => rfl
  | other => rfl
  | str w =>
    show (renWL (List.map f) st).v5bLookup agg cf (.str (w.map f)) k normalize = _
    have hfold := fold_ren hren w
    by_cases hw : w = []
    · subst hw; rfl
    cases k with
    | str s => simp [WL.v5bLookup, hw, Except.map]
    | other => simp [WL.v5bLookup, hw, Except.map]
    | int k =>
      by_cases hk : k ≤ 0
      · simp [WL.v5bLookup, hw, hk, Except.map]
      by_cases hq0 : st.fold cf w = []
      · simp [WL.v5bLookup, hw, hk, hfold, hq0, Except.map]
      by_cases hq : Clean (st.fold cf w)
      · rw [C221_v5b_full_scan hcf hr hagg hw (by omega) hq0 hq,
          C221_v5b_full_scan hcf hr' hagg (by simpa using hw) (by omega) (by rw [hfold]; simpa using hq0)
            (by rw [hfold]; exact (h.clean _).mpr hq), hfold]
        show Except.ok (List.map _ (best _ k.toNat (discovered st.nList st.filterN
          ((st.fold cf w).map f) (st.wordList.map (List.map f))))) = _
        rw [h.discovered, best_map]
        show _ = Except.ok _
        rw [List.map_map, List.map_map]
        show Except.ok (List.map (_ ∘ _) (best (fun a => agg (scoreVec st.nList normalize _ _)) _ _)) = _
        simp only [h.scoreVec]
        congr 1
        apply List.map_congr_left
        intro x _
        simp only [Function.comp_apply]
        congr 2
        exact h.scoreVec st.nList normalize _ x
      · have hc : '\x02' ∈ st.fold cf w ∨ '\x03' ∈ st.fold cf w := by
          by_contra hc
          exact hq (not_or.mp hc)
        unfold WL.v5bLookup
        simp only [List.length_map, hfold, h.mem_stx, h.mem_etx]
        have hw' : ¬ w.length = 0 := by simpa using hw
        have hq0' : ¬ (st.fold cf w).length = 0 := by simpa using hq0
        simp only [if_neg hw', if_neg hk, if_neg hq0', if_pos hc]
        rfl

example :
    let f : Char → Char := fun c => if c = 'b' then 'd' else if c = 'd' then 'b' else c
    let st := demoB₀.v5bRun id [.str "abc".toList, .str "bcd".toList]
    let st' := demoB₀.v5bRun id [.str "adc".toList, .str "dcb".toList]
    (st.v5bLookup mean1 id (.str "abcd".toList) (.int 2) true).map (List.map Prod.fst) =
      .ok ["abc".toList, "bcd".toList] ∧
    st'.v5bLookup mean1 id (.str "adcb".toList) (.int 2) true =
      (st.v5bLookup mean1 id (.str "abcd".toList) (.int 2) true).map
        (List.map fun r => (r.1.map f, r.2)) := by
  decide +kernel

/-! ### ApproxWordListV3 -/

theorem stored3_ren {φ : List Char → List Char} (hφ : Function.Injective φ)
    (h0 : ∀ w, φ w = [] ↔ w = []) (h1 : ∀ w, stx ∈ φ w ↔ stx ∈ w) (h2 : ∀ w, etx ∈ φ w ↔ etx ∈ w)
    {fold : List Char → List Char} (hfold : ∀ w, fold (φ w) = φ (fold w))
    (args : List (Option (List Char))) :
    stored3 fold (args.map (Option.map φ)) = (stored3 fold args).map φ := by
  unfold stored3
  rw [List.filterMap_map]
  have e : (fun a : Option (List Char) => match a with
      | some w => if w ≠ [] ∧ fold w ≠ [] ∧ stx ∉ fold w ∧ etx ∉ fold w then some (fold w) else none
      | none => none) ∘ Option.map φ = fun a => (match a with
      | some w => if w ≠ [] ∧ fold w ≠ [] ∧ stx ∉ fold w ∧ etx ∉ fold w then some (fold w) else none
      | none => none).map φ := by
    funext a
    cases a with
    | none => rfl
    | some w =>
      simp only [Function.comp_apply, Option.map_some, hfold, h1, h2, ne_eq, h0]
      split <;> rfl
  erw [e]
  rw [← List.map_filterMap]
  exact foldl_ren (ρ := List.map φ) (ψ := φ)
    (s := ([] : List (List Char))) (fun l x => by
      simp only [List.mem_map_of_injective hφ]
      split
      · rfl
      · rw [List.map_append]; rfl) _

/-- **C243.** The same for `ApproxWordListV3`, with positive sizes. -/
theorem C243_v3_rename (hcf : ∀ w, cf (cf w) = cf w) {n : NArg} {cs : Bool} {st₀ : V3}
    (h0 : V3.new n cs = .ok st₀) (hn : ∀ n ∈ st₀.nList, 0 < n)
    (hf : Function.Injective f) (hs : f stx = stx) (he : f etx = etx)
    (hren : cs = false → ∀ w, cf (w.map f) = (cf w).map f)
    (agg : List ℚ → S) (vs : List PyVal) (v : PyVal) (topK : Option ℤ) :
    (st₀.addAll cf (vs.map (renVal (List.map f)))).lookup agg cf (renVal (List.map f) v) topK =
      ((st₀.addAll cf vs).lookup agg cf v topK).map (List.map fun r => (r.1.map f, r.2)) := by
  have h : CharRen f := ⟨hf, hs, he⟩
  obtain ⟨hi, e1, e2, e3⟩ := V3.addAll_spec hcf h0 hn vs
  obtain ⟨hi', e1', e2', e3'⟩ := V3.addAll_spec hcf h0 hn (vs.map (renVal (List.map f)))
  have hfold₀ : ∀ w, (if (!cs) = true then cf (w.map f) else w.map f) =
      (if (!cs) = true then cf w else w).map f := by
    intro w
    cases cs with
    | true => rfl
    | false => exact hren rfl w
  have e4 : (vs.map (renVal (List.map f))).map PyVal.str? =
      (vs.map PyVal.str?).map (Option.map (List.map f)) := by
    rw [List.map_map, List.map_map]
    apply List.map_congr_left
    intro v _
    cases v <;> rfl
  rw [e4, stored3_ren h.map_inj (by simp) h.mem_stx h.mem_etx hfold₀, ← e3] at e3'
  have hfold : ∀ w, (st₀.addAll cf (vs.map (renVal (List.map f)))).fold cf (w.map f) =
      ((st₀.addAll cf vs).fold cf w).map f := by
    intro w
    unfold V3.fold
    rw [e2, e2']
    exact hfold₀ w
  rw [← e1] at e1'
  generalize st₀.addAll cf vs = st at *
  generalize st₀.addAll cf (vs.map (renVal (List.map f))) = st' at *
  cases v with
  | int i => rfl
  | other => rfl
  | str w =>
    show st'.lookup agg cf (.str (w.map f)) topK = _
    by_cases hw : w = []
    · subst hw; rfl
    by_cases hq : Clean (st.fold cf w)
    · rw [V3.lookup_exact hi agg hw rfl hq,
        V3.lookup_exact hi' agg (by simpa using hw) (hfold w) ((h.clean _).mpr hq)]
      rw [e1', e3', h.discovered3, List.length_map, List.length_map, best_map]
      simp only [List.map_eq_nil_iff]
      split
      · rfl
      split
      · rfl
      split
      · rfl
      show _ = Except.ok _
      rw [List.map_map, List.map_map]
      simp only [h.scoreVec3]
      congr 1
      apply List.map_congr_left
      intro x _
      simp only [Function.comp_apply, h.scoreVec3, bigramSim, h.nmd]
    · have hc : '\x02' ∈ st.fold cf w ∨ '\x03' ∈ st.fold cf w := by
        by_contra hc
        exact hq (not_or.mp hc)
      have hw' : ¬ w.length = 0 := by simpa using hw
      unfold V3.lookup
      simp only [List.length_map, hfold, h.mem_stx, h.mem_etx, if_neg hw', if_pos hc]
      rfl

example :
    let f : Char → Char := fun c => if c = 'b' then 'd' else if c = 'd' then 'b' else c
    let st₀ : V3 := ⟨[2, 3], false, [], [], []⟩
    let st := st₀.addAll id [.str "abc".toList, .str "bcd".toList]
    let st' := st₀.addAll id [.str "adc".toList, .str "dcb".toList]
    (st.lookup mean1 id (.str "abcd".toList) none).map (List.map Prod.fst) =
      .ok ["abc".toList, "bcd".toList] ∧
    st'.lookup mean1 id (.str "adcb".toList) none =
      (st.lookup mean1 id (.str "abcd".toList) none).map (List.map fun r => (r.1.map f, r.2)) := by
  decide +kernel

end Verif
