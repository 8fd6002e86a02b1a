import Verif.Fp.EditProps
import Verif.WordSet.BlockProps
import Verif.Index.BlockProps

/-!
# Properties C239 and C240: common n-grams and common blocks in rounded arithmetic

`R` ranges over all roundings; `binary64` is that of Python's floats. The bounds of C210–C213 are
bounds by integers, or quotients of integers; rounding is monotone and leaves integers up to `2 ^ 53`
alone, so they hold without any error term.
-/

namespace Verif
namespace Fp

open GramSpec WordSetSpec IndexSpec

variable {R : Rounding} {cf : List Char → List Char} {un : Normalizer}

theorem commonN_eq_common {n : ℤ} (hn : 2 ≤ n) (q w : List Char) :
    commonN n q w = common n.toNat q w := by
  have e : ∀ v, gramsOf n v = grams n.toNat v := fun v => by
    unfold gramsOf
    rw [if_pos (by omega)]
  unfold commonN common
  rw [e, e, ← Multiset.toFinset_sum_count_eq, Nat.cast_sum]
  have : (grams n.toNat q).toFinset ∩ (grams n.toNat w).toFinset =
      ((grams n.toNat q : Multiset (List Char)) ∩ (grams n.toNat w : Multiset (List Char))).toFinset := by
    ext g
    simp only [Finset.mem_inter, List.mem_toFinset, Multiset.mem_toFinset, Multiset.mem_inter,
      Multiset.mem_coe]
  rw [this]
  apply Finset.sum_congr rfl
  intro g _
  rw [Multiset.count_inter, Multiset.coe_count, Multiset.coe_count]
  congr!

theorem gramsTotal_eq {n : ℤ} (hn : 2 ≤ n) (q w : List Char) :
    gramsTotal n q w = count n.toNat q + count n.toNat w := by
  unfold gramsTotal gramsOf
  rw [if_pos (by omega), if_pos (by omega), length_grams, length_grams]

theorem simF_common {n : ℤ} (hn : 2 ≤ n) {a b : List Char}
    (hT : count n.toNat a + count n.toNat b ≤ 2 ^ 53) :
    (common n.toNat a b : ℚ) ≤ simF R n.toNat a b ∧ simF R n.toNat a b ≤ 2 * common n.toNat a b := by
  rw [← gramsTotal_eq hn] at hT
  have h1 := le_simNF (R := R) hT
  have h2 := simNF_le (R := R) hT
  rw [simNF_eq_simF hn, commonN_eq_common hn] at h1 h2
  exact ⟨h1, h2⟩

/-- **C239.** The computed similarity lies between the number of common n-grams and twice that number,
without any rounding error, as long as the words have no more than `2 ^ 53` n-grams. -/
theorem C239_float_common {a b : List Char} (ha : Clean a) (hb : Clean b) {n : ℤ} (hn : 2 ≤ n)
    (hT : count n.toNat a + count n.toNat b ≤ 2 ^ 53) :
    ∃ s, nmdF R (.str a) (.str b) (.int n) true false = .ok s ∧
      (common n.toNat a b : ℚ) ≤ s ∧ s ≤ 2 * common n.toNat a b := by
  rw [nmdF_valid ha hb hn]
  exact ⟨_, rfl, by simpa using (simF_common (R := R) hn hT).1,
    by simpa using (simF_common (R := R) hn hT).2⟩

/-- **C239.** The computed normalised similarity lies between the rounded half of the Dice coefficient
of the n-grams and the rounded Dice coefficient. -/
theorem C239_float_dice {a b : List Char} (ha : Clean a) (hb : Clean b) {n : ℤ} (hn : 2 ≤ n)
    (hla : HasGram n a) (hlb : HasGram n b) (hT : count n.toNat a + count n.toNat b ≤ 2 ^ 53) :
    ∃ s, nmdF R (.str a) (.str b) (.int n) true true = .ok s ∧
      R.fl (dice n.toNat a b / 2) ≤ s ∧ s ≤ R.fl (dice n.toNat a b) := by
  unfold HasGram at hla hlb
  obtain ⟨h1, h2⟩ := simF_common (R := R) hn hT
  rw [nmdF_valid ha hb hn, countInt_eq_count hn (by omega), countInt_eq_count hn (by omega)]
  have hc : 0 < count n.toNat a := by rw [count_eq]; omega
  have hcq : (0 : ℚ) < (count n.toNat a : ℚ) + count n.toNat b := by
    have : (0 : ℚ) < count n.toNat a := by exact_mod_cast hc
    positivity
  simp only [if_true]
  rw [if_neg (by omega)]
  refine ⟨_, rfl, R.mono ?_, R.mono ?_⟩
  · unfold dice
    rw [length_grams, length_grams]
    push_cast
    rw [div_div, mul_comm _ (2 : ℚ), mul_div_mul_left _ _ (by norm_num)]
    exact div_le_div_of_nonneg_right h1 hcq.le
  · unfold dice
    rw [length_grams, length_grams]
    push_cast
    exact div_le_div_of_nonneg_right h2 hcq.le

/-- **C239.** A block of `L` characters that occurs in both words, wherever, guarantees a computed
similarity of at least `L - n + 1`; a common beginning or a common end at least `L - n + 2`. -/
theorem C239_float_block {a b x : List Char} (ha : Clean a) (hb : Clean b) {n : ℤ} (hn : 2 ≤ n)
    (hT : count n.toNat a + count n.toNat b ≤ 2 ^ 53) :
    ∃ s, nmdF R (.str a) (.str b) (.int n) true false = .ok s ∧
      (x <:+: a → x <:+: b → (x.length : ℚ) - n + 1 ≤ s) ∧
      (x <+: a → x <+: b → (x.length : ℚ) - n + 2 ≤ s) ∧
      (x <:+ a → x <:+ b → (x.length : ℚ) - n + 2 ≤ s) := by
  obtain ⟨s, h1, h2, -⟩ := C239_float_common (R := R) ha hb hn hT
  have key : ∀ y, y <:+: bracketed a → y <:+: bracketed b → (y.length : ℚ) - n + 1 ≤ s := by
    intro y hya hyb
    refine le_trans ?_ h2
    have := block_le_common (n := n.toNat) hya hyb
    have h3 : (y.length : ℤ) - n + 1 ≤ (common n.toNat a b : ℤ) := by omega
    exact_mod_cast h3
  refine ⟨s, h1, fun p q => key x (infix_bracketed p) (infix_bracketed q), fun p q => ?_,
    fun p q => ?_⟩
  · have := key _ (prefix_bracketed p) (prefix_bracketed q)
    rw [List.length_cons] at this
    push_cast at this
    linarith
  · have := key _ (suffix_bracketed p) (suffix_bracketed q)
    rw [List.length_append] at this
    push_cast [List.length_singleton] at this
    linarith

/-- "banana" and "nabana" have five 2-grams in common, and the block "bana". -/
example : common 2 "banana".toList "nabana".toList = 5 ∧
    nmdF binary64 (.str "banana".toList) (.str "nabana".toList) (.int 2) true false =
      .ok (2627099782632789 / 281474976710656) ∧
    nmdF binary64 (.str "banana".toList) (.str "nabana".toList) (.int 2) true true =
      .ok (6004799503160661 / 9007199254740992) ∧
    "bana".toList <:+: "banana".toList ∧ "bana".toList <:+: "nabana".toList := by
  decide +kernel

/-! ### Word sets -/

theorem itemsMin_visited {ns : List ℕ} (hnd : ns.Nodup) (q w : List Char) :
    itemsMin (visitedItems ns q w) = commonTotal ns q w := by
  have e1 : ((itemsMin (visitedItems ns q w) : ℕ) : ℚ) = ((visited ns q w).map fun g =>
      min ((Dict.locs (allLocated ns q) g).length : ℚ) (Dict.locs (allLocated ns w) g).length).sum := by
    unfold itemsMin visitedItems
    rw [List.map_map, Nat.cast_list_sum, List.map_map]
    congr 1
    apply List.map_congr_left
    intro g _
    simp
  have e2 : (commonTotal ns q w : ℚ) = (ns.map fun n => (common n q w : ℚ)).sum := by
    unfold commonTotal
    rw [Nat.cast_list_sum, List.map_map]
    rfl
  have e3 : ((itemsMin (visitedItems ns q w) : ℕ) : ℚ) = (commonTotal ns q w : ℚ) := by
    rw [e1, e2, sum_visited]
    have hset : gramSet (allLocated ns q) ∩ gramSet (allLocated ns w) =
        ns.toFinset.biUnion fun n => gramSet (located n q) ∩ gramSet (located n w) := by
      ext g
      simp only [Finset.mem_inter, Finset.mem_biUnion, List.mem_toFinset, mem_gramSet_allLocated,
        gramSet_located]
      constructor
      · rintro ⟨⟨n, hn, h1⟩, m, hm, h2⟩
        have := length_of_mem_grams h1
        have := length_of_mem_grams h2
        obtain rfl : n = m := by omega
        exact ⟨n, hn, h1, h2⟩
      · rintro ⟨n, hn, h1, h2⟩
        exact ⟨⟨n, hn, h1⟩, n, hn, h2⟩
    rw [hset, Finset.sum_biUnion, List.sum_toFinset _ hnd]
    · congr 1
      apply List.map_congr_left
      intro n hn
      rw [common_eq_sum]
      apply Finset.sum_congr rfl
      intro g hg
      have hgl : g.length = n := by
        have := (Finset.mem_inter.1 hg).1
        rw [gramSet_located, List.mem_toFinset] at this
        exact length_of_mem_grams this
      rw [locs_allLocated hnd (by rw [hgl]; exact hn), locs_allLocated hnd (by rw [hgl]; exact hn), hgl,
        ← locs_located, ← locs_located]
    · intro n _ m _ hnm
      rw [Function.onFun, Finset.disjoint_left]
      intro g h1 h2
      have h1 := (Finset.mem_inter.1 h1).1
      have h2 := (Finset.mem_inter.1 h2).1
      rw [gramSet_located, List.mem_toFinset] at h1 h2
      exact hnm ((length_of_mem_grams h1).symm.trans (length_of_mem_grams h2))
  exact_mod_cast e3

theorem scoreSF_dice {ns : List ℕ} (hnd : ns.Nodup) {q w : List Char}
    (hT : totalCount ns q w ≤ 2 ^ 53) :
    R.fl ((commonTotal ns q w : ℚ) / totalCount ns q w) ≤ scoreSF R ns q w ∧
      scoreSF R ns q w ≤ R.fl (2 * commonTotal ns q w / totalCount ns q w) := by
  have hl := itemsLen_visited_le ns q w
  have h1 := le_simSF (R := R) hnd hT
  have h2 := setSimFold_le (R := R)
    ((visitedItems ns q w).map fun i => (i.1.map R.fl, i.2.map R.fl))
    (s := 0) (c := 0) (by simp) (by rw [itemsLen_map]; omega)
  rw [itemsMin_map, ← simSF_eq hnd, itemsMin_visited hnd] at h2
  rw [itemsMin_visited hnd] at h1
  rw [scoreSF_eq hnd hT]
  refine ⟨R.mono (div_le_div_of_nonneg_right h1 (Nat.cast_nonneg _)),
    R.mono (div_le_div_of_nonneg_right (h2.trans (le_of_eq ?_)) (Nat.cast_nonneg _))⟩
  push_cast
  ring

/-- **C240.** Every score that `find_similar` computes lies between the rounded half of the Dice
coefficient of the n-grams of query and word (over all sizes together) and the rounded Dice
coefficient. -/
theorem C240_float_set_dice {st : WS} (h : SetReachableF R cf un st) {q nq : List Char} {k : ℤ}
    {ms : MinSim} {res : List (List Char × ℚ)} (hq : q ≠ [])
    (hnq : keyOf st.caseSensitive cf un q = some nq) (hne : nq ≠ [])
    (hres : findSimilarF R cf un st (.str q) (.int k) ms = .ok res)
    (hT : ∀ o ∈ st.iter, ∀ ko, keyOf st.caseSensitive cf un o = some ko →
      totalCount st.sizes nq ko ≤ 2 ^ 53) :
    ∀ r ∈ res, ∃ ko, keyOf st.caseSensitive cf un r.1 = some ko ∧
      R.fl ((commonTotal st.sizes nq ko : ℚ) / totalCount st.sizes nq ko) ≤ r.2 ∧
      r.2 ≤ R.fl (2 * commonTotal st.sizes nq ko / totalCount st.sizes nq ko) := by
  intro r hr
  obtain ⟨m, hm, hm1, -, hs⟩ := findF_mem h hq hnq hne hres hr
  obtain ⟨-, -, hsz, -, hiter, -, hkeys⟩ := h.facts
  have hmk := (hkeys m hm).1
  rw [← hm1, hs]
  have hmi : m.orig ∈ st.iter := by rw [hiter]; exact List.mem_map.2 ⟨m, hm, rfl⟩
  exact ⟨m.key, hmk, scoreSF_dice hsz (hT _ hmi _ hmk)⟩

/-- With floats a candidate is returned, unless `k` words with at least its computed score are. -/
theorem candidate_found_float {st : WS} (h : SetReachableF R cf un st) {q nq o ko : List Char} {k : ℤ}
    {ms : MinSim} (hk : 0 < k) (ha : ms.accepted = true) (hq : q ≠ [])
    (hnq : keyOf st.caseSensitive cf un q = some nq) (hne : nq ≠ []) (ho : o ∈ st.iter)
    (hko : keyOf st.caseSensitive cf un o = some ko) (hcand : Candidate st.sizes nq ko) :
    ∃ res, findSimilarF R cf un st (.str q) (.int k) ms = .ok res ∧
      ((o, scoreSF R st.sizes nq ko) ∈ res ∨
        ((res.length : ℤ) = k ∧ ∀ r ∈ res, scoreSF R st.sizes nq ko ≤ r.2)) := by
  obtain ⟨-, -, -, -, hiter, -, hkeys⟩ := h.facts
  obtain ⟨L, hR, -, hres⟩ := C132_float_set_ranking h hk ha hq hnq hne
  rw [hiter] at ho
  obtain ⟨m, hm, rfl⟩ := List.mem_map.1 ho
  have hmk := (hkeys m hm).1
  rw [hko] at hmk
  injection hmk with hmk
  subst hmk
  refine ⟨_, hres, ?_⟩
  by_cases hmR : m ∈ L
  · exact Or.inl (List.mem_map.2 ⟨m, hmR, rfl⟩)
  · right
    constructor
    · rw [List.length_map, hR.length]
      have hsub : (m :: L).Subperm
          ((st.members cf un).filter fun m => Candidate st.sizes nq m.key) := by
        apply List.Nodup.subperm
        · refine List.nodup_cons.2 ⟨hmR, ?_⟩
          refine hR.ordered.imp ?_
          rintro a b hab rfl
          rcases hab with hab | hab
          · exact lt_irrefl _ hab
          · exact lt_irrefl _ hab.2
        · intro x hx
          rw [List.mem_filter]
          rcases List.mem_cons.1 hx with rfl | hx
          · exact ⟨hm, by simpa using hcand⟩
          · have := hR.members x hx
            exact ⟨this.1, by simpa using this.2⟩
      have := hsub.length_le
      have hlen := hR.length
      rw [List.length_cons] at this
      omega
    · intro r hr'
      obtain ⟨x, hx, rfl⟩ := List.mem_map.1 hr'
      rcases hR.best m hm hcand hmR x hx with h1 | h1
      · exact h1.le
      · exact h1.1.le

/-- **C240.** With floats, too, a stored word that has a block of `L` characters in common with the
query, where `L` is at least the filter size, is found: it is returned with a computed score of at
least the rounded bound of C212, unless `k` words with at least its computed score are returned
instead. -/
theorem C240_float_block_found {st : WS} (h : SetReachableF R cf un st) {q nq o ko x : List Char}
    {k : ℤ} {ms : MinSim} (hk : 0 < k) (ha : ms.accepted = true) (hq : q ≠ [])
    (hnq : keyOf st.caseSensitive cf un q = some nq) (hne : nq ≠ []) (ho : o ∈ st.iter)
    (hko : keyOf st.caseSensitive cf un o = some ko) (hxq : x <:+: nq) (hxo : x <:+: ko)
    (hl : match filterSize st.sizes with
      | some f => f ≤ x.length
      | none => 0 < totalCount st.sizes nq ko)
    (hT : totalCount st.sizes nq ko ≤ 2 ^ 53) :
    ∃ res s, findSimilarF R cf un st (.str q) (.int k) ms = .ok res ∧
      R.fl (((st.sizes.map fun n => x.length + 1 - n).sum : ℕ) / (totalCount st.sizes nq ko : ℚ)) ≤ s ∧
      ((o, s) ∈ res ∨ ((res.length : ℤ) = k ∧ ∀ r ∈ res, s ≤ r.2)) := by
  have hc : ∀ n, x.length + 1 - n ≤ common n nq ko := fun n =>
    block_le_common (infix_bracketed hxq) (infix_bracketed hxo)
  have hcand : Candidate st.sizes nq ko := by
    unfold Candidate
    cases hf : filterSize st.sizes with
    | none => rw [hf] at hl; exact hl
    | some f =>
      rw [hf] at hl
      have h1 : 0 < common f nq ko := lt_of_lt_of_le (by simp only at hl; omega) (hc f)
      obtain ⟨g, hg⟩ := Multiset.card_pos_iff_exists_mem.1 h1
      rw [Multiset.mem_inter] at hg
      exact ⟨g, hg.1, hg.2⟩
  obtain ⟨res, h1, h2⟩ := candidate_found_float h hk ha hq hnq hne ho hko hcand
  refine ⟨res, _, h1, le_trans (R.mono ?_) (scoreSF_dice h.facts.2.2.1 hT).1, h2⟩
  apply div_le_div_of_nonneg_right _ (Nat.cast_nonneg _)
  have : (st.sizes.map fun n => x.length + 1 - n).sum ≤ commonTotal st.sizes nq ko :=
    List.sum_le_sum fun n _ => hc n
  exact_mod_cast this

/-- "lightning" is not stored, but "light" is. -/
example : (findSimilarF binary64 (List.map Char.toLower) none wsDemoF (.str "lightning".toList) (.int 1)
      .none).map (fun l => l.map Prod.fst) = .ok [['l', 'i', 'g', 'h', 't']] ∧
    filterSize wsDemoF.sizes = some 3 ∧ "light".toList <:+: "lightning".toList ∧
    (wsDemoF.sizes.map fun n => 5 + 1 - n).sum = 7 ∧
    totalCount wsDemoF.sizes "lightning".toList "light".toList = 30 := by
  decide +kernel

/-! ### Word lists -/

theorem scoreNF_block {n : ℤ} (hn : 2 ≤ n) {q v x : List Char} (hq : x <:+: q) (hv : x <:+: v)
    (hT : gramsTotal n q v ≤ 2 ^ 53) :
    ((max 0 ((x.length : ℤ) + 1 - n) : ℤ) : ℚ) ≤ simNF R n q v := by
  refine le_trans ?_ (le_simNF (R := R) hT)
  rw [commonN_eq_common hn]
  have := block_le_common (n := n.toNat) (infix_bracketed hq) (infix_bracketed hv)
  have h3 : max 0 ((x.length : ℤ) + 1 - n) ≤ (common n.toNat q v : ℤ) := by omega
  exact_mod_cast h3

theorem best_found_float {S : Type} [LinearOrder S] {agg : List ℚ → S} {ns : List ℤ} {f : ℤ}
    {normalize : Bool} {words : List (List Char)} {k : ℤ} (hk : 0 < k) {q v : List Char}
    {res : List (List Char × (S ×ₗ ℚ))} (hb : BestF R agg ns f normalize words k.toNat q res)
    (hv : v ∈ words) (hel : Eligible ns f q v) :
    (∃ r ∈ res, r.1 = v ∧ (ofLex r.2).1 = agg (scoreVecF R ns normalize q v)) ∨
      ((res.length : ℤ) = k ∧ ∀ r ∈ res, agg (scoreVecF R ns normalize q v) ≤ (ofLex r.2).1) := by
  by_cases hm : v ∈ res.map Prod.fst
  · left
    obtain ⟨r, hr, rfl⟩ := List.mem_map.1 hm
    exact ⟨r, hr, rfl, (hb.scores r hr).2.2.1⟩
  · right
    refine ⟨?_, hb.best v hv hel hm⟩
    have hsub : (v :: res.map Prod.fst).Subperm (eligibleWords ns f q words) := by
      apply List.Nodup.subperm (List.nodup_cons.2 ⟨hm, hb.nodup⟩)
      intro x hx
      unfold eligibleWords
      rw [List.mem_filter]
      rcases List.mem_cons.1 hx with rfl | hx
      · exact ⟨hv, by simpa using hel⟩
      · obtain ⟨r, hr, rfl⟩ := List.mem_map.1 hx
        have := hb.scores r hr
        exact ⟨this.1, by simpa using this.2.1⟩
    have h1 := hsub.length_le
    have h2 := hb.length
    simp only [List.length_cons, List.length_map] at h1
    omega

theorem eligible_of_block {ns : List ℤ} {f : ℤ} {q v x : List Char} (hxq : x <:+: q) (hxv : x <:+: v)
    (hfil : f = 0 ∨ (2 ≤ f ∧ f ≤ x.length)) (hn : ∃ n ∈ ns, 2 ≤ n ∧ n ≤ x.length) :
    Eligible ns f q v := by
  refine ⟨fun h0 => ?_, ?_⟩
  · rcases hfil with hf | ⟨hf, hl⟩
    · exact absurd hf h0
    · exact shares_of_block hf hxq hxv hl
  · obtain ⟨n, hn, hn2, hl⟩ := hn
    exact ⟨n, hn, shares_of_block hn2 hxq hxv hl⟩

/-- **C240.** A word list with floats, not normalised: a stored word that has a block of characters in
common with the query, as long as the filter size and as one of the sizes, is returned with at least
the aggregate of the numbers `L + 1 - n`, unless `k` words with at least its computed score are. -/
theorem C240_float_list_block_found (hcf : ∀ w, cf (cf w) = cf w) {stF : WL}
    (hr : ReachableF R cf stF) {S : Type} [LinearOrder S] {agg : List ℚ → S}
    (hagg : MonotoneAggF R stF.nList.length agg) {w v x : List Char} {k : ℤ}
    (hw : w ≠ []) (hk : 0 < k) (hq : Clean (stF.fold cf w)) (hn2 : ∀ n ∈ stF.nList, 2 ≤ n)
    (hone : ∀ n ∈ stF.nList, (gramsOf n (stF.fold cf w)).length ≠ 1)
    (hl : ∀ v ∈ stF.wordList, (stF.fold cf w).length + v.length + 2 ≤ 2 ^ 53)
    (hv : v ∈ stF.vocabulary) (hxq : x <:+: stF.fold cf w) (hxv : x <:+: v)
    (hfil : stF.filterN = 0 ∨ (2 ≤ stF.filterN ∧ stF.filterN ≤ x.length))
    (hn : ∃ n ∈ stF.nList, n ≤ x.length) :
    ∃ res s, lookupF R agg cf stF (.str w) (.int k) false = .ok res ∧
      agg (stF.nList.map fun n : ℤ => ((max 0 ((x.length : ℤ) + 1 - n) : ℤ) : ℚ)) ≤ s ∧
      ((∃ r ∈ res, r.1 = v ∧ (ofLex r.2).1 = s) ∨
        ((res.length : ℤ) = k ∧ ∀ r ∈ res, s ≤ (ofLex r.2).1)) := by
  obtain ⟨res, hres, hb⟩ := C126_float_lookup_best hcf hr hagg hw hk hq hone hl
  have hp : stF.vocabulary.Perm stF.wordList := List.perm_insertionSort _ _
  have hvw := hp.mem_iff.1 hv
  have hT : ∀ n ∈ stF.nList, gramsTotal n (stF.fold cf w) v ≤ 2 ^ 53 := fun n _ =>
    (gramsTotal_le n _ _).trans (hl v hvw)
  obtain ⟨n₀, hn₀, hn₀l⟩ := hn
  refine ⟨res, _, hres, ?_, best_found_float hk hb hvw
    (eligible_of_block hxq hxv hfil ⟨n₀, hn₀, hn2 n₀ hn₀, hn₀l⟩)⟩
  apply hagg _ _ (by simp) ?_ (scoreVecF_floats false hT)
  · unfold scoreVecF
    rw [List.forall₂_map_left_iff, List.forall₂_map_right_iff, List.forall₂_same]
    intro n hn
    exact scoreNF_block (hn2 n hn) hxq hxv (hT n hn)
  · intro y hy
    obtain ⟨n, hn, rfl⟩ := List.mem_map.1 hy
    have hlv := hl v hvw
    have hx := hxv.length_le
    have h2 := hn2 n hn
    obtain ⟨m, hm⟩ : ∃ m : ℕ, max 0 ((x.length : ℤ) + 1 - n) = (m : ℤ) :=
      ⟨(max 0 ((x.length : ℤ) + 1 - n)).toNat, by omega⟩
    rw [hm, Int.cast_natCast]
    exact ⟨Nat.cast_nonneg _, R.nat m (by omega)⟩

/-- **C240.** The same for normalised lookups with `mean` (sizes of at least 2, query and word of at
most 8190 characters): the computed score is at least the computed mean of the rounded bounds of
C213. -/
theorem C240_float_list_block_found_normalized (hcf : ∀ w, cf (cf w) = cf w) (hu : R.u ≤ 1 / 2 ^ 53)
    {stF : WL} (hr : ReachableF R cf stF) {w v x : List Char} {k : ℤ} (hw : w ≠ []) (hk : 0 < k)
    (hq : Clean (stF.fold cf w)) (hn2 : ∀ n ∈ stF.nList, 2 ≤ n)
    (hone : ∀ n ∈ stF.nList, (gramsOf n (stF.fold cf w)).length ≠ 1)
    (hden : ∀ v ∈ stF.wordList, ∀ n ∈ stF.nList, denom n (stF.fold cf w) v ≠ 0)
    (hN : stF.nList.length ≤ 8192) (hS : (stF.nList.length : ℕ∞) ≤ R.sumMax)
    (hM : (stF.nList.length : ℕ∞) ≤ R.monoMax)
    (hl : ∀ v ∈ stF.wordList, (stF.fold cf w).length + v.length ≤ 8190)
    (hv : v ∈ stF.vocabulary) (hxq : x <:+: stF.fold cf w) (hxv : x <:+: v)
    (hfil : stF.filterN = 0 ∨ (2 ≤ stF.filterN ∧ stF.filterN ≤ x.length))
    (hn : ∃ n ∈ stF.nList, n ≤ x.length)
    (hpos : ∀ n ∈ stF.nList, 0 < denom n (stF.fold cf w) v) :
    ∃ res s, lookupF R (mean1F R) cf stF (.str w) (.int k) true = .ok res ∧
      mean1F R (stF.nList.map fun n : ℤ =>
        R.fl (((max 0 ((x.length : ℤ) + 1 - n) : ℤ) : ℚ) / denom n (stF.fold cf w) v)) ≤ s ∧
      ((∃ r ∈ res, r.1 = v ∧ (ofLex r.2).1 = s) ∨
        ((res.length : ℤ) = k ∧ ∀ r ∈ res, s ≤ (ofLex r.2).1)) := by
  obtain ⟨res, hres, hb⟩ := C127_float_lookup_best_normalized hcf hu hr hw hk hq hn2 hone hden hN hS hl
  have hp : stF.vocabulary.Perm stF.wordList := List.perm_insertionSort _ _
  have hvw := hp.mem_iff.1 hv
  have hT : ∀ n ∈ stF.nList, gramsTotal n (stF.fold cf w) v ≤ 2 ^ 53 := fun n _ =>
    (gramsTotal_le n _ _).trans (by have := hl v hvw; omega)
  obtain ⟨n₀, hn₀, hn₀l⟩ := hn
  refine ⟨res, _, hres, ?_, best_found_float hk hb hvw
    (eligible_of_block hxq hxv hfil ⟨n₀, hn₀, hn2 n₀ hn₀, hn₀l⟩)⟩
  apply mean1F_monotone hM _ _ (by simp) ?_ (scoreVecF_floats true hT)
  · unfold scoreVecF
    rw [List.forall₂_map_left_iff, List.forall₂_map_right_iff, List.forall₂_same]
    intro n hn
    unfold scoreNF
    rw [if_pos rfl]
    have hd : (0 : ℚ) ≤ denom n (stF.fold cf w) v := by exact_mod_cast (hpos n hn).le
    exact R.mono (div_le_div_of_nonneg_right (scoreNF_block (hn2 n hn) hxq hxv (hT n hn)) hd)
  · intro y hy
    obtain ⟨n, hn, rfl⟩ := List.mem_map.1 hy
    have hd : (0 : ℚ) ≤ denom n (stF.fold cf w) v := by exact_mod_cast (hpos n hn).le
    refine ⟨fl_nonneg (div_nonneg ?_ hd), R.idem _⟩
    exact_mod_cast le_max_left 0 ((x.length : ℤ) + 1 - n)

/-- In the list of the examples, "banana" and the query "cabanas" have "bana" in common. -/
example : demoF.fold id "cabanas".toList = "cabanas".toList ∧ "banana".toList ∈ demoF.vocabulary ∧
    "bana".toList <:+: "cabanas".toList ∧ "bana".toList <:+: "banana".toList ∧
    demoF.filterN = 0 ∧ (2 : ℤ) ∈ demoF.nList ∧ (∀ n ∈ demoF.nList, 2 ≤ n) ∧
    ∀ n ∈ demoF.nList, 0 < denom n "cabanas".toList "banana".toList := by
  decide +kernel

end Fp
end Verif
