import Verif.Conc.ListPasses
import Verif.Conc.ListFindSpec

/-!
# What a lookup finds in a growing list: pruning, normalising, choosing
-/

namespace Verif
namespace ListConc

open GramSpec IndexSpec

variable {cf : List Char → List Char} {m m₀ F : WL} {q : List Char} {k : ℕ} {normalize : Bool}
  {S : Type} [LinearOrder S] {agg : List ℚ → S}

theorem f2_right {A B : Type} {R : A → B → Prop} {l : List A} {l' : List B} (h : List.Forall₂ R l l') :
    ∀ r ∈ l', ∃ p ∈ l, R p r := by
  induction h with
  | nil => intro r hr; cases hr
  | @cons p r l l' h1 h2 ih =>
    intro r' hr'
    rcases List.mem_cons.1 hr' with rfl | hr'
    · exact ⟨p, by simp, h1⟩
    · obtain ⟨p', hp', h⟩ := ih r' hr'
      exact ⟨p', by simp [hp'], h⟩

theorem f2_left {A B : Type} {R : A → B → Prop} {l : List A} {l' : List B} (h : List.Forall₂ R l l') :
    ∀ p ∈ l, ∃ r ∈ l', R p r := by
  intro p hp
  obtain ⟨r, hr, h⟩ := f2_right h.flip p hp
  exact ⟨r, hr, h⟩

theorem f2_map {A B C : Type} {R : A → B → Prop} {f : A → C} {g : B → C} (hR : ∀ a b, R a b → g b = f a)
    {l : List A} {l' : List B} (h : List.Forall₂ R l l') : l'.map g = l.map f := by
  induction h with
  | nil => rfl
  | cons h1 h2 ih => rw [List.map_cons, List.map_cons, hR _ _ h1, ih]

theorem f2_nodup {A B C D : Type} {R : A → B → Prop} {f : A → C} {g : B → D}
    (hR : ∀ a b a' b', R a b → R a' b' → g b = g b' → f a = f a') {l : List A} {l' : List B}
    (h : List.Forall₂ R l l') (hn : (l.map f).Nodup) : (l'.map g).Nodup := by
  induction h with
  | nil => exact List.nodup_nil
  | @cons p r l l' h1 h2 ih =>
    rw [List.map_cons, List.nodup_cons] at hn ⊢
    refine ⟨?_, ih hn.2⟩
    intro hc
    apply hn.1
    obtain ⟨r', hr', he⟩ := List.mem_map.1 hc
    obtain ⟨p', hp', h5⟩ := f2_right h2 r' hr'
    exact List.mem_map.2 ⟨p', hp', hR _ _ _ _ h5 h1 he⟩

/-- At least `k` other words are as good as `w`. -/
def Crowded (agg : List ℚ → S) (F : WL) (normalize : Bool) (k : ℕ) (q w : List Char) : Prop :=
  k ≤ (rivals agg F.nList F.filterN normalize F.wordList q w).length

theorem crowded_of (hF : WLInv cf F) {w : List Char} {L : List ℕ} (hn : L.Nodup)
    (hL : ∀ i ∈ L, ∃ v, F.wordList[i]? = some v ∧ Eligible F.nList F.filterN q v ∧ v ≠ w ∧
      agg (scoreVec F.nList normalize q w) ≤ agg (scoreVec F.nList normalize q v))
    (hk : k ≤ L.length) : Crowded agg F normalize k q w := by
  have hg : ∀ i v, F.wordList[i]? = some v → F.wordList.getD i [] = v := by
    intro i v hv; rw [List.getD_eq_getElem?_getD, hv]; rfl
  have h1 : (L.map fun i => F.wordList.getD i []).Nodup := by
    apply List.Nodup.map_on _ hn
    intro a ha b hb he
    obtain ⟨v, hv, _⟩ := hL a ha
    obtain ⟨v', hv', _⟩ := hL b hb
    rw [hg a v hv, hg b v' hv'] at he
    subst he
    exact (List.getElem?_inj (List.getElem?_eq_some_iff.1 hv).1 hF.nodupW).1 (hv.trans hv'.symm)
  have h2 : (L.map fun i => F.wordList.getD i []) ⊆
      rivals agg F.nList F.filterN normalize F.wordList q w := by
    intro x hx
    obtain ⟨i, hi, rfl⟩ := List.mem_map.1 hx
    obtain ⟨v, hv, he, hne, hle⟩ := hL i hi
    rw [hg i v hv]
    exact List.mem_filter.2 ⟨List.mem_filter.2 ⟨List.mem_of_getElem? hv, by simpa using he⟩,
      by simpa using ⟨hne, hle⟩⟩
  have h3 := (List.subperm_of_subset h1 h2).length_le
  rw [List.length_map] at h3
  exact le_trans hk h3

/-- The words that are left after pruning. -/
structure SurvOk (agg : List ℚ → S) (m₀ F : WL) (normalize : Bool) (q : List Char) (k : ℕ)
    (cand : List ℕ) : Prop where
  sub : ∀ i ∈ cand, ∃ w, F.wordList[i]? = some w ∧ Eligible F.nList F.filterN q w
  all : ∀ w i, Complete m₀ w i → Eligible F.nList F.filterN q w →
    i ∈ cand ∨ Crowded agg F normalize k q w

theorem inj_words (hF : WLInv cf F) {i j : ℕ} {w : List Char} (hi : F.wordList[i]? = some w)
    (hj : F.wordList[j]? = some w) : i = j :=
  (List.getElem?_inj (List.getElem?_eq_some_iff.1 hi).1 hF.nodupW).1 (hi.trans hj.symm)

theorem pruning (h0 : Grows m₀ F) (hF : WLInv cf F) (hagg : MonotoneAgg agg) (hk : 1 ≤ k)
    {ms : Dict ℕ (List ℚ)} (hms : MinOk m₀ F q normalize ms) (hne : ms.length ≠ 0) :
    ∃ t, minAcceptable (ms.map fun p => agg p.2) k = .ok t ∧
      SurvOk agg m₀ F normalize q k (survivors agg ms t) := by
  have hs : ms.map (fun p => agg p.2) ≠ [] := by
    intro h
    rw [List.map_eq_nil_iff] at h
    rw [h] at hne; exact hne rfl
  obtain ⟨t, ht, hspec, _⟩ := minAcceptable_spec hk hs
  refine ⟨t, ht, ?_, ?_⟩
  · intro i hi
    obtain ⟨p, hp, rfl⟩ := List.mem_map.1 hi
    obtain ⟨w, hw, he, _⟩ := hms.sub p.1 p.2 (List.mem_filter.1 hp).1
    exact ⟨w, hw, he⟩
  · intro w i hcomp he
    have hmem := (hms.all w i hcomp _).2 ⟨he, rfl⟩
    by_cases hle : t ≤ agg ((lowerVec F.nList normalize q w).map fun x => x * 2)
    · exact Or.inl (List.mem_map.2 ⟨_, List.mem_filter.2 ⟨hmem, decide_eq_true hle⟩, rfl⟩)
    · right
      rw [hspec, not_lt, List.length_map] at hle
      obtain ⟨_, b2, b3⟩ := score_bounds F.nList normalize q w
      have hself := hagg _ _ b3
      set L := ms.filter fun p =>
        agg ((lowerVec F.nList normalize q w).map fun x => x * 2) < agg p.2 with hL
      have hlen : ((ms.map fun p => agg p.2).filter fun x =>
          agg ((lowerVec F.nList normalize q w).map fun x => x * 2) < x).length = L.length := by
        rw [List.filter_map, List.length_map]; rfl
      rw [hlen] at hle
      have hlt : L.length < ms.length := by
        refine lt_of_le_of_ne (List.length_filter_le _ _) ?_
        intro heq
        have hall := (List.length_filter_eq_length_iff (l := ms)).1 heq
        have := of_decide_eq_true (hall _ hmem)
        exact absurd hself (not_le.2 this)
      have hkL : k ≤ L.length := by omega
      refine crowded_of hF (L := L.map Prod.fst) ?_ ?_ (by rw [List.length_map]; exact hkL)
      · exact (List.filter_sublist.map Prod.fst).nodup hms.nodup
      · intro j hj
        obtain ⟨p, hp, rfl⟩ := List.mem_map.1 hj
        obtain ⟨hp1, hp2⟩ := List.mem_filter.1 hp
        have hp2 := of_decide_eq_true hp2
        obtain ⟨v, hv, hev, hb⟩ := hms.sub p.1 p.2 hp1
        obtain ⟨c1, _, _⟩ := score_bounds F.nList normalize q v
        refine ⟨v, hv, hev, ?_, ?_⟩
        · rintro rfl
          have hij := inj_words hF hv (hcomp.same h0 hF []).1
          have hpv : p = (i, p.2) := Prod.ext hij rfl
          rw [hpv] at hp1
          have := ((hms.all v i hcomp _).1 hp1).2
          rw [this] at hp2
          exact absurd hself (not_le.2 hp2)
        · exact le_trans (hagg _ _ b2) (le_trans hp2.le (le_trans (hagg _ _ hb) (hagg _ _ c1)))

/-- The row of a word after normalising. -/
def rowOf (F : WL) (q w : List Char) (normalize : Bool) (v : List ℚ) : List ℚ :=
  if normalize then F.nList.zipIdx.map fun nk => v.getD nk.2 0 / (denom nk.1 q w : ℚ) else v

theorem normalizeRow_eq (hF : WLInv cf F) (q : List Char) (normalize : Bool) {i : ℕ} {w : List Char}
    (hw : F.wordList[i]? = some w) {v : List ℚ} (hv : v.length = F.nList.length) :
    F.normalizeRow q normalize (i, v) =
      if normalize = true ∧ ∃ n ∈ F.nList, denom n q w = 0 then .error .zeroDivisionError
      else .ok (i, rowOf F q w normalize v) := by
  have hl : F.wordLens[i]? = some w.length := by rw [hF.lens, List.getElem?_map, hw]; rfl
  unfold WL.normalizeRow
  simp only [pyGet_ok' hl, bind, Except.bind, pure, Except.pure]
  cases normalize with
  | false => simp [rowOf]
  | true =>
    simp only [if_true, true_and, rowOf]
    have step : ∀ (l : List (ℤ × ℕ)), (∀ nk ∈ l, F.nList[nk.2]? = some nk.1) →
        l.mapM (fun nk => do
          let x ← pyGet v nk.2
          let den : ℤ := numGrams q.length nk.1 + numGrams w.length nk.1
          if den = 0 then throw PyErr.zeroDivisionError else return x / (den : ℚ)) =
        if ∃ n ∈ l.map Prod.fst, denom n q w = 0 then .error PyErr.zeroDivisionError
        else .ok (l.map (fun nk => v.getD nk.2 0 / (denom nk.1 q w : ℚ))) := by
      intro l hl
      induction l with
      | nil => simp [pure, Except.pure]
      | cons p l ih =>
        obtain ⟨n, k⟩ := p
        have hk := hl (n, k) (by simp)
        simp only at hk
        have hkl : k < v.length := by rw [hv]; exact (List.getElem?_eq_some_iff.1 hk).1
        have hx : v[k]? = some (v.getD k 0) := by
          rw [List.getD_eq_getElem?_getD, List.getElem?_eq_getElem hkl]; rfl
        rw [List.mapM_cons, ih (fun nk h => hl nk (by simp [h]))]
        simp only [pyGet_ok' hx, bind, Except.bind, ← denom_eq]
        by_cases hd : denom n q w = 0
        · have hex : ∃ m ∈ ((n, k) :: l).map Prod.fst, denom m q w = 0 := ⟨n, by simp, hd⟩
          rw [if_pos (c := denom n q w = 0) hd, if_pos hex]; rfl
        · rw [if_neg (c := denom n q w = 0) hd]
          by_cases hr : ∃ n ∈ l.map Prod.fst, denom n q w = 0
          · have hex : ∃ m ∈ ((n, k) :: l).map Prod.fst, denom m q w = 0 := by
              obtain ⟨a, ha, hb⟩ := hr
              exact ⟨a, by rw [List.map_cons]; exact List.mem_cons_of_mem _ ha, hb⟩
            rw [if_pos hr, if_pos hex]; rfl
          · have hex : ¬ ∃ m ∈ ((n, k) :: l).map Prod.fst, denom m q w = 0 := by
              rintro ⟨a, ha, hb⟩
              rw [List.map_cons, List.mem_cons] at ha
              rcases ha with rfl | ha
              · exact hd hb
              · exact hr ⟨a, ha, hb⟩
            rw [if_neg hr, if_neg hex]
            rfl
    have := step F.nList.zipIdx (fun nk h => List.mem_zipIdx_iff_getElem?.1 h)
    rw [List.zipIdx_map_fst] at this
    simp only [bind, Except.bind, pure, Except.pure] at this
    rw [this]
    by_cases hd : ∃ n ∈ F.nList, denom n q w = 0
    · rw [if_pos hd, if_pos hd]
    · rw [if_neg hd, if_neg hd]

theorem rowOf_le {w : List Char} {v : List ℚ}
    (h : List.Forall₂ (fun a b => 0 ≤ a ∧ a ≤ b) v (F.nList.map fun n => simN n q w)) :
    List.Forall₂ (fun a b => 0 ≤ a ∧ a ≤ b) (rowOf F q w normalize v)
      (scoreVec F.nList normalize q w) := by
  cases normalize with
  | false =>
    have : scoreVec F.nList false q w = F.nList.map fun n => simN n q w := by
      simp [scoreVec, scoreN]
    rw [this]; exact h
  | true =>
    rw [List.forall₂_iff_get] at h ⊢
    obtain ⟨hl, hb⟩ := h
    rw [List.length_map] at hl
    have hlen : (rowOf F q w true v).length = F.nList.length := by simp [rowOf]
    refine ⟨by rw [hlen]; simp [scoreVec], ?_⟩
    intro i h1 h2
    rw [hlen] at h1
    have hi := hb i (by omega) (by simpa using h1)
    simp only [List.get_eq_getElem, List.getElem_map, rowOf, if_true, List.getElem_zipIdx, zero_add,
      scoreVec, scoreN] at hi ⊢
    have hg : v.getD i 0 = v[i] := by
      rw [List.getD_eq_getElem?_getD, List.getElem?_eq_getElem (by omega)]; rfl
    rw [hg]
    by_cases hs : Shares F.nList[i] q w
    · have hd : (0 : ℚ) < denom F.nList[i] q w := by exact_mod_cast denom_pos_of_shares hs
      exact ⟨div_nonneg hi.1 hd.le, div_le_div_of_nonneg_right hi.2 hd.le⟩
    · have e := (not_shares_sums hs).2
      rw [e] at hi ⊢
      have : v[i] = 0 := le_antisymm hi.2 hi.1
      rw [this]; simp

theorem rowOf_eq {w : List Char} :
    rowOf F q w normalize (F.nList.map fun n => simN n q w) = scoreVec F.nList normalize q w := by
  cases normalize with
  | false => simp [rowOf, scoreVec, scoreN]
  | true =>
    apply List.ext_getElem
    · simp [rowOf, scoreVec]
    · intro i h1 h2
      have h3 : i < F.nList.length := by simpa [scoreVec] using h2
      simp [rowOf, scoreVec, scoreN, List.getD_eq_getElem?_getD, h3]

/-- The scored words. -/
structure ScoredOk (agg : List ℚ → S) (m₀ F : WL) (normalize : Bool) (q : List Char) (k : ℕ)
    (scored : List (ℕ × S)) : Prop where
  nodup : (scored.map Prod.fst).Nodup
  sub : ∀ i x, (i, x) ∈ scored → ∃ w, F.wordList[i]? = some w ∧ Eligible F.nList F.filterN q w ∧
    x ≤ agg (scoreVec F.nList normalize q w) ∧
    (Complete m₀ w i → x = agg (scoreVec F.nList normalize q w))
  all : ∀ w i, Complete m₀ w i → Eligible F.nList F.filterN q w →
    (∃ x, (i, x) ∈ scored) ∨ Crowded agg F normalize k q w

/-- The words with both scores. -/
structure ItemsOk (agg : List ℚ → S) (m₀ F : WL) (normalize : Bool) (q : List Char) (k : ℕ)
    (items : List (ℕ × (S ×ₗ ℚ))) : Prop where
  nodup : (items.map Prod.fst).Nodup
  sub : ∀ i y, (i, y) ∈ items → ∃ w, F.wordList[i]? = some w ∧ Eligible F.nList F.filterN q w ∧
    (ofLex y).1 ≤ agg (scoreVec F.nList normalize q w) ∧
    (Complete m₀ w i → (ofLex y).1 = agg (scoreVec F.nList normalize q w)) ∧
    nmd (.str q) (.str w) (.int 2) true normalize = .ok (ofLex y).2
  all : ∀ w i, Complete m₀ w i → Eligible F.nList F.filterN q w →
    (∃ y, (i, y) ∈ items) ∨ Crowded agg F normalize k q w

theorem scoring (hF : WLInv cf F) (hagg : MonotoneAgg agg) {cand : List ℕ}
    (hc : SurvOk agg m₀ F normalize q k cand) {ms : Dict ℕ (List ℚ)} (hms : MatchOk m₀ F q cand ms)
    {acc : List (ℕ × List ℚ)}
    (hacc : List.Forall₂ (fun p r => F.normalizeRow q normalize p = .ok r) ms acc) :
    ScoredOk agg m₀ F normalize q k (acc.map fun p => (p.1, agg p.2)) := by
  have key : ∀ p ∈ ms, ∀ r, F.normalizeRow q normalize p = .ok r → ∃ w, F.wordList[p.1]? = some w ∧
      r = (p.1, rowOf F q w normalize p.2) ∧
      List.Forall₂ (fun a b => 0 ≤ a ∧ a ≤ b) p.2 (F.nList.map fun n => simN n q w) := by
    intro p hp r hr
    obtain ⟨_, w, hw, hb⟩ := hms.sub p.1 p.2 hp
    have hlen : p.2.length = F.nList.length := by rw [hb.length_eq, List.length_map]
    rw [show p = (p.1, p.2) from rfl, normalizeRow_eq hF q normalize hw hlen] at hr
    split at hr
    · cases hr
    · injection hr with hr
      exact ⟨w, hw, hr.symm, hb⟩
  have hfst : acc.map Prod.fst = ms.map Prod.fst := by
    clear hms
    revert key
    induction hacc with
    | nil => intro _; rfl
    | @cons p r l l' h1 h2 ih =>
      intro key
      obtain ⟨w, _, hr, _⟩ := key p (by simp) r h1
      rw [List.map_cons, List.map_cons, hr, ih (fun p hp => key p (by simp [hp]))]
  have hmem : ∀ r ∈ acc, ∃ p ∈ ms, F.normalizeRow q normalize p = .ok r := by
    intro r hr
    exact f2_right hacc r hr
  refine ⟨?_, ?_, ?_⟩
  · rw [List.map_map]
    change (acc.map Prod.fst).Nodup
    rw [hfst]; exact hms.nodup
  · intro i x hx
    obtain ⟨r, hr, he⟩ := List.mem_map.1 hx
    obtain ⟨p, hp, hpr⟩ := hmem r hr
    obtain ⟨w, hw, hrow, hb⟩ := key p hp r hpr
    obtain ⟨hcand, _⟩ := hms.sub p.1 p.2 hp
    obtain ⟨w', hw', hel⟩ := hc.sub p.1 hcand
    rw [hw] at hw'; injection hw' with hw'; subst hw'
    injection he with h1 h2
    rw [hrow] at h1 h2
    simp only at h1 h2
    subst h1 h2
    refine ⟨w, hw, hel, hagg _ _ (rowOf_le hb), fun hcomp => ?_⟩
    have := ((hms.all w p.1 hcomp p.2).1 hp).2.2
    rw [this, rowOf_eq]
  · intro w i hcomp hel
    rcases hc.all w i hcomp hel with hi | hi
    · left
      have hp := (hms.all w i hcomp _).2 ⟨hi, hel.2, rfl⟩
      have : i ∈ acc.map Prod.fst := by
        rw [hfst]; exact List.mem_map.2 ⟨_, hp, rfl⟩
      obtain ⟨r, hr, rfl⟩ := List.mem_map.1 this
      exact ⟨_, List.mem_map.2 ⟨r, hr, rfl⟩⟩
    · exact Or.inr hi

/-- What is not among the first has many at least as good before it. -/
theorem notMem_mostCommon {T : Type} [LinearOrder T] {items : List (ℕ × T)} {n : ℕ} {p : ℕ × T}
    (hp : p ∈ items) (h : p ∉ mostCommon items n) :
    (mostCommon items n).length = n ∧ ∀ r ∈ mostCommon items n, p.2 ≤ r.2 := by
  unfold mostCommon at h ⊢
  have hs := sortDesc_pairwise Prod.snd items
  rw [← List.take_append_drop n (sortDesc Prod.snd items), List.pairwise_append] at hs
  have hd : p ∈ (sortDesc Prod.snd items).drop n := by
    have := (mem_sortDesc (key := Prod.snd)).2 hp
    rw [← List.take_append_drop n (sortDesc Prod.snd items), List.mem_append] at this
    exact this.resolve_left h
  refine ⟨?_, fun r hr => hs.2.2 r hr p hd⟩
  have := List.length_pos_of_mem hd
  rw [List.length_drop] at this
  rw [List.length_take]; omega

theorem choosing (h0 : Grows m₀ F) (hF : WLInv cf F) {scored : List (ℕ × S)}
    (hs : ScoredOk agg m₀ F normalize q k scored) {items : List (ℕ × (S ×ₗ ℚ))}
    (hit : List.Forall₂ (fun p r => r.1 = p.1 ∧ (ofLex r.2).1 = p.2 ∧ ∃ w, F.wordList[p.1]? = some w ∧
      nmd (.str q) (.str w) (.int 2) true normalize = .ok (ofLex r.2).2) (mostCommon scored (k * 2)) items) :
    ItemsOk agg m₀ F normalize q k items := by
  have hfst : items.map Prod.fst = (mostCommon scored (k * 2)).map Prod.fst := by
    exact f2_map (fun _ _ h => h.1) hit
  have hmem : ∀ r ∈ items, ∃ p ∈ mostCommon scored (k * 2), r.1 = p.1 ∧ (ofLex r.2).1 = p.2 ∧
      ∃ w, F.wordList[p.1]? = some w ∧
        nmd (.str q) (.str w) (.int 2) true normalize = .ok (ofLex r.2).2 := by
    exact f2_right hit
  refine ⟨?_, ?_, ?_⟩
  · rw [hfst]; exact nodup_take_sortDesc (f := Prod.fst) _ hs.nodup
  · intro i y hy
    obtain ⟨p, hp, h1, h2, w, hw, hn⟩ := hmem _ hy
    obtain ⟨w', hw', he, hle, hex⟩ := hs.sub p.1 p.2 (mem_of_mem_take_sortDesc hp)
    rw [hw] at hw'; injection hw' with hw'; subst hw'
    simp only at h1 h2 hn
    subst h1
    rw [h2]
    exact ⟨w, hw, he, hle, hex, hn⟩
  · intro w i hcomp hel
    rcases hs.all w i hcomp hel with ⟨x, hx⟩ | hcr
    · by_cases hmc : (i, x) ∈ mostCommon scored (k * 2)
      · left
        have : i ∈ items.map Prod.fst := by rw [hfst]; exact List.mem_map.2 ⟨_, hmc, rfl⟩
        obtain ⟨r, hr, rfl⟩ := List.mem_map.1 this
        exact ⟨r.2, hr⟩
      · right
        obtain ⟨hlen, hall⟩ := notMem_mostCommon hx hmc
        obtain ⟨w', hw', _, _, hxe⟩ := hs.sub i x hx
        have hw := (hcomp.same h0 hF []).1
        rw [hw] at hw'; injection hw' with hw'; subst hw'
        have hxe := hxe hcomp
        refine crowded_of hF (L := (mostCommon scored (k * 2)).map Prod.fst)
          (nodup_take_sortDesc (f := Prod.fst) _ hs.nodup) ?_ (by rw [List.length_map]; omega)
        intro j hj
        obtain ⟨p, hp, rfl⟩ := List.mem_map.1 hj
        have hps := (mem_of_mem_take_sortDesc hp : p ∈ scored)
        obtain ⟨v, hv, hev, hle, _⟩ := hs.sub p.1 p.2 hps
        refine ⟨v, hv, hev, ?_, ?_⟩
        · rintro rfl
          have hij := inj_words hF hv hw
          have hpx : p = (i, x) := by
            have h1 : (p.1, p.2) ∈ scored := hps
            rw [hij] at h1
            exact Prod.ext hij (snd_unique hs.nodup h1 hx)
          rw [hpx] at hp; exact hmc hp
        · rw [← hxe]; exact le_trans (hall p hp) hle
    · exact Or.inr hcr
where
  snd_unique {scored : List (ℕ × S)} (hn : (scored.map Prod.fst).Nodup) {i : ℕ} {x y : S}
      (hx : (i, x) ∈ scored) (hy : (i, y) ∈ scored) : x = y := by
    have := List.inj_on_of_nodup_map hn hx hy rfl
    exact (Prod.ext_iff.1 this).2

theorem result (h0 : Grows m₀ F) (hF : WLInv cf F) {items : List (ℕ × (S ×ₗ ℚ))}
    (hs : ItemsOk agg m₀ F normalize q k items) {res : List (List Char × (S ×ₗ ℚ))}
    (hit : List.Forall₂ (fun p r => F.wordList[p.1]? = some r.1 ∧ r.2 = p.2) (mostCommon items k) res)
    {stored : List Char → Prop} (hst : ∀ w, stored w → ∃ i, Complete m₀ w i) :
    Found agg F.nList F.filterN normalize stored F.wordList k q res := by
  have hmem : ∀ r ∈ res, ∃ p ∈ mostCommon items k, F.wordList[p.1]? = some r.1 ∧ r.2 = p.2 := by
    exact f2_right hit
  have hmem' : ∀ p ∈ mostCommon items k, ∃ r ∈ res, F.wordList[p.1]? = some r.1 ∧ r.2 = p.2 := by
    exact f2_left hit
  have hsnd : res.map Prod.snd = (mostCommon items k).map Prod.snd := by
    exact f2_map (fun _ _ h => h.2) hit
  have hsub : ∀ r ∈ res, ∃ i, F.wordList[i]? = some r.1 ∧ Eligible F.nList F.filterN q r.1 ∧
      (ofLex r.2).1 ≤ agg (scoreVec F.nList normalize q r.1) ∧
      (Complete m₀ r.1 i → (ofLex r.2).1 = agg (scoreVec F.nList normalize q r.1)) ∧
      nmd (.str q) (.str r.1) (.int 2) true normalize = .ok (ofLex r.2).2 := by
    intro r hr
    obtain ⟨p, hp, hw, he⟩ := hmem r hr
    obtain ⟨w, hw', h1, h2, h3, h4⟩ := hs.sub p.1 p.2 (mem_of_mem_take_sortDesc hp)
    rw [hw] at hw'; injection hw' with hw'; subst hw'
    rw [he]
    exact ⟨p.1, hw, h1, h2, h3, h4⟩
  refine ⟨?_, ?_, ?_, ?_, ?_, ?_⟩
  · have hn : ((mostCommon items k).map Prod.fst).Nodup := nodup_take_sortDesc (f := Prod.fst) _ hs.nodup
    refine f2_nodup (fun a b a' b' h h' he => ?_) hit hn
    have h1 := h.1
    rw [he] at h1
    exact inj_words hF h1 h'.1
  · rw [← hit.length_eq]; unfold mostCommon; rw [List.length_take]; omega
  · have : (res.map Prod.snd).Pairwise fun a b => b ≤ a := by
      rw [hsnd, List.pairwise_map]
      exact (sortDesc_pairwise Prod.snd items).sublist (List.take_sublist _ _)
    rwa [List.pairwise_map] at this
  · intro r hr
    obtain ⟨i, hw, h1, h2, _, h4⟩ := hsub r hr
    exact ⟨List.mem_of_getElem? hw, h1, h2, h4⟩
  · intro r hr hsr
    obtain ⟨i, hw, _, _, h3, _⟩ := hsub r hr
    obtain ⟨j, hj⟩ := hst _ hsr
    have := inj_words hF hw (hj.same h0 hF []).1
    subst this
    exact h3 hj
  · intro w hsw hel hno
    obtain ⟨i, hcomp⟩ := hst w hsw
    have hw := (hcomp.same h0 hF []).1
    rcases hs.all w i hcomp hel with ⟨y, hy⟩ | hcr
    · have hmc : (i, y) ∉ mostCommon items k := by
        intro hmc
        obtain ⟨r, hr, h1, _⟩ := hmem' _ hmc
        rw [hw] at h1; injection h1 with h1
        exact hno (List.mem_map.2 ⟨r, hr, h1.symm⟩)
      obtain ⟨hlen, hall⟩ := notMem_mostCommon hy hmc
      obtain ⟨w', hw', _, _, hye, _⟩ := hs.sub i y hy
      rw [hw] at hw'; injection hw' with hw'; subst hw'
      have hye := hye hcomp
      refine crowded_of hF (L := (mostCommon items k).map Prod.fst)
        (nodup_take_sortDesc (f := Prod.fst) _ hs.nodup) ?_ (by rw [List.length_map]; omega)
      intro j hj
      obtain ⟨p, hp, rfl⟩ := List.mem_map.1 hj
      have hps := (mem_of_mem_take_sortDesc hp : p ∈ items)
      obtain ⟨v, hv, hev, hle, _⟩ := hs.sub p.1 p.2 hps
      refine ⟨v, hv, hev, ?_, ?_⟩
      · rintro rfl
        have hij := inj_words hF hv hw
        have hpx : p = (i, y) := List.inj_on_of_nodup_map hs.nodup hps hy hij
        rw [hpx] at hp; exact hmc hp
      · rw [← hye]
        refine le_trans ?_ hle
        rcases Prod.Lex.le_iff.1 (hall p hp) with h' | h'
        · exact h'.le
        · exact h'.1.le
    · exact hcr

end ListConc
end Verif
