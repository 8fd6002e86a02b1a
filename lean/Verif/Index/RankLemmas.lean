import Verif.Index.History
import Verif.Index.RankSpec

/-!
# Lemmas for the exact result of a lookup
-/

namespace Verif

open GramSpec IndexSpec

section lists

variable {α β : Type} {S : Type} [LinearOrder S]

theorem mem_firsts [DecidableEq α] {l : List α} {a : α} : a ∈ firsts l ↔ a ∈ l := by
  induction l with
  | nil => simp [firsts]
  | cons b l ih =>
    simp only [firsts, List.mem_cons, List.mem_filter, decide_eq_true_eq, ih]
    by_cases h : a = b <;> simp [h]

theorem nodup_firsts [DecidableEq α] (l : List α) : (firsts l).Nodup := by
  induction l with
  | nil => exact List.nodup_nil
  | cons b l ih =>
    rw [firsts, List.nodup_cons]
    exact ⟨by simp, ih.filter _⟩

theorem firsts_filter [DecidableEq α] (p : α → Bool) (l : List α) :
    firsts (l.filter p) = (firsts l).filter p := by
  induction l with
  | nil => rfl
  | cons a l ih =>
    by_cases h : p a = true
    · rw [List.filter_cons_of_pos h, firsts, ih, firsts, List.filter_cons_of_pos h, List.filter_comm]
    · rw [List.filter_cons_of_neg h, ih, firsts, List.filter_cons_of_neg h, List.filter_filter]
      apply List.filter_congr
      intro b _
      by_cases hb : b = a
      · subst hb; simp [h]
      · simp [hb]

theorem firsts_append_singleton [DecidableEq α] (l : List α) (a : α) :
    firsts (l ++ [a]) = if a ∈ l then firsts l else firsts l ++ [a] := by
  induction l with
  | nil => rfl
  | cons b l ih =>
    rw [List.cons_append, firsts, ih, firsts]
    by_cases h : a = b
    · subst h
      simp only [List.mem_cons_self, if_true]
      split
      · rfl
      · rw [List.filter_append]; simp
    · by_cases h' : a ∈ l
      · rw [if_pos h', if_pos (List.mem_cons_of_mem _ h')]
      · rw [if_neg h', if_neg (by simp [h, h']), List.filter_append]
        simp [h]

theorem firsts_map [DecidableEq α] [DecidableEq β] {f : α → β} {l : List α}
    (h : ∀ a ∈ l, ∀ b ∈ l, f a = f b → a = b) : firsts (l.map f) = (firsts l).map f := by
  induction l with
  | nil => rfl
  | cons a l ih =>
    rw [List.map_cons, firsts, firsts, List.map_cons,
      ih (fun x hx y hy => h x (List.mem_cons_of_mem _ hx) y (List.mem_cons_of_mem _ hy)),
      List.filter_map]
    congr 2
    apply List.filter_congr
    intro b hb
    have hb' : b ∈ l := mem_firsts.1 hb
    simp only [Function.comp]
    rw [decide_eq_decide, not_iff_not]
    exact ⟨fun he => h b (List.mem_cons_of_mem _ hb') a List.mem_cons_self he, fun he => by rw [he]⟩

theorem firsts_twice [DecidableEq α] (l : List α) :
    firsts (l.flatMap (fun a => [a, a])) = firsts l := by
  induction l with
  | nil => rfl
  | cons a l ih =>
    rw [List.flatMap_cons, List.cons_append, List.cons_append, List.nil_append, firsts, firsts, ih,
      firsts]
    simp

theorem eq_of_sorted_stable {key : α → S} : ∀ {A B : List α},
    A.Pairwise (fun a b => key b ≤ key a) → B.Pairwise (fun a b => key b ≤ key a) →
    (∀ c, A.filter (fun x => key x = c) = B.filter (fun x => key x = c)) → A = B := by
  intro A
  induction A with
  | nil =>
    intro B _ _ h
    cases B with
    | nil => rfl
    | cons b B => have := h (key b); simp at this
  | cons a A ih =>
    intro B hA hB h
    cases B with
    | nil => have := h (key a); simp at this
    | cons b B =>
      rw [List.pairwise_cons] at hA hB
      have hab : key a = key b := by
        have h1 : a ∈ (b :: B) := by
          have : a ∈ (a :: A).filter (fun x => key x = key a) := by simp
          rw [h] at this; exact List.mem_of_mem_filter this
        have h2 : b ∈ (a :: A) := by
          have : b ∈ (b :: B).filter (fun x => key x = key b) := by simp
          rw [← h] at this; exact List.mem_of_mem_filter this
        apply le_antisymm
        · rcases List.mem_cons.1 h1 with rfl | h1
          · exact le_refl _
          · exact hB.1 a h1
        · rcases List.mem_cons.1 h2 with rfl | h2
          · exact le_refl _
          · exact hA.1 b h2
      have hhead := h (key a)
      rw [List.filter_cons_of_pos (by simp), List.filter_cons_of_pos (by simp [hab])] at hhead
      obtain ⟨rfl, _⟩ := List.cons.inj hhead
      congr 1
      apply ih hA.2 hB.2
      intro c
      have hc := h c
      by_cases hk : key a = c
      · rw [List.filter_cons_of_pos (by simp [hk]), List.filter_cons_of_pos (by simp [hk])] at hc
        exact (List.cons.inj hc).2
      · rw [List.filter_cons_of_neg (by simp [hk]), List.filter_cons_of_neg (by simp [hk])] at hc
        exact hc

theorem sortDesc_append {key : α → S} {A B : List α} (h : ∀ a ∈ A, ∀ b ∈ B, key b ≤ key a) :
    sortDesc key (A ++ B) = sortDesc key A ++ sortDesc key B := by
  apply eq_of_sorted_stable (sortDesc_pairwise key _)
  · rw [List.pairwise_append]
    exact ⟨sortDesc_pairwise key _, sortDesc_pairwise key _, fun a ha b hb =>
      h a (mem_sortDesc.1 ha) b (mem_sortDesc.1 hb)⟩
  · intro c
    rw [sortDesc_stable, List.filter_append, List.filter_append, sortDesc_stable, sortDesc_stable]

theorem sortDesc_split (key : α → S) (t : S) (l : List α) :
    sortDesc key l = sortDesc key (l.filter (fun x => t ≤ key x)) ++
      sortDesc key (l.filter (fun x => key x < t)) := by
  apply eq_of_sorted_stable (sortDesc_pairwise key _)
  · rw [List.pairwise_append]
    refine ⟨sortDesc_pairwise key _, sortDesc_pairwise key _, fun a ha b hb => ?_⟩
    have h1 := (List.mem_filter.1 (mem_sortDesc.1 ha)).2
    have h2 := (List.mem_filter.1 (mem_sortDesc.1 hb)).2
    rw [decide_eq_true_eq] at h1 h2
    exact le_of_lt (lt_of_lt_of_le h2 h1)
  · intro c
    rw [sortDesc_stable, List.filter_append, sortDesc_stable, sortDesc_stable, List.filter_filter,
      List.filter_filter]
    by_cases h : t ≤ c
    · rw [(List.filter_eq_nil_iff (l := l) (p := fun a => decide (key a = c) && decide (key a < t))).2,
        List.append_nil]
      · apply List.filter_congr
        intro x _
        by_cases hx : key x = c
        · simp [hx, h]
        · simp [hx]
      · intro x _ hx
        simp only [Bool.and_eq_true, decide_eq_true_eq] at hx
        rw [hx.1] at hx
        exact absurd h (not_le.2 hx.2)
    · rw [(List.filter_eq_nil_iff (l := l) (p := fun a => decide (key a = c) && decide (t ≤ key a))).2,
        List.nil_append]
      · apply List.filter_congr
        intro x _
        by_cases hx : key x = c
        · simp [hx, not_le.1 h]
        · simp [hx]
      · intro x _ hx
        simp only [Bool.and_eq_true, decide_eq_true_eq] at hx
        rw [hx.1] at hx
        exact h hx.2

theorem sortDesc_map (f : α → β) (key : β → S) (l : List α) :
    sortDesc key (l.map f) = (sortDesc (fun a => key (f a)) l).map f := by
  apply eq_of_sorted_stable (sortDesc_pairwise key _)
  · rw [List.pairwise_map]; exact sortDesc_pairwise _ _
  · intro c
    rw [sortDesc_stable, List.filter_map, List.filter_map]
    congr 1
    exact (sortDesc_stable (fun a => key (f a)) l c).symm

theorem best_eq (key : α → S) (k : ℕ) (l : List α) : best key k l = (sortDesc key l).take k := rfl

theorem best_map (f : α → β) (key : β → S) (k : ℕ) (l : List α) :
    best key k (l.map f) = (best (fun a => key (f a)) k l).map f := by
  rw [best_eq, sortDesc_map, ← List.map_take]; rfl

theorem mem_best {key : α → S} {k : ℕ} {l : List α} {a : α} (h : a ∈ best key k l) : a ∈ l :=
  mem_of_mem_take_sortDesc h

/-- The best `k` by a refined key among the best `m ≥ k` by the coarse key depend only on the
elements that reach a threshold, if enough of them do. -/
theorem best_best_split {T : Type} [LinearOrder T] {f : α → S} {g : α → T}
    (hfg : ∀ a b, f b < f a → g b ≤ g a) {k m : ℕ} (hkm : k ≤ m) (D : List α) (t : S)
    (hmany : min k D.length ≤ (D.filter (fun x => t ≤ f x)).length) :
    best g k (best f m D) = best g k (best f m (D.filter (fun x => t ≤ f x))) := by
  simp only [best_eq]
  rw [sortDesc_split f t D, List.take_append]
  set H := D.filter (fun x => t ≤ f x) with hH
  set L := D.filter (fun x => f x < t) with hL
  rw [sortDesc_append, List.take_append]
  · have hlen : ((sortDesc f H).take m).length = min m H.length := length_take_sortDesc _ _ _
    by_cases hc : k ≤ H.length
    · have h0 : k - (sortDesc g ((sortDesc f H).take m)).length = 0 := by
        rw [length_sortDesc, hlen]; omega
      rw [h0, List.take_zero, List.append_nil]
    · have hD : H.length = D.length := by
        have := List.length_filter_le (fun x => decide (t ≤ f x)) D
        rw [← hH] at this; omega
      have hHD : H = D := by
        rw [hH]; exact List.filter_sublist.eq_of_length hD
      have hL0 : L = [] := by
        rw [hL, List.filter_eq_nil_iff]
        intro x hx hlt
        rw [← hHD, hH, List.mem_filter] at hx
        simp only [decide_eq_true_eq] at hx hlt
        exact absurd hx.2 (not_le.2 hlt)
      rw [hL0]
      simp [sortDesc]
  · intro a ha b hb
    have h1 := (List.mem_filter.1 (mem_sortDesc.1 (List.mem_of_mem_take ha))).2
    have h2 := (List.mem_filter.1 (mem_sortDesc.1 (List.mem_of_mem_take hb))).2
    rw [decide_eq_true_eq] at h1 h2
    exact hfg a b (lt_of_lt_of_le h2 h1)

/-- Sorting by a coarser key first does not change the result. -/
theorem sortDesc_sortDesc {T : Type} [LinearOrder T] {f : α → S} {g : α → T}
    (hgf : ∀ a b, g a = g b → f a = f b) (D : List α) :
    sortDesc g (sortDesc f D) = sortDesc g D := by
  apply eq_of_sorted_stable (sortDesc_pairwise g _) (sortDesc_pairwise g _)
  intro c
  rw [sortDesc_stable, sortDesc_stable]
  by_cases h : ∃ a ∈ D, g a = c
  · obtain ⟨a, _, ha⟩ := h
    have e : ∀ l : List α, l.filter (fun x => g x = c) =
        (l.filter (fun x => f x = f a)).filter (fun x => g x = c) := by
      intro l
      rw [List.filter_filter]
      apply List.filter_congr
      intro x _
      by_cases hx : g x = c
      · simp [hx, hgf x a (hx.trans ha.symm)]
      · simp [hx]
    rw [e, sortDesc_stable, ← e]
  · have e : ∀ l : List α, (∀ x ∈ l, x ∈ D) → l.filter (fun x => g x = c) = [] := by
      intro l hl
      rw [List.filter_eq_nil_iff]
      intro x hx hc
      exact h ⟨x, hl x hx, by simpa using hc⟩
    rw [e _ (fun x hx => mem_sortDesc.1 hx), e _ (fun x hx => hx)]

theorem best_of_length_le (key : α → S) {k : ℕ} {l : List α} (h : l.length ≤ k) :
    best key k l = sortDesc key l := by
  rw [best_eq, List.take_of_length_le (by rw [length_sortDesc]; exact h)]

/-- Without a long tie at the cut, the detour through the best `m` does not matter. -/
theorem best_best_ideal {T : Type} [LinearOrder T] {f : α → S} {g : α → T}
    (hfg : ∀ a b, f b < f a → g b ≤ g a) (hgf : ∀ a b, g a = g b → f a = f b) {k m : ℕ}
    (hkm : k ≤ m) (D : List α)
    (htie : ∀ w ∈ D, (D.filter (fun v => f w < f v)).length < k →
      (D.filter (fun v => f w ≤ f v)).length ≤ m) :
    best g k (best f m D) = best g k D := by
  by_cases hD : D.length ≤ m
  · rw [best_of_length_le f hD, best_eq, sortDesc_sortDesc hgf]; rfl
  rcases Nat.eq_zero_or_pos k with rfl | hk
  · simp [best_eq]
  have hlen : k - 1 < ((sortDesc f D).map f).length := by
    rw [List.length_map, length_sortDesc]; omega
  have hpw : ((sortDesc f D).map f).Pairwise (fun a b => b ≤ a) := by
    rw [List.pairwise_map]; exact sortDesc_pairwise f D
  have hcount : ∀ P : S → Prop, ∀ [DecidablePred P],
      (((sortDesc f D).map f).filter (fun x => P x)).length =
        (D.filter (fun v => P (f v))).length := by
    intro P _
    rw [List.filter_map, List.length_map, ((sortDesc_perm f D).filter _).length_eq]
    rfl
  have h1 := (getElem_le_iff hpw hlen (((sortDesc f D).map f)[k - 1])).1 (le_refl _)
  have h2 := succ_le_length_filter_ge hpw hlen
  obtain ⟨w, hw, hws⟩ := List.mem_map.1 (List.getElem_mem hlen)
  rw [← hws, hcount (fun x => f w < x)] at h1
  rw [← hws, hcount (fun x => f w ≤ x)] at h2
  have h3 := htie w (mem_sortDesc.1 hw) (by omega)
  have hmany : min k D.length ≤ (D.filter (fun x => f w ≤ f x)).length := by omega
  rw [best_best_split hfg hkm D (f w) hmany, best_of_length_le f h3]
  have e : best g k D = best g k (best f (D.length + k) D) := by
    rw [best_of_length_le f (by omega), best_eq, best_eq, sortDesc_sortDesc hgf]
  rw [e, best_best_split hfg (by omega) D (f w) hmany, best_of_length_le f (l := List.filter _ _)]
  exact le_trans (List.length_filter_le _ _) (by omega)

theorem sortDesc_filter (key : α → S) (p : α → Bool) (l : List α) :
    sortDesc key (l.filter p) = (sortDesc key l).filter p := by
  apply eq_of_sorted_stable (sortDesc_pairwise key _)
    ((sortDesc_pairwise key _).sublist List.filter_sublist)
  intro c
  rw [sortDesc_stable, List.filter_comm, List.filter_comm (l := sortDesc key l), sortDesc_stable]

theorem take_filter_of_one (p : α → Bool) : ∀ (l : List α) (k : ℕ),
    (l.filter (fun x => !p x)).length ≤ 1 → (l.filter p).take k = ((l.take (k + 1)).filter p).take k
  | [], k, _ => by simp
  | a :: l, 0, _ => by simp
  | a :: l, k + 1, h => by
    by_cases ha : p a = true
    · rw [List.filter_cons_of_pos ha, List.take_succ_cons, List.take_succ_cons,
        List.filter_cons_of_pos ha, List.take_succ_cons]
      congr 1
      apply take_filter_of_one
      rwa [List.filter_cons_of_neg (by simp [ha])] at h
    · rw [List.filter_cons_of_pos (by simp [ha])] at h
      have h0 : l.filter (fun x => !p x) = [] := by
        rw [← List.length_eq_zero_iff]; simpa using h
      have h1 : ∀ x ∈ l, p x = true := by
        intro x hx
        by_contra hp
        have : x ∈ l.filter (fun x => !p x) := List.mem_filter.2 ⟨hx, by simpa using hp⟩
        rw [h0] at this; cases this
      rw [List.filter_cons_of_neg ha, List.take_succ_cons, List.filter_cons_of_neg ha,
        List.filter_eq_self.2 h1, List.filter_eq_self.2 (fun x hx => h1 x (List.mem_of_mem_take hx)),
        List.take_take, Nat.min_eq_left (by omega)]

end lists

variable {cf : List Char → List Char} {st : WL}

/-- The postings in the order of insertion. -/
def WL.Ordered (st : WL) : Prop :=
  ∀ g, (Dict.get? st.ngramPositions g).getD [] = posEntries st.nList st.wordList g

theorem ordered_inserted (hi : WLInv cf st) (ho : st.Ordered) (w : List Char) :
    (st.inserted w).Ordered := by
  intro g
  rw [inserted_eq]
  simp only
  rw [getD_foldl_appendTo, filter_gramItems hi.nodupN hi.posN, posEntries_append, ho g]
  unfold posEntry
  split <;> simp

theorem ordered_addWord (hcf : ∀ w, cf (cf w) = cf w) (hi : WLInv cf st) (ho : st.Ordered)
    (v : PyVal) : (st.addWord cf v).1.Ordered := by
  rw [addWord_cases hcf hi]
  cases v with
  | int i => exact ho
  | other => exact ho
  | str w =>
    simp only
    split
    · exact ho
    split
    · exact ho
    split
    · exact ho
    split
    · exact ho
    · exact ordered_inserted hi ho _

theorem WL.Reachable.ordered (hcf : ∀ w, cf (cf w) = cf w) (h : st.Reachable cf) : st.Ordered := by
  obtain ⟨n, cs, fn, st₀, ops, h0, rfl⟩ := h
  induction ops using List.reverseRecOn with
  | nil =>
    intro g
    have hi := WLInv.new (cf := cf) h0
    have hp := hi.positions g
    have hw : st₀.wordList = [] := by
      unfold WL.new at h0
      cases hm : mkNList n with
      | error e => rw [hm] at h0; cases h0
      | ok ns => rw [hm] at h0; cases h0; rfl
    have : posEntries st₀.nList st₀.wordList g = [] := by rw [hw]; rfl
    rw [this] at hp
    show _ = posEntries st₀.nList st₀.wordList g
    rw [this]
    exact hp.eq_nil
  | append_singleton ops op ih =>
    rw [run_append_singleton]
    cases op with
    | add v => exact ordered_addWord hcf ((WLInv.new h0).run hcf ops) ih v
    | lookup _ _ _ => exact ih

theorem keys_accum (N : ℕ) (ev : List Event) :
    Dict.keys (accum N [] ev) = firsts (ev.map Prod.fst) := by
  induction ev using List.reverseRecOn with
  | nil => rfl
  | append_singleton ev e ih =>
    rw [accum_append_singleton, bump, Dict.keys_set, ih, List.map_append, List.map_cons,
      List.map_nil, firsts_append_singleton]
    simp only [mem_firsts]

theorem keys_group {κ ν : Type} [DecidableEq κ] (l : List (κ × ν)) :
    Dict.keys (Dict.group l) = firsts (l.map Prod.fst) := by
  induction l using List.reverseRecOn with
  | nil => rfl
  | append_singleton l e ih =>
    have : Dict.group (l ++ [e]) = Dict.appendTo (Dict.group l) e.1 e.2 := by
      simp [Dict.group]
    rw [this, Dict.appendTo, Dict.keys_set, ih, List.map_append, List.map_cons, List.map_nil,
      firsts_append_singleton]
    simp only [mem_firsts]

/-- Word indices in the order in which the second pass comes across them. -/
def WL.metIdx (st : WL) (q : List Char) : List ℕ :=
  st.nList.flatMap (fun n => (firsts (gramsOf n q)).flatMap (fun g =>
    (posEntries st.nList st.wordList g).map Prod.fst))

/-- Words in the order in which the second pass comes across them. -/
def WL.metWords (st : WL) (q : List Char) : List (List Char) :=
  st.nList.flatMap (fun n => (firsts (gramsOf n q)).flatMap (fun g =>
    st.wordList.filter (fun w => g ∈ gramsOf n w)))

/-- The word at an index. -/
def WL.wordAt (st : WL) (i : ℕ) : List Char := st.wordList.getD i []

theorem wordAt_eq {i : ℕ} {w : List Char} (h : st.wordList[i]? = some w) : st.wordAt i = w := by
  simp only [WL.wordAt, List.getD_eq_getElem?_getD, h, Option.getD_some]

theorem metIdx_map (hi : WLInv cf st) (q : List Char) :
    (st.metIdx q).map st.wordAt = st.metWords q := by
  unfold WL.metIdx WL.metWords
  rw [List.map_flatMap]
  apply List.flatMap_congr
  intro n hn
  rw [List.map_flatMap]
  apply List.flatMap_congr
  intro g hg
  rw [mem_firsts, ← getNGrams_eq_gramsOf] at hg
  have hlen := getNGrams_length (hi.posN n hn) hg
  rw [List.map_map]
  unfold posEntries
  rw [List.map_filterMap]
  have : ∀ p ∈ st.wordList.zipIdx, Option.map (st.wordAt ∘ Prod.fst) (posEntry st.nList g p.1 p.2) =
      if g ∈ gramsOf n p.1 then some p.1 else none := by
    rintro ⟨w, i⟩ hp
    have hw := wordAt_eq (List.mem_zipIdx_iff_getElem?.1 hp)
    unfold posEntry
    simp only [hlen, hn, true_and, getNGrams_eq_gramsOf]
    split
    · simp [hw]
    · rfl
  rw [List.filterMap_congr this]
  conv_rhs => rw [← List.zipIdx_map_fst 0 st.wordList, List.filter_map]
  generalize st.wordList.zipIdx = l
  induction l with
  | nil => rfl
  | cons p l ih =>
    by_cases h : g ∈ gramsOf n p.1
    · simp [h, ih]
    · simp [h, ih]

theorem mem_metIdx {q : List Char} {i : ℕ} (h : i ∈ st.metIdx q) :
    st.wordList[i]? = some (st.wordAt i) := by
  unfold WL.metIdx at h
  obtain ⟨n, _, h⟩ := List.mem_flatMap.1 h
  obtain ⟨g, _, h⟩ := List.mem_flatMap.1 h
  obtain ⟨e, he, rfl⟩ := List.mem_map.1 h
  obtain ⟨w, hw, _⟩ := mem_posEntries.1 he
  rw [wordAt_eq hw, hw]

theorem wordAt_inj (hi : WLInv cf st) {i j : ℕ} (h1 : st.wordList[i]? = some (st.wordAt i))
    (h2 : st.wordList[j]? = some (st.wordAt j)) (h : st.wordAt i = st.wordAt j) : i = j := by
  rw [← h] at h2
  exact (List.getElem?_inj (List.getElem?_eq_some_iff.1 h1).1 hi.nodupW).1 (h1.trans h2.symm)

theorem firsts_metIdx (hi : WLInv cf st) (q : List Char) :
    (firsts (st.metIdx q)).map st.wordAt = firsts (st.metWords q) := by
  rw [← metIdx_map hi, firsts_map]
  intro a ha b hb h
  exact wordAt_inj hi (mem_metIdx ha) (mem_metIdx hb) h

theorem matchEvents_fst (ho : st.Ordered) (q : List Char) (possible : List ℕ) :
    firsts ((st.matchEvents q possible).map Prod.fst) =
      (firsts (st.metIdx q)).filter (fun i => i ∈ possible) := by
  rw [← firsts_filter, ← firsts_twice (List.filter _ _)]
  congr 1
  unfold WL.matchEvents WL.metIdx
  rw [List.map_flatMap, List.filter_flatMap, List.flatMap_assoc]
  conv_rhs => rw [← List.zipIdx_map_fst 0 st.nList, List.flatMap_map]
  apply List.flatMap_congr
  rintro ⟨n, k⟩ _
  simp only
  rw [List.map_flatMap, List.filter_flatMap, List.flatMap_assoc, Dict.group_eq_map,
    List.flatMap_map, keys_group, map_fst_locatedOf, getNGrams_eq_gramsOf]
  apply List.flatMap_congr
  intro g _
  simp only
  rw [ho g, List.map_flatMap, List.zipIdx_map_fst]
  generalize posEntries st.nList st.wordList g = l
  induction l with
  | nil => rfl
  | cons e l ih =>
    rw [List.flatMap_cons, List.map_cons, ih]
    by_cases h : e.1 ∈ possible
    · simp [h]
    · simp [h]

theorem normalizeRow_fst {q : List Char} {normalize : Bool} {p r : ℕ × List ℚ}
    (h : st.normalizeRow q normalize p = .ok r) : r.1 = p.1 := by
  unfold WL.normalizeRow at h
  cases h1 : pyGet st.wordLens p.1 with
  | error e => rw [h1] at h; cases h
  | ok len =>
    rw [h1] at h
    simp only [bind, Except.bind] at h
    cases normalize with
    | false =>
      simp only [Bool.false_eq_true, if_false, pure, Except.pure] at h
      injection h with h; rw [h]
    | true =>
      simp only [if_true] at h
      split at h
      · cases h
      · simp only [pure, Except.pure] at h
        injection h with h; rw [← h]

theorem mapM_fst {f : ℕ × List ℚ → Except PyErr (ℕ × List ℚ)}
    (hf : ∀ p r, f p = .ok r → r.1 = p.1) : ∀ {l m : List (ℕ × List ℚ)}, l.mapM f = .ok m →
    m.map Prod.fst = l.map Prod.fst := by
  intro l
  induction l with
  | nil => intro m h; cases h; rfl
  | cons a l ih =>
    intro m h
    rw [List.mapM_cons] at h
    cases h1 : f a with
    | error e => rw [h1] at h; cases h
    | ok r =>
      cases h2 : l.mapM f with
      | error e => rw [h1, h2] at h; cases h
      | ok rs =>
        rw [h1, h2] at h
        cases h
        simp [hf a r h1, ih h2]

/-- The order of the scored words. -/
theorem lookupSimilarity_order (ho : st.Ordered) {S : Type} [LinearOrder S] {agg : List ℚ → S}
    {q : List Char} {k : ℕ} {normalize : Bool} {scored : List (ℕ × S)}
    (h : st.lookupSimilarity agg q k normalize = .ok scored) :
    ∃ possible : List ℕ, scored.map Prod.fst =
      (firsts (st.metIdx q)).filter (fun i => i ∈ possible) := by
  unfold WL.lookupSimilarity at h
  simp only [bind, Except.bind] at h
  split at h
  · cases h
  simp only [pure, Except.pure] at h
  split at h
  · cases h
  rename_i ms _
  split at h
  · injection h with h
    exact ⟨[], by rw [← h]; simp⟩
  split at h
  · cases h
  rename_i t _
  split at h
  · cases h
  rename_i sc hsc
  split at h
  · cases h
  rename_i normed hnorm
  injection h with h
  refine ⟨survivors agg ms t, ?_⟩
  have hne : ∀ n ∈ st.nList, (getNGrams q n).length ≠ 1 := by
    intro n hn h1
    rw [matchScores_error q _ ⟨n, hn, h1⟩] at hsc
    cases hsc
  rw [matchScores_ok q _ hne] at hsc
  injection hsc with hsc
  rw [← h, List.map_map, show (Prod.fst ∘ fun p : ℕ × List ℚ => (p.1, agg p.2)) = Prod.fst from rfl,
    mapM_fst (fun p r => normalizeRow_fst) hnorm, ← hsc]
  rw [show (accum st.nList.length [] (st.matchEvents q (survivors agg ms t))).map Prod.fst =
    Dict.keys (accum st.nList.length [] (st.matchEvents q (survivors agg ms t))) from rfl,
    keys_accum, matchEvents_fst ho]

theorem discovered_eq (q : List Char) :
    discovered st.nList st.filterN q st.wordList =
      (firsts (st.metWords q)).filter (fun w => Eligible st.nList st.filterN q w) := by
  rw [← firsts_filter, WL.metWords, List.filter_flatMap, discovered]
  congr 1
  apply List.flatMap_congr
  intro n _
  rw [List.filter_flatMap]
  apply List.flatMap_congr
  intro g _
  rw [eligibleWords, List.filter_comm]

theorem discovered_perm (ns : List ℤ) (filterN : ℤ) (q : List Char) {words : List (List Char)}
    (hn : words.Nodup) : (discovered ns filterN q words).Perm (eligibleWords ns filterN q words) := by
  refine (List.perm_ext_iff_of_nodup (nodup_firsts _) (hn.filter _)).2 ?_
  intro w
  rw [mem_firsts, List.mem_flatMap]
  constructor
  · rintro ⟨n, _, h⟩
    obtain ⟨g, _, h⟩ := List.mem_flatMap.1 h
    exact (List.mem_filter.1 h).1
  · intro h
    have h' := (List.mem_filter.1 h).2
    rw [decide_eq_true_eq] at h'
    obtain ⟨n, hn, g, hg, hw⟩ := h'.2
    refine ⟨n, hn, List.mem_flatMap.2 ⟨g, mem_firsts.2 hg, ?_⟩⟩
    exact List.mem_filter.2 ⟨h, by simpa using hw⟩

theorem nodup_discovered (ns : List ℤ) (filterN : ℤ) (q : List Char) (words : List (List Char)) :
    (discovered ns filterN q words).Nodup := nodup_firsts _

variable {S : Type} [LinearOrder S]

/-- The scored words, in order. -/
theorem lookupSimilarity_exact (hi : WLInv cf st) (ho : st.Ordered) {agg : List ℚ → S}
    (hagg : MonotoneAgg agg) (q : List Char) {k : ℕ} (hk : 1 ≤ k) (normalize : Bool)
    (hfail : ¬ LookupFails agg st.nList st.filterN normalize st.wordList k q) :
    ∃ L : List ℕ, st.lookupSimilarity agg q k normalize =
        .ok (L.map (fun i => (i, agg (scoreVec st.nList normalize q (st.wordAt i))))) ∧
      (∀ i ∈ L, st.wordList[i]? = some (st.wordAt i)) ∧
      L.map st.wordAt = (discovered st.nList st.filterN q st.wordList).filter
        (fun w => ¬ Outranked agg st.nList st.filterN normalize q st.wordList k w) ∧
      ∃ t : S, (∀ w ∈ discovered st.nList st.filterN q st.wordList,
          Outranked agg st.nList st.filterN normalize q st.wordList k w →
          agg (scoreVec st.nList normalize q w) < t) ∧
        min k (discovered st.nList st.filterN q st.wordList).length ≤
          ((discovered st.nList st.filterN q st.wordList).filter
            (fun w => t ≤ agg (scoreVec st.nList normalize q w))).length := by
  obtain ⟨scored, hsc, hperm, t, hlow, hmany⟩ :=
    (lookupSimilarity_spec hi hagg q hk normalize).2 hfail
  obtain ⟨possible, hord⟩ := lookupSimilarity_order ho hsc
  have hmem : ∀ i, i ∈ scored.map Prod.fst ↔
      (st.wordAt i, i) ∈ st.unpruned agg q k normalize := by
    intro i
    constructor
    · intro h
      obtain ⟨p, hp, rfl⟩ := List.mem_map.1 h
      obtain ⟨⟨w, j⟩, hp', rfl⟩ := List.mem_map.1 (hperm.mem_iff.1 hp)
      have hw := (mem_eligible.1 (List.mem_of_mem_filter hp')).1
      simp only
      rw [wordAt_eq hw]; exact hp'
    · intro h
      exact List.mem_map.2 ⟨_, hperm.mem_iff.2 (List.mem_map.2 ⟨_, h, rfl⟩), rfl⟩
  have hdperm := discovered_perm st.nList st.filterN q hi.nodupW
  refine ⟨scored.map Prod.fst, ?_, ?_, ?_, t, ?_, ?_⟩
  · rw [hsc]
    congr 1
    rw [List.map_map]
    conv_lhs => rw [← List.map_id scored]
    apply List.map_congr_left
    intro p hp
    obtain ⟨⟨w, j⟩, hp', rfl⟩ := List.mem_map.1 (hperm.mem_iff.1 hp)
    have hw := (mem_eligible.1 (List.mem_of_mem_filter hp')).1
    simp [wordAt_eq hw]
  · intro i h
    exact (mem_eligible.1 (List.mem_of_mem_filter ((hmem i).1 h))).1
  · rw [discovered_eq, ← firsts_metIdx hi, List.filter_filter, List.filter_map, hord]
    congr 1
    apply List.filter_congr
    intro i hi'
    have hw := mem_metIdx (mem_firsts.1 hi')
    have h1 : i ∈ possible ↔ i ∈ scored.map Prod.fst := by
      rw [hord, List.mem_filter]; simp [hi']
    have h2 : i ∈ possible ↔
        ¬ Outranked agg st.nList st.filterN normalize q st.wordList k (st.wordAt i) ∧
          Eligible st.nList st.filterN q (st.wordAt i) := by
      rw [h1, hmem, WL.unpruned, List.mem_filter, mem_eligible]
      simp [hw, and_comm]
    simp only [Function.comp, h2, Bool.decide_and]
  · intro w hw hout
    have hw' := hdperm.mem_iff.1 hw
    rw [← eligible_map_fst] at hw'
    obtain ⟨p, hp, rfl⟩ := List.mem_map.1 hw'
    apply hlow p hp
    intro h
    have := (List.mem_filter.1 h).2
    simp only [decide_eq_true_eq] at this
    exact this hout
  · rw [(hdperm.filter _).length_eq, hdperm.length_eq, ← eligible_map_fst, List.length_map,
      List.filter_map, List.length_map]
    refine le_trans hmany ?_
    apply List.Sublist.length_le
    exact List.filter_sublist.filter _

/-- The result of a lookup is a full scan of the words that were not pruned. -/
theorem lookup_exact_pruned (hi : WLInv cf st) {agg : List ℚ → S}
    {w q : List Char} {k : ℤ} (hw : w ≠ []) (hk : 0 < k) (hf : st.fold cf w = q) (hq : Clean q)
    (normalize : Bool) {L : List ℕ} (hL : st.lookupSimilarity agg q k.toNat normalize =
        .ok (L.map (fun i => (i, agg (scoreVec st.nList normalize q (st.wordAt i))))))
    (hL2 : ∀ i ∈ L, st.wordList[i]? = some (st.wordAt i)) :
    st.lookup agg cf (.str w) (.int k) normalize =
      .ok ((best (rankPair agg st.nList normalize q) k.toNat
        (best (fun w => agg (scoreVec st.nList normalize q w)) (2 * k.toNat)
          (L.map st.wordAt))).map (fun w => (w, rankPair agg st.nList normalize q w))) := by
  unfold WL.lookup
  rw [checkLookup_ok hw hk hf hq]
  simp only [bind, Except.bind]
  rw [hL]
  simp only
  generalize k.toNat = K
  have e1 : mostCommon (L.map (fun i => (i, agg (scoreVec st.nList normalize q (st.wordAt i)))))
      (K * 2) = (best (fun i => agg (scoreVec st.nList normalize q (st.wordAt i))) (2 * K) L).map
        (fun i => (i, agg (scoreVec st.nList normalize q (st.wordAt i)))) := by
    unfold mostCommon
    rw [sortDesc_map, ← List.map_take, Nat.mul_comm]; rfl
  rw [e1]
  have hr : ∀ i ∈ L, ∀ s : S, st.rescore q normalize (i, s) =
      .ok (i, toLex (s, bigramSim normalize q (st.wordAt i))) := by
    intro i hi' s
    obtain ⟨x, hx, hr⟩ := rescore_ok hi hq normalize (hL2 i hi') s
    rw [hr]; unfold bigramSim; rw [hx]
  set B := best (fun i => agg (scoreVec st.nList normalize q (st.wordAt i))) (2 * K) L with hB
  rw [mapM_ok (g := fun p : ℕ × S => (p.1, toLex (p.2, bigramSim normalize q (st.wordAt p.1)))) _
    (by
      intro p hp
      obtain ⟨i, hi', rfl⟩ := List.mem_map.1 hp
      exact hr i (mem_best hi') _)]
  simp only
  rw [List.map_map]
  have e2 : mostCommon (B.map ((fun p : ℕ × S =>
      (p.1, (toLex (p.2, bigramSim normalize q (st.wordAt p.1)) : S ×ₗ ℚ))) ∘
      fun i => (i, agg (scoreVec st.nList normalize q (st.wordAt i))))) K =
      (best (fun i => rankPair agg st.nList normalize q (st.wordAt i)) K B).map
        (fun i => (i, rankPair agg st.nList normalize q (st.wordAt i))) := by
    unfold mostCommon
    rw [sortDesc_map, ← List.map_take]; rfl
  rw [e2, mapM_ok (g := fun p : ℕ × (S ×ₗ ℚ) => (st.wordAt p.1, p.2)) _ (by
      intro p hp
      obtain ⟨i, hi', rfl⟩ := List.mem_map.1 hp
      rw [pyGet_ok' (hL2 i (mem_best (mem_best hi')))]; rfl)]
  rw [best_map, best_map, List.map_map, List.map_map]
  rfl

theorem rankPair_le {agg : List ℚ → S} {ns : List ℤ} {normalize : Bool} {q a b : List Char}
    (h : agg (scoreVec ns normalize q b) < agg (scoreVec ns normalize q a)) :
    rankPair agg ns normalize q b ≤ rankPair agg ns normalize q a :=
  Prod.Lex.le_iff.2 (Or.inl h)

/-- The result of a lookup, including the order of ties. -/
theorem lookup_exact (hi : WLInv cf st) (ho : st.Ordered) {agg : List ℚ → S}
    (hagg : MonotoneAgg agg) {w q : List Char} {k : ℤ} (hw : w ≠ []) (hk : 0 < k)
    (hf : st.fold cf w = q) (hq : Clean q) (normalize : Bool)
    (hfail : ¬ LookupFails agg st.nList st.filterN normalize st.wordList k.toNat q) :
    st.lookup agg cf (.str w) (.int k) normalize =
      .ok ((fullScan agg st.nList st.filterN normalize st.wordList k.toNat q).map
        (fun w => (w, rankPair agg st.nList normalize q w))) := by
  obtain ⟨L, hL, hL2, hW, t, ht1, ht2⟩ :=
    lookupSimilarity_exact hi ho hagg q (show 1 ≤ k.toNat by omega) normalize hfail
  rw [lookup_exact_pruned hi hw hk hf hq normalize hL hL2, hW]
  unfold fullScan
  generalize discovered st.nList st.filterN q st.wordList = D at *
  set P : List Char → Bool := fun w =>
    decide (¬ Outranked agg st.nList st.filterN normalize q st.wordList k.toNat w) with hP
  have hcomm : (D.filter P).filter (fun x => t ≤ agg (scoreVec st.nList normalize q x)) =
      D.filter (fun x => t ≤ agg (scoreVec st.nList normalize q x)) := by
    rw [List.filter_filter]
    apply List.filter_congr
    intro x hx
    by_cases hp : P x = true
    · simp [hp]
    · have : Outranked agg st.nList st.filterN normalize q st.wordList k.toNat x := by
        simpa [hP] using hp
      have := ht1 x hx this
      simp [not_le.2 this]
  rw [best_best_split (fun a b h => rankPair_le h) (by omega) D t ht2,
    best_best_split (fun a b h => rankPair_le h) (by omega) (D.filter P) t, hcomm]
  rw [hcomm]
  have := List.length_filter_le P D
  omega

/-- The result of a V5 lookup, including the order of ties. -/
theorem lookupV5_exact [Ring S] (hi : WLInv cf st) (ho : st.Ordered) {agg : List ℚ → S}
    (hagg : MonotoneAgg agg) {w q : List Char} {k : ℤ} (hw : w ≠ []) (hk : 0 < k)
    (hf : st.fold cf w = q) (hq : Clean q) (invert normalize : Bool)
    (hfail : ¬ LookupFails agg st.nList st.filterN normalize st.wordList k.toNat q) :
    st.lookupV5 agg cf (.str w) (.int k) invert normalize =
      .ok (sortDesc Prod.snd ((best (fun w => agg (scoreVec st.nList normalize q w)) (2 * k.toNat)
        ((discovered st.nList st.filterN q st.wordList).filter (fun w =>
          ¬ Outranked agg st.nList st.filterN normalize q st.wordList k.toNat w))).map (fun w =>
            (w, if invert then agg (scoreVec st.nList normalize q w)
              else (if normalize then 1 else 0) - agg (scoreVec st.nList normalize q w))))) := by
  obtain ⟨L, hL, hL2, hW, _⟩ :=
    lookupSimilarity_exact hi ho hagg q (show 1 ≤ k.toNat by omega) normalize hfail
  unfold WL.lookupV5
  rw [checkLookup_ok hw hk hf hq]
  simp only [bind, Except.bind]
  rw [hL]
  simp only
  rw [← hW]
  generalize k.toNat = K
  have e1 : mostCommon (L.map (fun i => (i, agg (scoreVec st.nList normalize q (st.wordAt i)))))
      (K * 2) = (best (fun i => agg (scoreVec st.nList normalize q (st.wordAt i))) (2 * K) L).map
        (fun i => (i, agg (scoreVec st.nList normalize q (st.wordAt i)))) := by
    unfold mostCommon
    rw [sortDesc_map, ← List.map_take, Nat.mul_comm]; rfl
  rw [e1, mapM_ok (g := fun p : ℕ × S => (st.wordAt p.1,
    if invert then p.2 else (if normalize then 1 else 0) - p.2)) _ (by
      intro p hp
      obtain ⟨i, hi', rfl⟩ := List.mem_map.1 hp
      rw [pyGet_ok' (hL2 i (mem_best hi'))]; rfl)]
  rw [best_map, List.map_map, List.map_map]
  rfl

theorem checkLookup_inv {word topK : PyVal} {q : List Char} {K : ℕ}
    (h : st.checkLookup cf word topK = .ok (q, K)) :
    ∃ w k, word = .str w ∧ topK = .int k ∧ w ≠ [] ∧ 0 < k ∧ Clean (st.fold cf w) ∧
      q = st.fold cf w ∧ K = k.toNat := by
  unfold WL.checkLookup at h
  cases word with
  | int i => cases h
  | other => cases h
  | str w =>
    simp only at h
    split at h
    · cases h
    rename_i hw
    cases topK with
    | str s => cases h
    | other => cases h
    | int k =>
      simp only at h
      split at h
      · cases h
      rename_i hk
      split at h
      · cases h
      rename_i hcl
      rw [not_or] at hcl
      injection h with h
      injection h with h1 h2
      exact ⟨w, k, rfl, rfl, by simpa using hw, not_le.1 hk, hcl, h1.symm, h2.symm⟩

/-! ### Only the eligible words matter -/

theorem discovered_congr {ns : List ℤ} {filterN : ℤ} {q : List Char} {ws ws' : List (List Char)}
    (h : eligibleWords ns filterN q ws = eligibleWords ns filterN q ws') :
    discovered ns filterN q ws = discovered ns filterN q ws' := by
  unfold discovered; rw [h]

theorem outranked_congr {agg : List ℚ → S} {ns : List ℤ} {filterN : ℤ} {normalize : Bool}
    {q : List Char} {ws ws' : List (List Char)} {k : ℕ}
    (h : eligibleWords ns filterN q ws = eligibleWords ns filterN q ws') (w : List Char) :
    Outranked agg ns filterN normalize q ws k w ↔ Outranked agg ns filterN normalize q ws' k w := by
  unfold Outranked; rw [h]

theorem lookupFails_congr {agg : List ℚ → S} {ns : List ℤ} {filterN : ℤ} {normalize : Bool}
    {q : List Char} {ws ws' : List (List Char)} {k : ℕ}
    (h : eligibleWords ns filterN q ws = eligibleWords ns filterN q ws') :
    LookupFails agg ns filterN normalize ws k q ↔ LookupFails agg ns filterN normalize ws' k q := by
  have key : ∀ us vs : List (List Char),
      eligibleWords ns filterN q us = eligibleWords ns filterN q vs →
      LookupFails agg ns filterN normalize us k q → LookupFails agg ns filterN normalize vs k q := by
    intro us vs h hf
    have hm : ∀ w, w ∈ us → Eligible ns filterN q w → w ∈ vs := by
      intro w hw he
      have : w ∈ eligibleWords ns filterN q us := List.mem_filter.2 ⟨hw, by simpa using he⟩
      rw [h] at this
      exact List.mem_of_mem_filter this
    obtain ⟨⟨w, hw, he⟩, hf⟩ := hf
    refine ⟨⟨w, hm w hw he, he⟩, ?_⟩
    rcases hf with hf | ⟨hn, v, hv, hve, ho, hd⟩
    · exact Or.inl hf
    · exact Or.inr ⟨hn, v, hm v hv hve, hve, fun hc => ho ((outranked_congr h v).2 hc), hd⟩
  exact ⟨key _ _ h, key _ _ h.symm⟩

end Verif
