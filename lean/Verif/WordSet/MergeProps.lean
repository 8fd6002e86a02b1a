import Verif.WordSet.IncrProps

/-!
# Property C214: searching parts of a word set and merging the answers
-/

namespace Verif

open GramSpec WordSetSpec IndexSpec

section lists

variable {α S : Type} [LinearOrder S]

theorem sortDesc_three (key : α → S) (t : S) (l : List α) :
    sortDesc key l = sortDesc key (l.filter (fun x => t < key x)) ++
      l.filter (fun x => key x = t) ++ sortDesc key (l.filter (fun x => key x < t)) := by
  apply eq_of_sorted_stable (sortDesc_pairwise key _)
  · have h1 : ∀ a ∈ sortDesc key (l.filter (fun x => t < key x)), t < key a := fun a ha => by
      simpa using (List.mem_filter.1 (mem_sortDesc.1 ha)).2
    have h2 : ∀ a ∈ l.filter (fun x => key x = t), key a = t := fun a ha => by
      simpa using (List.mem_filter.1 ha).2
    have h3 : ∀ a ∈ sortDesc key (l.filter (fun x => key x < t)), key a < t := fun a ha => by
      simpa using (List.mem_filter.1 (mem_sortDesc.1 ha)).2
    rw [List.pairwise_append, List.pairwise_append]
    refine ⟨⟨sortDesc_pairwise key _, ?_, fun a ha b hb => ?_⟩, sortDesc_pairwise key _,
      fun a ha b hb => ?_⟩
    · apply List.Pairwise.imp_of_mem (R := fun _ _ => True)
      · intro a b ha hb _
        rw [h2 a ha, h2 b hb]
      · exact List.pairwise_of_forall (fun _ _ => trivial)
    · rw [h2 b hb]; exact (h1 a ha).le
    · rcases List.mem_append.1 ha with ha | ha
      · exact ((h3 b hb).trans (h1 a ha)).le
      · rw [h2 a ha]; exact (h3 b hb).le
  · intro c
    simp only [List.filter_append, sortDesc_stable, List.filter_filter]
    have e : ∀ (p : α → Bool), (∀ x ∈ l, p x = false) → l.filter p = [] := fun p hp => by
      rw [List.filter_eq_nil_iff]
      intro x hx
      simp [hp x hx]
    have f : ∀ (p : α → Bool), (∀ x ∈ l, p x = decide (key x = c)) →
        l.filter p = l.filter (fun x => key x = c) := fun p hp => List.filter_congr hp
    rcases lt_trichotomy c t with h | h | h
    · rw [e (fun x => decide (key x = c) && decide (t < key x)),
        e (fun x => decide (key x = c) && decide (key x = t)),
        f (fun x => decide (key x = c) && decide (key x < t))]
      · rfl
      all_goals
        intro x _
        by_cases hx : key x = c
        · simp [hx, h, h.ne, h.le]
        · simp [hx]
    · rw [e (fun x => decide (key x = c) && decide (t < key x)),
        f (fun x => decide (key x = c) && decide (key x = t)),
        e (fun x => decide (key x = c) && decide (key x < t))]
      · simp
      all_goals
        intro x _
        by_cases hx : key x = c
        · simp [hx, h]
        · simp [hx]
    · rw [f (fun x => decide (key x = c) && decide (t < key x)),
        e (fun x => decide (key x = c) && decide (key x = t)),
        e (fun x => decide (key x = c) && decide (key x < t))]
      · simp
      all_goals
        intro x _
        by_cases hx : key x = c
        · simp [hx, h, h.ne', h.le]
        · simp [hx]

/-- An element that comes after `k` others that are as good does not matter. -/
theorem best_remove {key : α → S} {k : ℕ} {A B : List α} {d : α}
    (h : k ≤ (A.filter (fun a => key d ≤ key a)).length) :
    best key k (A ++ d :: B) = best key k (A ++ B) := by
  rw [best_eq, best_eq, sortDesc_three key (key d) (A ++ d :: B),
    sortDesc_three key (key d) (A ++ B)]
  have e1 : (A ++ d :: B).filter (fun x => key d < key x) = (A ++ B).filter (fun x => key d < key x) := by
    simp [List.filter_append]
  have e2 : (A ++ d :: B).filter (fun x => key x = key d) =
      A.filter (fun x => key x = key d) ++ d :: B.filter (fun x => key x = key d) := by
    simp [List.filter_append]
  have e3 : (A ++ B).filter (fun x => key x = key d) =
      A.filter (fun x => key x = key d) ++ B.filter (fun x => key x = key d) := by
    simp [List.filter_append]
  rw [e1, e2, e3]
  set X := sortDesc key ((A ++ B).filter (fun x => key d < key x)) with hX
  have hlen : k ≤ (X ++ A.filter (fun x => key x = key d)).length := by
    rw [List.length_append, hX, length_sortDesc, List.filter_append, List.length_append]
    have : (A.filter (fun a => key d ≤ key a)).length =
        (A.filter (fun a => key d < key a)).length + (A.filter (fun a => key a = key d)).length := by
      clear h e1 e2 e3 hX X
      induction A with
      | nil => rfl
      | cons a A ih =>
        rcases lt_trichotomy (key d) (key a) with h | h | h
        · simp only [List.filter_cons, h, h.le, h.ne', decide_true, decide_false, if_true,
            List.length_cons, ih]
          simp; omega
        · simp only [List.filter_cons, h, le_refl, lt_irrefl, decide_true, decide_false, if_true,
            List.length_cons]
          rw [h] at ih
          simp [ih]; omega
        · simp only [List.filter_cons, not_le.2 h, not_lt.2 h.le, h.ne, decide_false]
          simpa using ih
    omega
  simp only [List.append_assoc]
  rw [← List.append_assoc X, ← List.append_assoc X, List.take_append_of_le_length hlen,
    List.take_append_of_le_length hlen]

theorem best_remove_all {key : α → S} {k : ℕ} {A B : List α} : ∀ D : List α,
    (∀ d ∈ D, k ≤ (A.filter (fun a => key d ≤ key a)).length) →
    best key k (A ++ (D ++ B)) = best key k (A ++ B) := by
  intro D
  induction D with
  | nil => intro _; rfl
  | cons d D ih =>
    intro h
    rw [List.cons_append, best_remove (h d (by simp)),
      ih (fun x hx => h x (List.mem_cons_of_mem _ hx))]

theorem sortDesc_inner (key : α → S) (A B C : List α) :
    sortDesc key (A ++ sortDesc key B ++ C) = sortDesc key (A ++ B ++ C) := by
  apply eq_of_sorted_stable (sortDesc_pairwise key _) (sortDesc_pairwise key _)
  intro c
  simp only [sortDesc_stable, List.filter_append]

/-- Merging the best of parts gives the best of the whole. -/
theorem best_part {key : α → S} (k : ℕ) (A B C : List α) :
    best key k (A ++ best key k B ++ C) = best key k (A ++ B ++ C) := by
  have h1 : best key k (A ++ B ++ C) =
      best key k (A ++ (best key k B ++ (sortDesc key B).drop k) ++ C) := by
    rw [best_eq, best_eq, best_eq, List.take_append_drop, sortDesc_inner]
  rw [h1]
  have h2 := best_remove_all (key := key) (k := k) (A := A ++ best key k B) (B := C)
    ((sortDesc key B).drop k) (by
      intro d hd
      have hall : (best key k B).filter (fun a => key d ≤ key a) = best key k B := by
        rw [List.filter_eq_self]
        intro a ha
        simpa using take_drop_dominate (sortDesc_pairwise key B) ha hd
      rw [List.filter_append, List.length_append, hall, best_eq, List.length_take]
      have : k < (sortDesc key B).length := by
        by_contra hc
        rw [List.drop_eq_nil_of_le (by omega)] at hd
        cases hd
      omega)
  rw [← h2]
  congr 1
  simp only [List.append_assoc]

theorem best_merge {key : α → S} (k : ℕ) (A B : List α) :
    best key k (best key k A ++ best key k B) = best key k (A ++ B) := by
  have h1 := best_part (key := key) k [] A (best key k B)
  have h2 := best_part (key := key) k A B []
  simp only [List.nil_append, List.append_nil] at h1 h2
  rw [h1, h2]

end lists

variable {cf : List Char → List Char} {un : Normalizer}

theorem members_of_orig {key : List Char → Option (List Char)} : ∀ {l l' : List Member},
    (∀ m ∈ l, key m.orig = some m.key) → (∀ m ∈ l', key m.orig = some m.key) →
    l.map Member.orig = l'.map Member.orig → l = l' := by
  intro l
  induction l with
  | nil =>
    intro l' _ _ h
    cases l' with
    | nil => rfl
    | cons m l' => simp at h
  | cons m l ih =>
    intro l' h1 h2 h
    cases l' with
    | nil => simp at h
    | cons m' l' =>
      simp only [List.map_cons, List.cons.injEq] at h
      rw [ih (fun x hx => h1 x (List.mem_cons_of_mem _ hx))
        (fun x hx => h2 x (List.mem_cons_of_mem _ hx)) h.2]
      have a := h1 m (by simp)
      have b := h2 m' (by simp)
      rw [h.1, b] at a
      injection a with a
      congr 1
      cases m; cases m'
      simp only at h a
      rw [h.1, a]

theorem find_nil {st : WS} (h : WSReachable cf un st) {qs : List Char} {k : PyVal} {ms : MinSim}
    {r : List (List Char × ℚ)} (hr : st.findSimilar cf un (.str qs) k ms = .ok r)
    (hq : qs = [] ∨ st.key cf un qs = some []) : r = [] := by
  obtain ⟨qs', kz, h1, -, -, h2⟩ := find_ok h hr
  injection h1 with h1
  subst h1
  rcases h2 with ⟨-, h2⟩ | ⟨-, h2⟩ | ⟨nq, a, b, c, -⟩
  · exact h2
  · exact h2
  · rcases hq with hq | hq
    · exact absurd hq a
    · rw [hq] at c; injection c with c; exact absurd c.symm b

theorem find_some {st : WS} (h : WSReachable cf un st) {qs nq : List Char} {k : ℤ} {ms : MinSim}
    {r : List (List Char × ℚ)} (hr : st.findSimilar cf un (.str qs) (.int k) ms = .ok r)
    (hq : qs ≠ []) (hn : nq ≠ []) (hk : st.key cf un qs = some nq) :
    r = best (fun x => x.2) k.toNat
      (((st.members cf un).filter (fun m => Candidate st.sizes nq m.key)).map
        (fun m => (m.orig, score st.sizes nq m.key))) := by
  have e : ∀ s j, ranked st.sizes nq s j = best (fun m : Member => score st.sizes nq m.key) j
      (s.filter (fun m => Candidate st.sizes nq m.key)) := fun _ _ => rfl
  rw [best_map, ← e]
  obtain ⟨qs', kz, h1, h3, -, h2⟩ := find_ok h hr
  injection h1 with h1
  injection h3 with h3
  subst h1 h3
  rcases h2 with ⟨h4, h2⟩ | ⟨h4, h2⟩ | ⟨nq', a, b, c, d⟩
  · rcases h4 with h4 | h4
    · exact absurd h4 hq
    · rw [hk] at h4; injection h4 with h4; exact absurd h4 hn
  · rw [h2, h4]; simp [ranked]
  · rw [hk] at c; injection c with c; subst c; exact d

/-- **C214.** A collection of words divided over two sets can be searched part by part: if the words of
`u` are those of `a` followed by those of `b`, the answer of `u` is the merge of the answers of `a`
and `b`, that is the `k` best of both with those of `a` first among equal scores. -/
theorem C214_merge {u a b : WS} (hu : WSReachable cf un u) (ha : WSReachable cf un a)
    (hb : WSReachable cf un b) (hca : a.caseSensitive = u.caseSensitive) (hsa : a.sizes = u.sizes)
    (hcb : b.caseSensitive = u.caseSensitive) (hsb : b.sizes = u.sizes)
    (hi : u.iter = a.iter ++ b.iter) {q : PyVal} {k : ℤ} {ms : MinSim}
    {ru ra rb : List (List Char × ℚ)} (hru : u.findSimilar cf un q (.int k) ms = .ok ru)
    (hra : a.findSimilar cf un q (.int k) ms = .ok ra)
    (hrb : b.findSimilar cf un q (.int k) ms = .ok rb) :
    ru = best (fun r => r.2) k.toNat (ra ++ rb) := by
  have hka : ∀ w, a.key cf un w = u.key cf un w := fun w => by unfold WS.key; rw [hca]
  have hkb : ∀ w, b.key cf un w = u.key cf un w := fun w => by unfold WS.key; rw [hcb]
  have hm : u.members cf un = a.members cf un ++ b.members cf un := by
    apply members_of_orig (key := u.key cf un) (fun m hm => (hu.rep.keys m hm).1)
    · intro m hm
      rcases List.mem_append.1 hm with hm | hm
      · rw [← hka]; exact (ha.rep.keys m hm).1
      · rw [← hkb]; exact (hb.rep.keys m hm).1
    · rw [List.map_append, ← hu.rep.iter, ← ha.rep.iter, ← hb.rep.iter, hi]
  obtain ⟨qs, kz, rfl, hz, -, h1⟩ := find_ok hu hru
  injection hz with hz
  subst hz
  have hnil : ∀ l : List (List Char × ℚ), l = [] → best (fun r => r.2) k.toNat l = [] := by
    rintro _ rfl; simp [best]
  rcases h1 with ⟨h1, rfl⟩ | ⟨h1, rfl⟩ | ⟨nq, hq, hn, hk, -⟩
  · rw [find_nil ha hra (by rwa [hka]), find_nil hb hrb (by rwa [hkb])]
    exact (hnil _ rfl).symm
  · rw [hm, List.append_eq_nil_iff] at h1
    have key : ∀ {s : WS} {r}, WSReachable cf un s → s.members cf un = [] →
        s.findSimilar cf un (.str qs) (.int k) ms = .ok r → r = [] := by
      intro s r hs h0 hr
      obtain ⟨_, _, _, _, _, h2⟩ := find_ok hs hr
      rcases h2 with ⟨-, h2⟩ | ⟨-, h2⟩ | ⟨nq, -, -, -, h2⟩
      · exact h2
      · exact h2
      · rw [h2, h0]; simp [ranked]
    rw [key ha h1.1 hra, key hb h1.2 hrb]
    exact (hnil _ rfl).symm
  · rw [find_some hu hru hq hn hk, find_some ha hra hq hn (by rwa [hka]),
      find_some hb hrb hq hn (by rwa [hkb]), hm, hsa, hsb, List.filter_append, List.map_append,
      best_merge]

example :
    let a := demoSet id true [2, 3] ["night".toList, "light".toList]
    let b := demoSet id true [2, 3] ["nacht".toList, "sight".toList]
    let u := demoSet id true [2, 3]
      ["night".toList, "light".toList, "nacht".toList, "sight".toList]
    u.iter = a.iter ++ b.iter ∧
    (a.findSimilar id none (.str "right".toList) (.int 2) .none).map (List.map Prod.fst) =
      .ok ["night".toList, "light".toList] ∧
    (b.findSimilar id none (.str "right".toList) (.int 2) .none).map (List.map Prod.fst) =
      .ok ["sight".toList, "nacht".toList] ∧
    (u.findSimilar id none (.str "right".toList) (.int 2) .none).map (List.map Prod.fst) =
      .ok ["night".toList, "light".toList] := by
  decide +kernel

end Verif
