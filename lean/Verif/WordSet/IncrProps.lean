import Verif.WordSet.Props
import Verif.Index.RankLemmas

/-!
# Properties C207 and C208: how the answers of a word set depend on `k` and on single words
-/

namespace Verif

open GramSpec WordSetSpec

variable {cf : List Char → List Char} {un : Normalizer}

/-- Without one member, the ranking is the longer ranking without that member. -/
theorem ranked_delete {ns : List ℕ} {q : List Char} {s : List Member}
    (hs : (s.map Member.key).Nodup) (kv : List Char) (k : ℕ) :
    ranked ns q (delete s kv) k =
      ((ranked ns q s (k + 1)).filter (fun m => m.key ≠ kv)).take k := by
  have e : ∀ s k, ranked ns q s k = (sortDesc (fun m : Member => score ns q m.key)
      (s.filter (fun m => Candidate ns q m.key))).take k := fun _ _ => rfl
  rw [e, e, delete, List.filter_comm, sortDesc_filter, take_filter_of_one]
  rw [((sortDesc_perm _ _).filter _).length_eq]
  have h1 : ((s.filter (fun m => Candidate ns q m.key)).filter
      (fun x => !decide (x.key ≠ kv))).length ≤ (s.filter (fun m => m.key = kv)).length := by
    rw [List.filter_comm]
    refine le_trans (List.length_filter_le _ _) (le_of_eq ?_)
    congr 2
    funext m
    simp
  refine le_trans h1 ?_
  have h2 : (s.filter (fun m => m.key = kv)).length = (s.map Member.key).count kv := by
    rw [List.count, List.countP_map, List.countP_eq_length_filter]
    congr 2
    funext m
    simp [Function.comp, beq_eq_decide]
  rw [h2]
  exact List.nodup_iff_count_le_one.1 hs kv

/-- The value of a search that does not raise. -/
theorem find_ok {st : WS} (h : WSReachable cf un st) {q k : PyVal} {ms : MinSim}
    {r : List (List Char × ℚ)} (hr : st.findSimilar cf un q k ms = .ok r) :
    ∃ qs kz, q = .str qs ∧ k = .int kz ∧ 0 < kz ∧
      ((qs = [] ∨ st.key cf un qs = some []) ∧ r = [] ∨
        st.members cf un = [] ∧ r = [] ∨
        ∃ nq, qs ≠ [] ∧ nq ≠ [] ∧ st.key cf un qs = some nq ∧
          r = (ranked st.sizes nq (st.members cf un) kz.toNat).map
            (fun m => (m.orig, score st.sizes nq m.key))) := by
  rw [h.rep.findSimilar] at hr
  unfold absFind at hr
  cases q with
  | int i => cases k <;> cases hr
  | other => cases k <;> cases hr
  | str qs =>
    cases k with
    | str s => cases hr
    | other => cases hr
    | int kz =>
      simp only at hr
      split at hr
      · cases hr
      rename_i h1
      rw [not_or] at h1
      refine ⟨qs, kz, rfl, rfl, not_le.1 h1.1, ?_⟩
      split at hr
      · rename_i h2
        injection hr with hr
        rcases h2 with h2 | h2
        · exact Or.inl ⟨Or.inl h2, hr.symm⟩
        · exact Or.inr (Or.inl ⟨h2, hr.symm⟩)
      rename_i h2
      rw [not_or] at h2
      cases hk : st.key cf un qs with
      | none => rw [hk] at hr; cases hr
      | some nq =>
        rw [hk] at hr
        simp only at hr
        split at hr
        · rename_i h3
          injection hr with hr
          subst h3
          exact Or.inl ⟨Or.inr rfl, hr.symm⟩
        · rename_i h3
          injection hr with hr
          exact Or.inr (Or.inr ⟨nq, h2.1, h3, rfl, hr.symm⟩)

/-- The answers of two sets to one query, related through their rankings. -/
theorem find_relate {st st' : WS} (h : WSReachable cf un st) (h' : WSReachable cf un st')
    (hkey : ∀ w, st'.key cf un w = st.key cf un w) {F : List (List Char × ℚ) → List (List Char × ℚ)}
    (hF : F [] = []) {q : PyVal} {k k' : ℤ} {ms : MinSim}
    (hrel : ∀ nq, (ranked st'.sizes nq (st'.members cf un) k'.toNat).map
        (fun m => (m.orig, score st'.sizes nq m.key)) =
      F ((ranked st.sizes nq (st.members cf un) k.toNat).map
        (fun m => (m.orig, score st.sizes nq m.key))))
    {r r' : List (List Char × ℚ)} (hr : st.findSimilar cf un q (.int k) ms = .ok r)
    (hr' : st'.findSimilar cf un q (.int k') ms = .ok r') : r' = F r := by
  obtain ⟨qs, kz, rfl, hz, hk, h1⟩ := find_ok h hr
  obtain ⟨qs', kz', hq', hz', hk', h2⟩ := find_ok h' hr'
  injection hz with hz; subst hz
  injection hz' with hz'; subst hz'
  injection hq' with hq'; subst hq'
  simp only [hkey] at h2
  have e0 : ∀ ns nq j, ranked ns nq [] j = [] := by
    intro ns nq j; simp [ranked]
  rcases h1 with ⟨ha, rfl⟩ | ⟨ha, rfl⟩ | ⟨nq, ha, hb, hc, rfl⟩
  · rcases h2 with ⟨hd, rfl⟩ | ⟨hd, rfl⟩ | ⟨nq, hd, he, hf, rfl⟩
    · exact hF.symm
    · exact hF.symm
    · rcases ha with ha | ha
      · exact absurd ha hd
      · rw [ha] at hf; injection hf with hf; exact absurd hf.symm he
  · rcases h2 with ⟨hd, rfl⟩ | ⟨hd, rfl⟩ | ⟨nq, hd, he, hf, rfl⟩
    · exact hF.symm
    · exact hF.symm
    · rw [hrel, ha, e0]; rfl
  · rcases h2 with ⟨hd, rfl⟩ | ⟨hd, rfl⟩ | ⟨nq', hd, he, hf, rfl⟩
    · rcases hd with hd | hd
      · exact absurd hd ha
      · rw [hd] at hc; injection hc with hc; exact absurd hc.symm hb
    · rw [← hrel, hd, e0]; rfl
    · rw [hc] at hf; injection hf with hf; subst hf
      exact hrel _

/-- C207. Asking for fewer words returns the beginning of the longer answer. -/
theorem C207_prefix {st : WS} (h : WSReachable cf un st) {q : PyVal} {k k' : ℤ} (hkk : k ≤ k')
    {ms : MinSim} {r r' : List (List Char × ℚ)}
    (hr : st.findSimilar cf un q (.int k) ms = .ok r)
    (hr' : st.findSimilar cf un q (.int k') ms = .ok r') : r = r'.take k.toNat := by
  refine find_relate h h (fun _ => rfl) (F := fun l => l.take k.toNat) (by simp) ?_ hr' hr
  intro nq
  rw [← List.map_take]
  congr 1
  unfold ranked
  rw [List.take_take, Nat.min_eq_left (by omega)]

example :
    wsDemo.findSimilar (List.map Char.toLower) none (.str "Nacht".toList) (.int 1) .none =
      .ok [("nacht".toList, 1)] ∧
    wsDemo.findSimilar (List.map Char.toLower) none (.str "Nacht".toList) (.int 2) .none =
      .ok [("nacht".toList, 1), ("Night".toList, 4 / 11)] := by
  decide +kernel

theorem WSReachable.step {st : WS} (h : WSReachable cf un st) (op : WSOp) :
    WSReachable cf un (st.step cf un op).1 := by
  obtain ⟨cs, cb, sizes, st₀, ops, h₀, rfl⟩ := h
  exact ⟨cs, cb, sizes, st₀, ops ++ [op], h₀, by simp [WS.run]⟩

/-- One set has the members of the other except for the one with a given normal form. -/
theorem find_delete {st st' : WS} (h : WSReachable cf un st) (h' : WSReachable cf un st')
    (hc : SameConfig st st') {kv : List Char}
    (hm : st'.members cf un = delete (st.members cf un) kv) {q : PyVal} {k : ℤ} {ms : MinSim}
    {r r' : List (List Char × ℚ)} (hr : st.findSimilar cf un q (.int (k + 1)) ms = .ok r)
    (hr' : st'.findSimilar cf un q (.int k) ms = .ok r') :
    r' = (r.filter (fun x => keyOf st.caseSensitive cf un x.1 ≠ some kv)).take k.toNat := by
  have hk : 0 < k := by
    obtain ⟨_, kz, _, hz, hk, _⟩ := find_ok h' hr'
    injection hz with hz; subst hz; exact hk
  have hkey : ∀ w, st'.key cf un w = st.key cf un w := by
    intro w; unfold WS.key; rw [hc.1]
  refine find_relate h h' hkey (F := fun l =>
    (l.filter (fun x => keyOf st.caseSensitive cf un x.1 ≠ some kv)).take k.toNat) (by simp) ?_
    hr hr'
  intro nq
  have hsz : st'.sizes = st.sizes := by unfold WS.sizes; rw [hc.2.1]
  rw [hm, hsz, ranked_delete h.rep.nodup, show (k + 1).toNat = k.toNat + 1 by omega, List.map_take,
    List.filter_map]
  congr 2
  apply List.filter_congr
  intro m hmem
  have hms : m ∈ st.members cf un :=
    ((ranked_ranking (ns := st.sizes) (q := nq) h.rep.nodupMembers _).members m hmem).1
  have hkm : keyOf st.caseSensitive cf un m.orig = some m.key := (h.rep.keys m hms).1
  simp only [Function.comp, hkm, Option.some.injEq, ne_eq]

/-- C208. After discarding a word, every search gives what it gave before, without the word and
with the next word moving up. -/
theorem C208_discard {st : WS} (h : WSReachable cf un st) {v kv : List Char}
    (hv : keyOf st.caseSensitive cf un v = some kv) {q : PyVal} {k : ℤ} {ms : MinSim}
    {r r' : List (List Char × ℚ)} (hr : st.findSimilar cf un q (.int (k + 1)) ms = .ok r)
    (hr' : (st.discard cf un (.str v)).1.findSimilar cf un q (.int k) ms = .ok r') :
    r' = (r.filter (fun x => keyOf st.caseSensitive cf un x.1 ≠ some kv)).take k.toNat := by
  obtain ⟨h1, _, h3⟩ := h.rep.step (.discard (.str v))
  refine find_delete h (h.step (.discard (.str v))) h3 ?_ hr hr'
  rw [h1.members]
  simp only [absStep, absDiscard, WS.key, hv]

theorem absAdd_cases {key : List Char → Option (List Char)} {s : List Member} {v kv : List Char}
    (hv : key v = some kv) : (absAdd key s (.str v)).1 = s ∨
      (absAdd key s (.str v)).1 = WordSetSpec.insert s ⟨kv, v⟩ := by
  unfold absAdd
  cases v with
  | nil => left; rfl
  | cons c v =>
    cases kv with
    | nil => left; simp only [hv]
    | cons d kv => right; simp only [hv]

/-- C208. After adding a new word, every search gives what it gave before, except that the word may
appear somewhere and then pushes the following ones back. -/
theorem C208_add {st : WS} (h : WSReachable cf un st) {v kv : List Char}
    (hv : keyOf st.caseSensitive cf un v = some kv)
    (hnew : st.contains cf un (.str v) = .ok false) {q : PyVal} {k : ℤ} {ms : MinSim}
    {r r' : List (List Char × ℚ)} (hr : st.findSimilar cf un q (.int k) ms = .ok r)
    (hr' : (st.add cf un (.str v)).1.findSimilar cf un q (.int (k + 1)) ms = .ok r') :
    r = (r'.filter (fun x => keyOf st.caseSensitive cf un x.1 ≠ some kv)).take k.toNat := by
  obtain ⟨h1, _, h3⟩ := h.rep.step (.add (.str v))
  have h4 : SameConfig (st.step cf un (.add (.str v))).1 st :=
    ⟨h3.1.symm, h3.2.1.symm, h3.2.2.symm⟩
  have hno : ¬ Mem (st.members cf un) kv := by
    rw [C35_contains h hv] at hnew
    injection hnew with hnew
    rw [decide_eq_false_iff_not] at hnew
    rintro ⟨m, hm, rfl⟩
    refine hnew ⟨m.orig, ?_, (h.rep.keys m hm).1⟩
    rw [h.rep.iter]
    exact List.mem_map.2 ⟨m, hm, rfl⟩
  have := find_delete (h.step (.add (.str v))) h h4 (kv := kv) ?_ hr' hr
  · rw [h3.1] at this; exact this
  rw [h1.members]
  have hdel : delete (st.members cf un) kv = st.members cf un := by
    unfold delete
    rw [List.filter_eq_self]
    intro m hm
    simp only [ne_eq, decide_not, Bool.not_eq_true', decide_eq_false_iff_not]
    exact fun hc => hno ⟨m, hm, hc⟩
  have hcase := absAdd_cases (key := st.key cf un) (s := st.members cf un) (v := v) (kv := kv) hv
  simp only [absStep]
  rcases hcase with hcase | hcase
  · rw [hcase, hdel]
  · rw [hcase, WordSetSpec.insert, if_neg hno, delete, List.filter_append]
    unfold delete at hdel
    rw [hdel]
    simp

/-- Discarding "night" (stored as "Night") lets "light" move up. -/
example :
    keyOf wsDemo.caseSensitive (List.map Char.toLower) none "nIGHT".toList = some "night".toList ∧
    wsDemo.findSimilar (List.map Char.toLower) none (.str "Nacht".toList) (.int 3) .none =
      .ok [("nacht".toList, 1), ("Night".toList, 4 / 11), ("light".toList, 3 / 11)] ∧
    (wsDemo.discard (List.map Char.toLower) none (.str "nIGHT".toList)).1.findSimilar
      (List.map Char.toLower) none (.str "Nacht".toList) (.int 2) .none =
      .ok [("nacht".toList, 1), ("light".toList, 3 / 11)] := by
  decide +kernel

/-- Adding "knacht" pushes "light" back. -/
example :
    wsDemo.contains (List.map Char.toLower) none (.str "knacht".toList) = .ok false ∧
    (wsDemo.add (List.map Char.toLower) none (.str "knacht".toList)).1.findSimilar
      (List.map Char.toLower) none (.str "Nacht".toList) (.int 3) .none =
      .ok [("nacht".toList, 1), ("knacht".toList, 521 / 720), ("Night".toList, 4 / 11)] := by
  decide +kernel

end Verif
