import Verif.Fp.SetRank
import Verif.WordSet.Props

/-!
# Properties of `WordSet` in rounded arithmetic

C131–C136. `SetReachableF` ranges over all constructor arguments and all finite sequences of calls,
`R` over all roundings; `binary64` is that of Python's floats.
-/

namespace Verif
namespace Fp

open GramSpec WordSetSpec

variable {R : Rounding} {cf : List Char → List Char} {un : Normalizer}

/-! ### Reachable states -/

theorem SetReachableF.exact {st : WS} (h : SetReachableF R cf un st) :
    ∃ st', WSReachable cf un st' ∧ st = flWS R st' := by
  obtain ⟨cs, cb, sizes, st₀, ops, h₀, rfl⟩ := h
  refine ⟨st₀.run cf un ops, ⟨cs, cb, sizes, st₀, ops, h₀, rfl⟩, ?_⟩
  conv_lhs => rw [← flWS_new (R := R) h₀]
  exact setRunF_eq _ _

theorem members_flWS (st : WS) : (flWS R st).members cf un = st.members cf un := rfl

/-- What `find_similar` returns, by words instead of stored positions. -/
def absFindF (R : FOps) (key : List Char → Option (List Char)) (ns : List ℕ) (s : List Member)
    (q k : PyVal) (ms : MinSim) : Except PyErr (List (List Char × ℚ)) :=
  match q, k with
  | .str q, .int k =>
    if k ≤ 0 ∨ ms = .bad ∨ (∃ x, ms = .num x ∧ ¬ (0 ≤ x ∧ x ≤ 1)) then .error .valueError
    else if q = [] ∨ s = [] then .ok []
    else
      match key q with
      | none => .error .valueError
      | some nq =>
        if nq = [] then .ok []
        else .ok ((rankedBy (scoreSF R ns nq) ns nq s k.toNat).map
          (fun m => (m.orig, scoreSF R ns nq m.key)))
  | .str _, _ => .error .valueError
  | _, _ => .error .typeError

theorem findSimilarF_abs {R : FOps} {st : WS} {s : List Member} (h : Rep cf un st s) (q k : PyVal)
    (ms : MinSim) :
    findSimilarF R cf un (flWS R st) q k ms =
      absFindF R (st.key cf un) (st.nList.map Int.toNat) s q k ms := by
  cases q with
  | int i => cases k <;> rfl
  | other => cases k <;> rfl
  | str q =>
    cases k with
    | str w => rfl
    | other => rfl
    | int k =>
      obtain ⟨E, hE, rfl⟩ := h
      by_cases hk : k ≤ 0
      · simp [findSimilarF, absFindF, hk]
      · by_cases ha : ms.accepted = true
        · rw [findSimilarF_eq hE (not_le.1 hk) ha]
          have := (accepted_iff ms).1 ha
          unfold absFindF WS.key
          simp only
          have hn : ¬ (k ≤ 0 ∨ ms = .bad ∨ ∃ x, ms = .num x ∧ ¬ (0 ≤ x ∧ x ≤ 1)) := by
            rw [not_or]; exact ⟨hk, this⟩
          rw [if_neg hn]
          by_cases hq : q = [] ∨ E = []
          · rw [if_pos hq, if_pos (by rwa [List.map_eq_nil_iff])]
          · rw [if_neg hq, if_neg (by rwa [List.map_eq_nil_iff])]
            all_goals (cases keyOf st.caseSensitive cf un q <;> rfl)
        · have hn := not_not.1 (mt (accepted_iff ms).2 ha)
          rw [Bool.not_eq_true] at ha
          unfold absFindF findSimilarF
          simp only [if_neg hk, ha]
          rw [if_pos (Or.inr hn)]

/-- The value of `find_similar` for valid arguments. -/
theorem findF_value {st : WS} (h : SetReachableF R cf un st) {q nq : List Char} {k : ℤ} {ms : MinSim}
    (hk : 0 < k) (ha : ms.accepted = true) (hq : q ≠ [])
    (hnq : keyOf st.caseSensitive cf un q = some nq) (hne : nq ≠ []) :
    findSimilarF R cf un st (.str q) (.int k) ms =
      .ok ((rankedBy (scoreSF R st.sizes nq) st.sizes nq (st.members cf un) k.toNat).map
        (fun m => (m.orig, scoreSF R st.sizes nq m.key))) := by
  obtain ⟨st', h', rfl⟩ := h.exact
  rw [findSimilarF_abs h'.rep]
  have hna := (accepted_iff ms).1 ha
  have hnq' : keyOf st'.caseSensitive cf un q = some nq := hnq
  unfold absFindF WS.key
  simp only
  rw [if_neg (by rw [not_or]; exact ⟨not_le.2 hk, hna⟩), hnq', members_flWS]
  by_cases hs : st'.members cf un = []
  · rw [if_pos (Or.inr hs), hs, rankedBy_nil (by simp)]; rfl
  · rw [if_neg (by rw [not_or]; exact ⟨hq, hs⟩)]
    simp only [if_neg hne]
    rfl

/-- Arguments that were not rejected are valid. -/
theorem findF_valid {st : WS} {q : List Char} {k : ℤ} {ms : MinSim} {res : List (List Char × ℚ)}
    (hres : findSimilarF R cf un st (.str q) (.int k) ms = .ok res) :
    0 < k ∧ ms.accepted = true := by
  have hk : 0 < k := by
    by_contra hk
    rw [not_lt] at hk
    unfold findSimilarF at hres
    simp only [if_pos hk] at hres
    cases hres
  refine ⟨hk, ?_⟩
  unfold findSimilarF at hres
  simp only [if_neg (not_le.2 hk)] at hres
  cases hm : ms.accepted with
  | true => rfl
  | false => rw [hm] at hres; cases hres

/-- The facts about the members that the properties need. -/
theorem SetReachableF.facts {st : WS} (h : SetReachableF R cf un st) :
    (st.members cf un).Nodup ∧ ((st.members cf un).map Member.key).Nodup ∧ st.sizes.Nodup ∧
    (∀ n ∈ st.sizes, 1 ≤ n) ∧ st.iter = (st.members cf un).map Member.orig ∧
    st.len = (st.members cf un).length ∧
    ∀ m ∈ st.members cf un, keyOf st.caseSensitive cf un m.orig = some m.key ∧ m.key ≠ [] := by
  obtain ⟨st', h', rfl⟩ := h.exact
  have hr := h'.rep
  exact ⟨hr.nodupMembers, hr.nodup, hr.nodupSizes, hr.posSizes, hr.iter, hr.len, hr.keys⟩

/-! ## C131 -/

/-- Two observations that differ at most in scores and in what depends on scores: which words are
returned by `find_similar` and `suggest`, and in which order. -/
def SameButScores : WSOut → WSOut → Prop
  | .found (.ok r), .found (.ok r') => r.length = r'.length
  | .names (.ok r), .names (.ok r') => r.length = r'.length
  | a, b => a = b

theorem length_rankedBy (sc : List Char → ℚ) (ns : List ℕ) (q : List Char) (s : List Member)
    (k : ℕ) : (rankedBy sc ns q s k).length = (ranked ns q s k).length := by
  unfold rankedBy ranked
  rw [List.length_take, List.length_take, List.length_insertionSort, List.length_insertionSort]

theorem absFindF_same (R : Rounding) (key : List Char → Option (List Char)) (ns : List ℕ)
    (s : List Member) (q k : PyVal) (ms : MinSim) :
    (∃ e, absFind key ns s q k ms = .error e ∧ absFindF R key ns s q k ms = .error e) ∨
    ∃ r r', absFind key ns s q k ms = .ok r ∧ absFindF R key ns s q k ms = .ok r' ∧
      r.length = r'.length := by
  cases q with
  | int i => cases k <;> exact Or.inl ⟨_, rfl, rfl⟩
  | other => cases k <;> exact Or.inl ⟨_, rfl, rfl⟩
  | str q =>
    cases k with
    | str w => exact Or.inl ⟨_, rfl, rfl⟩
    | other => exact Or.inl ⟨_, rfl, rfl⟩
    | int k =>
      unfold absFind absFindF
      simp only
      split
      · exact Or.inl ⟨_, rfl, rfl⟩
      · split
        · exact Or.inr ⟨_, _, rfl, rfl, rfl⟩
        · cases key q with
          | none => exact Or.inl ⟨_, rfl, rfl⟩
          | some nq =>
            simp only
            split
            · exact Or.inr ⟨_, _, rfl, rfl, rfl⟩
            · exact Or.inr ⟨_, _, rfl, rfl, by
                rw [List.length_map, List.length_map, length_rankedBy]⟩

theorem setStepF_same {st : WS} {s : List Member} (h : Rep cf un st s) (op : WSOp) :
    SameButScores (st.step cf un op).2 (setStepF R cf un (flWS R st) op).2 := by
  have aux : ¬ WSOpScored op →
      SameButScores (st.step cf un op).2 (setStepF R cf un (flWS R st) op).2 := by
    intro hn
    rw [setStepF_out st hn]
    generalize (st.step cf un op).2 = o
    unfold SameButScores
    split <;> simp_all
  cases op with
  | findSimilar q k ms =>
    simp only [setStepF, WS.step, h.findSimilar, findSimilarF_abs h]
    rcases absFindF_same R (st.key cf un) (st.nList.map Int.toNat) s q k ms with
      ⟨e, h1, h2⟩ | ⟨r, r', h1, h2, h3⟩
    · rw [h1, h2]; rfl
    · rw [h1, h2]; exact h3
  | suggest q k =>
    simp only [setStepF, WS.step, WS.suggest, suggestF, h.findSimilar, findSimilarF_abs h]
    rcases absFindF_same R (st.key cf un) (st.nList.map Int.toNat) s q k .none with
      ⟨e, h1, h2⟩ | ⟨r, r', h1, h2, h3⟩
    · rw [h1, h2]; rfl
    · rw [h1, h2]
      simp only [bind, Except.bind, pure, Except.pure, SameButScores, List.length_map, h3]
  | _ => exact aux (fun h => h)

/-- C131. Along every sequence of calls on a new set, rounding changes nothing but scores and what
depends on them: every call raises the same exception or none, membership, length, iteration and
popped words are the same, and `find_similar` and `suggest` return equally many words. -/
theorem C131_float_set_same {cs : Option Bool} {callable : Bool} {sizes : NArg} {st₀ : WS}
    (h : WS.new cs callable sizes = .ok st₀) (ops : List WSOp) :
    List.Forall₂ SameButScores (st₀.outputs cf un ops) (setOutputsF R cf un st₀ ops) := by
  have key : ∀ (ops : List WSOp) (st : WS) (s : List Member), Rep cf un st s →
      List.Forall₂ SameButScores (st.outputs cf un ops) (setOutputsF R cf un (flWS R st) ops) := by
    intro ops
    induction ops with
    | nil => intro _ _ _; exact List.Forall₂.nil
    | cons op ops ih =>
      intro st s hr
      unfold WS.outputs setOutputsF
      refine List.Forall₂.cons (setStepF_same hr op) ?_
      rw [setStepF_state]
      exact ih _ _ (hr.step op).1
  have := key ops st₀ [] (Rep.new h)
  rwa [flWS_new h] at this

/-- C131. If as many words are asked for as there are members, the words found are the same, in
possibly another order. -/
theorem C131_float_set_all {cs : Option Bool} {callable : Bool} {sizes : NArg} {st₀ : WS}
    (h : WS.new cs callable sizes = .ok st₀) (ops : List WSOp) {q : List Char} {k : ℤ} {ms : MinSim}
    (hk : ((st₀.run cf un ops).len : ℤ) ≤ k) {r r' : List (List Char × ℚ)}
    (hr : (st₀.run cf un ops).findSimilar cf un (.str q) (.int k) ms = .ok r)
    (hr' : findSimilarF R cf un (setRunF R cf un st₀ ops) (.str q) (.int k) ms = .ok r') :
    (r.map Prod.fst).Perm (r'.map Prod.fst) := by
  have hrep := ((Rep.new (cf := cf) (un := un) h).run ops).1
  have hst : setRunF R cf un st₀ ops = flWS R (st₀.run cf un ops) := by
    conv_lhs => rw [← flWS_new (R := R) h]
    exact setRunF_eq _ _
  rw [hst, findSimilarF_abs hrep] at hr'
  rw [hrep.findSimilar] at hr
  rw [hrep.len] at hk
  generalize absRun _ _ _ _ = s at *
  generalize (st₀.run cf un ops).key cf un = key at *
  generalize (st₀.run cf un ops).nList.map Int.toNat = ns at *
  unfold absFind at hr
  unfold absFindF at hr'
  simp only at hr hr'
  split at hr
  · cases hr
  rename_i h1
  rw [if_neg h1] at hr'
  split at hr
  · rename_i h2
    rw [if_pos h2] at hr'
    cases hr; cases hr'; exact List.Perm.refl _
  rename_i h2
  rw [if_neg h2] at hr'
  cases hkey : key q with
  | none => rw [hkey] at hr; cases hr
  | some nq =>
    rw [hkey] at hr hr'
    simp only at hr hr'
    split at hr
    · rename_i h3
      rw [if_pos h3] at hr'
      cases hr; cases hr'; exact List.Perm.refl _
    rename_i h3
    rw [if_neg h3] at hr'
    injection hr with hr
    injection hr' with hr'
    subst hr hr'
    rw [List.map_map, List.map_map]
    have hl : (s.filter (fun m => Candidate ns nq m.key)).length ≤ k.toNat := by
      have := List.length_filter_le (fun m => decide (Candidate ns nq m.key)) s
      omega
    unfold ranked rankedBy
    rw [List.take_of_length_le (by rwa [List.length_insertionSort]),
      List.take_of_length_le (by rwa [List.length_insertionSort])]
    exact (((List.perm_insertionSort _ _).trans (List.perm_insertionSort _ _).symm).map
      (fun m : Member => m.orig))

/-- The words `"night"`, `"light"`, `"nacht"` in a case-insensitive set with sizes 2 and 3, with
floats. -/
def wsDemoF : WS :=
  match WS.new (some false) true (.iter [3, 2]) with
  | .ok st => setRunF binary64 (List.map Char.toLower) none st
      ([['N', 'i', 'g', 'h', 't'], ['l', 'i', 'g', 'h', 't'], ['n', 'I', 'g', 'h', 't'],
        ['n', 'a', 'c', 'h', 't']].map (fun w => .add (.str w)))
  | .error _ => ⟨false, [], none, [], [], 0, [], []⟩

theorem wsDemoF_reach : SetReachableF binary64 (List.map Char.toLower) none wsDemoF := by
  unfold wsDemoF
  cases hn : WS.new (some false) true (.iter [3, 2]) with
  | ok st => exact ⟨_, _, _, _, _, hn, rfl⟩
  | error e =>
    have : (WS.new (some false) true (.iter [3, 2])).toOption.isSome = true := by decide +kernel
    rw [hn] at this; cases this

example : wsDemoF.iter = wsDemo.iter ∧ wsDemoF.len = 3 ∧
    (wsDemoF.pop (List.map Char.toLower) none).2 = .ok ['N', 'i', 'g', 'h', 't'] ∧
    (addSetF binary64 (List.map Char.toLower) none wsDemoF (.str [])).2 = .error .valueError := by
  decide +kernel

/-! ## C132 -/

/-- C132. `find_similar` with floats returns the unique list of the `k` candidates with the highest
computed scores, earlier insertion first among equal computed scores, each in its original spelling
and with its computed score. -/
theorem C132_float_set_ranking {st : WS} (h : SetReachableF R cf un st) {q nq : List Char} {k : ℤ}
    {ms : MinSim} (hk : 0 < k) (ha : ms.accepted = true) (hq : q ≠ [])
    (hnq : keyOf st.caseSensitive cf un q = some nq) (hne : nq ≠ []) :
    ∃ L, RankingBy (scoreSF R st.sizes nq) st.sizes nq (st.members cf un) k.toNat L ∧
      (∀ L', RankingBy (scoreSF R st.sizes nq) st.sizes nq (st.members cf un) k.toNat L' → L' = L) ∧
      findSimilarF R cf un st (.str q) (.int k) ms =
        .ok (L.map (fun m => (m.orig, scoreSF R st.sizes nq m.key))) :=
  ⟨_, rankedBy_ranking h.facts.1 _,
    fun _ h' => rankingBy_unique h' (rankedBy_ranking h.facts.1 _),
    findF_value h hk ha hq hnq hne⟩

/-- What is known about a returned pair. -/
theorem findF_mem {st : WS} (h : SetReachableF R cf un st) {q nq : List Char} {k : ℤ} {ms : MinSim}
    {res : List (List Char × ℚ)} (hq : q ≠ []) (hnq : keyOf st.caseSensitive cf un q = some nq)
    (hne : nq ≠ []) (hres : findSimilarF R cf un st (.str q) (.int k) ms = .ok res)
    {r : List Char × ℚ} (hr : r ∈ res) :
    ∃ m ∈ st.members cf un, m.orig = r.1 ∧ Candidate st.sizes nq m.key ∧
      r.2 = scoreSF R st.sizes nq m.key := by
  obtain ⟨hk, ha⟩ := findF_valid hres
  rw [findF_value h hk ha hq hnq hne] at hres
  injection hres with hres
  subst hres
  obtain ⟨m, hm, rfl⟩ := List.mem_map.1 hr
  obtain ⟨h1, h2⟩ := (rankedBy_ranking h.facts.1 k.toNat).members m hm
  exact ⟨m, h1, rfl, h2, rfl⟩

/-- C132. The scores lie between 0 and 1, and with a filter (a size of at most 4) no returned word
has score 0, as long as the two words have no more than `2 ^ 53` n-grams. -/
theorem C132_float_set_range {st : WS} (h : SetReachableF R cf un st) {q nq : List Char} {k : ℤ}
    {ms : MinSim} {res : List (List Char × ℚ)} (hq : q ≠ [])
    (hnq : keyOf st.caseSensitive cf un q = some nq) (hne : nq ≠ [])
    (hres : findSimilarF R cf un st (.str q) (.int k) ms = .ok res) :
    ∀ r ∈ res, 0 ≤ r.2 ∧ r.2 ≤ 1 ∧ ((filterSize st.sizes).isSome →
      (∀ m ∈ st.members cf un, totalCount st.sizes nq m.key ≤ 2 ^ 53) → 0 < r.2) := by
  intro r hr
  obtain ⟨m, hm, _, hc, hs⟩ := findF_mem h hq hnq hne hres hr
  rw [hs]
  refine ⟨scoreSF_nonneg, scoreSF_le_one, ?_⟩
  intro hf hT
  have hnd := h.facts.2.2.1
  obtain ⟨f, hf⟩ := Option.isSome_iff_exists.1 hf
  have ht := totalCount_pos_of_candidate hc
  unfold Candidate at hc
  rw [hf] at hc
  obtain ⟨g, h1, h2⟩ := hc
  have hsim := one_le_simSF (R := R) hnd (hT m hm)
    (List.mem_flatMap.2 ⟨f, filterSize_mem hf, h1⟩) (List.mem_flatMap.2 ⟨f, filterSize_mem hf, h2⟩)
  rw [scoreSF_eq hnd (hT m hm)]
  have ht' : (0 : ℚ) < totalCount st.sizes nq m.key := by exact_mod_cast ht
  have hx : 0 < simSF R st.sizes nq m.key / (totalCount st.sizes nq m.key : ℚ) :=
    div_pos (by linarith) ht'
  have he := abs_le.1 (R.err (simSF R st.sizes nq m.key / (totalCount st.sizes nq m.key : ℚ)))
  rw [abs_of_pos hx] at he
  have := mul_pos (sub_pos.2 R.u_lt) hx
  linarith [he.1]

/-- C132. Clamping the score between 0 and 1 has no effect: the computed quotient lies there, as
long as the two words have no more than `2 ^ 53` n-grams. -/
theorem C132_float_clamp_idle {ns : List ℕ} (hnd : ns.Nodup) {q w : List Char}
    (hT : totalCount ns q w ≤ 2 ^ 53) :
    0 ≤ R.fl (simSF R ns q w / (totalCount ns q w : ℚ)) ∧
    R.fl (simSF R ns q w / (totalCount ns q w : ℚ)) ≤ 1 ∧
    scoreSF R ns q w = R.fl (simSF R ns q w / (totalCount ns q w : ℚ)) := by
  have e := scoreSF_eq (R := R) (q := q) (w := w) hnd hT
  exact ⟨by rw [← e]; exact scoreSF_nonneg, by rw [← e]; exact scoreSF_le_one, e⟩

example : findSimilarF binary64 (List.map Char.toLower) none wsDemoF (.str "nights".toList) (.int 5)
      .none = .ok [(['N', 'i', 'g', 'h', 't'], 6517709460722301 / 9007199254740992),
        (['l', 'i', 'g', 'h', 't'], 7093169413108531 / 18014398509481984)] ∧
    filterSize wsDemoF.sizes = some 3 ∧
    (wsDemoF.members (List.map Char.toLower) none).map
      (fun m => totalCount wsDemoF.sizes "nights".toList m.key) = [24, 24, 24] := by
  decide +kernel

/-! ## C133 -/

/-- C133. Every score returned is within `5 T u` of the true score of the word, where `T` is the
number of n-grams of query and word. -/
theorem C133_float_set_error {st : WS} (h : SetReachableF R cf un st) {q nq : List Char} {k : ℤ}
    {ms : MinSim} {res : List (List Char × ℚ)} (hq : q ≠ [])
    (hnq : keyOf st.caseSensitive cf un q = some nq) (hne : nq ≠ [])
    (hres : findSimilarF R cf un st (.str q) (.int k) ms = .ok res) :
    ∀ r ∈ res, ∃ key, keyOf st.caseSensitive cf un r.1 = some key ∧
      (totalCount st.sizes nq key ≤ 2 ^ 53 → (totalCount st.sizes nq key : ℚ) * R.u ≤ 1 / 2 →
        |r.2 - score st.sizes nq key| ≤ 5 * (totalCount st.sizes nq key : ℚ) * R.u) := by
  intro r hr
  obtain ⟨m, hm, ho, _, hs⟩ := findF_mem h hq hnq hne hres hr
  refine ⟨m.key, by rw [← ho]; exact (h.facts.2.2.2.2.2.2 m hm).1, ?_⟩
  intro h1 h2
  rw [hs]
  exact scoreSF_err h.facts.2.2.1 h1 h2

example : wsDemo.findSimilar (List.map Char.toLower) none (.str "nights".toList) (.int 5) .none =
      .ok [(['N', 'i', 'g', 'h', 't'], 521 / 720), (['l', 'i', 'g', 'h', 't'], 63 / 160)] ∧
    (6517709460722301 / 9007199254740992 : ℚ) ≠ 521 / 720 := by
  refine ⟨by decide +kernel, by norm_num⟩

/-! ## C134 -/

/-- C134. If the query is a member and long enough, the first score is exactly 1. -/
theorem C134_float_set_first_one {st : WS} (h : SetReachableF R cf un st) {q nq : List Char} {k : ℤ}
    {ms : MinSim} (hk : 0 < k) (ha : ms.accepted = true) (hq : q ≠ [])
    (hnq : keyOf st.caseSensitive cf un q = some nq) (hl : LongEnough st.sizes nq)
    (hT : totalCount st.sizes nq nq ≤ 2 ^ 53)
    {o : List Char} (ho : o ∈ st.iter) (hok : keyOf st.caseSensitive cf un o = some nq) :
    ∃ o' rest, findSimilarF R cf un st (.str q) (.int k) ms = .ok ((o', 1) :: rest) := by
  obtain ⟨hnd, hnk, hns, hpos, hiter, _, hkeys⟩ := h.facts
  rw [hiter] at ho
  obtain ⟨m, hm, rfl⟩ := List.mem_map.1 ho
  have hmk := hkeys m hm
  rw [hok] at hmk
  obtain ⟨hmk, hne⟩ := hmk
  injection hmk with hmk
  have hne : nq ≠ [] := by rw [hmk]; exact hne
  rw [findF_value h hk ha hq hnq hne]
  have hR := rankedBy_ranking (sc := scoreSF R st.sizes nq) (ns := st.sizes) (q := nq) hnd k.toNat
  have hcm : Candidate st.sizes nq m.key := by rw [← hmk]; exact candidate_self hpos hl
  have hsm : scoreSF R st.sizes nq m.key = 1 := by
    rw [← hmk] at hcm ⊢
    exact scoreSF_self hns nq (totalCount_pos_of_candidate hcm) hT
  cases hc : rankedBy (scoreSF R st.sizes nq) st.sizes nq (st.members cf un) k.toNat with
  | nil =>
    exfalso
    have hlen := hR.length
    rw [hc, List.length_nil] at hlen
    have : 0 < ((st.members cf un).filter (fun m => Candidate st.sizes nq m.key)).length :=
      List.length_pos_of_mem (List.mem_filter.2 ⟨hm, decide_eq_true hcm⟩)
    omega
  | cons b rest =>
    rw [hc] at hR
    refine ⟨b.orig, rest.map (fun m => (m.orig, scoreSF R st.sizes nq m.key)), ?_⟩
    have hb1 : scoreSF R st.sizes nq b.key = 1 := by
      by_cases hbm : b = m
      · rw [hbm, hsm]
      have hp : PreferredBy (scoreSF R st.sizes nq) (st.members cf un) b m := by
        by_cases hin : m ∈ b :: rest
        · rcases List.mem_cons.1 hin with e | e
          · exact absurd e.symm hbm
          · exact List.rel_of_pairwise_cons hR.ordered e
        · exact hR.best m hm hcm hin b List.mem_cons_self
      apply le_antisymm scoreSF_le_one
      rcases hp with hp | ⟨hp, _⟩
      · rw [hsm] at hp; exact hp.le
      · rw [hsm] at hp; exact hp.le
    rw [List.map_cons, hb1]

/-- C134. With Python's floats a score is exactly 1 only for the query itself, if query and word have
at most 8192 n-grams. -/
theorem C134_float_set_one_iff {st : WS} (h : SetReachableF binary64 cf un st) {q nq : List Char}
    {k : ℤ} {ms : MinSim} {res : List (List Char × ℚ)} (hq : q ≠ [])
    (hnq : keyOf st.caseSensitive cf un q = some nq) (hne : nq ≠ [])
    (hT : ∀ m ∈ st.members cf un, totalCount st.sizes nq m.key ≤ 8192)
    (hres : findSimilarF binary64 cf un st (.str q) (.int k) ms = .ok res) :
    ∀ r ∈ res, r.2 = 1 ↔ keyOf st.caseSensitive cf un r.1 = some nq := by
  intro r hr
  obtain ⟨m, hm, ho, hc, hs⟩ := findF_mem h hq hnq hne hres hr
  obtain ⟨_, _, hns, hpos, _, _, hkeys⟩ := h.facts
  have ht := totalCount_pos_of_candidate hc
  rw [← ho, (hkeys m hm).1, hs, Option.some.injEq]
  constructor
  · intro h1
    exact (scoreSF_eq_one hns hpos ht (hT m hm) h1).symm
  · intro h1
    have := hT m hm
    rw [h1] at ht this ⊢
    exact scoreSF_self hns nq ht (this.trans (by norm_num))

/-- C134. With Python's floats a member that equals the query is returned first, in its original
spelling, if query and members have at most 8192 n-grams. -/
theorem C134_float_set_exact_first {st : WS} (h : SetReachableF binary64 cf un st)
    {q nq : List Char} {k : ℤ} {ms : MinSim} (hk : 0 < k) (ha : ms.accepted = true) (hq : q ≠ [])
    (hnq : keyOf st.caseSensitive cf un q = some nq) (hl : LongEnough st.sizes nq)
    (hT : ∀ m ∈ st.members cf un, totalCount st.sizes nq m.key ≤ 8192)
    {o : List Char} (ho : o ∈ st.iter) (hok : keyOf st.caseSensitive cf un o = some nq) :
    ∃ rest, findSimilarF binary64 cf un st (.str q) (.int k) ms = .ok ((o, 1) :: rest) ∧
      ∀ r ∈ rest, r.2 < 1 := by
  obtain ⟨hnd, hnk, hns, hpos, hiter, _, hkeys⟩ := h.facts
  rw [hiter] at ho
  obtain ⟨m, hm, rfl⟩ := List.mem_map.1 ho
  have hmk := hkeys m hm
  rw [hok] at hmk
  obtain ⟨hmk, hne⟩ := hmk
  injection hmk with hmk
  have hne : nq ≠ [] := by rw [hmk]; exact hne
  have hTn : totalCount st.sizes nq nq ≤ 2 ^ 53 := by
    have := hT m hm
    rw [← hmk] at this
    exact this.trans (by norm_num)
  obtain ⟨o', rest, he⟩ := C134_float_set_first_one h hk ha hq hnq hl hTn
    (by rw [hiter]; exact List.mem_map_of_mem hm) hok
  have hv := findF_value h hk ha hq hnq hne
  rw [he] at hv
  injection hv with hv
  have hone := C134_float_set_one_iff h hq hnq hne hT he
  have hR := rankedBy_ranking (sc := scoreSF binary64 st.sizes nq) (ns := st.sizes) (q := nq) hnd
    k.toNat
  cases hc : rankedBy (scoreSF binary64 st.sizes nq) st.sizes nq (st.members cf un) k.toNat with
  | nil => rw [hc] at hv; cases hv
  | cons b L =>
    rw [hc] at hv hR
    rw [List.map_cons] at hv
    injection hv with hb hrest
    injection hb with hb1 hb2
    have hbs := (hR.members b List.mem_cons_self).1
    have hbk := (hone (o', 1) List.mem_cons_self).1 rfl
    simp only at hbk
    rw [hb1, (hkeys b hbs).1] at hbk
    injection hbk with hbk
    have hbm : b = m := List.inj_on_of_nodup_map hnk hbs hm (by rw [hbk, hmk])
    refine ⟨rest, by rw [he, hb1, hbm], ?_⟩
    intro r hr
    obtain ⟨m', hm', ho', hc', hs'⟩ := findF_mem h hq hnq hne he (List.mem_cons_of_mem _ hr)
    rcases lt_or_eq_of_le (show r.2 ≤ 1 by rw [hs']; exact scoreSF_le_one) with hlt | heq
    · exact hlt
    exfalso
    rw [hrest] at hr
    obtain ⟨b', hb', rfl⟩ := List.mem_map.1 hr
    have hbs' := (hR.members b' (List.mem_cons_of_mem _ hb')).1
    have hk' := (hone _ (by rw [hrest]; exact List.mem_cons_of_mem _ (List.mem_map.2 ⟨b', hb', rfl⟩))).1 heq
    simp only at hk'
    rw [(hkeys b' hbs').1] at hk'
    injection hk' with hk'
    have hbb : b' = b := List.inj_on_of_nodup_map hnk hbs' hbs (by rw [hk', hbk])
    have := List.rel_of_pairwise_cons hR.ordered hb'
    rw [hbb] at this
    exact preferredBy_asymm this this

example : findSimilarF binary64 (List.map Char.toLower) none wsDemoF (.str "NIGHT".toList) (.int 2)
      .none = .ok [(['N', 'i', 'g', 'h', 't'], 1),
        (['l', 'i', 'g', 'h', 't'], 5731854071198813 / 9007199254740992)] ∧
    ['N', 'i', 'g', 'h', 't'] ∈ wsDemoF.iter ∧
    (∀ m ∈ wsDemoF.members (List.map Char.toLower) none,
      totalCount wsDemoF.sizes "night".toList m.key ≤ 8192) := by
  decide +kernel

/-! ## C135 -/

/-- C135. Up to rounding the result is the best one: no candidate left out has a true score more than
`10 T u` above that of a returned word, and no word is returned after one whose true score is more
than `10 T u` below its own, where `T` bounds the number of n-grams of the query and any member. -/
theorem C135_float_set_near_best {st : WS} (h : SetReachableF R cf un st) {q nq : List Char} {k : ℤ}
    {ms : MinSim} {res : List (List Char × ℚ)} {T : ℕ} (hq : q ≠ [])
    (hnq : keyOf st.caseSensitive cf un q = some nq) (hne : nq ≠ [])
    (hres : findSimilarF R cf un st (.str q) (.int k) ms = .ok res)
    (hTm : ∀ m ∈ st.members cf un, totalCount st.sizes nq m.key ≤ T) (hT : T ≤ 2 ^ 53)
    (hTu : (T : ℚ) * R.u ≤ 1 / 2) :
    ∃ L : List Member, res.map Prod.fst = L.map Member.orig ∧
      (∀ m ∈ L, m ∈ st.members cf un) ∧
      L.Pairwise (fun a b => score st.sizes nq b.key ≤ score st.sizes nq a.key + 10 * T * R.u) ∧
      ∀ m ∈ st.members cf un, Candidate st.sizes nq m.key → m ∉ L → ∀ a ∈ L,
        score st.sizes nq m.key ≤ score st.sizes nq a.key + 10 * T * R.u := by
  obtain ⟨hk, ha⟩ := findF_valid hres
  rw [findF_value h hk ha hq hnq hne] at hres
  injection hres with hres
  subst hres
  have hR := rankedBy_ranking (sc := scoreSF R st.sizes nq) (ns := st.sizes) (q := nq) h.facts.1
    k.toNat
  have hu := R.u_pos
  have herr : ∀ m ∈ st.members cf un,
      |scoreSF R st.sizes nq m.key - score st.sizes nq m.key| ≤ 5 * T * R.u := by
    intro m hm
    have h1 : (totalCount st.sizes nq m.key : ℚ) ≤ T := by exact_mod_cast hTm m hm
    refine (scoreSF_err h.facts.2.2.1 ((hTm m hm).trans hT)
      (by nlinarith)).trans ?_
    nlinarith
  have step : ∀ a ∈ st.members cf un, ∀ b ∈ st.members cf un,
      PreferredBy (scoreSF R st.sizes nq) (st.members cf un) a b →
      score st.sizes nq b.key ≤ score st.sizes nq a.key + 10 * T * R.u := by
    intro a ha b hb hp
    have e1 := abs_le.1 (herr a ha)
    have e2 := abs_le.1 (herr b hb)
    have : scoreSF R st.sizes nq b.key ≤ scoreSF R st.sizes nq a.key := by
      rcases hp with hp | ⟨hp, _⟩
      · exact hp.le
      · exact hp.le
    linarith [e1.1, e1.2, e2.1, e2.2]
  refine ⟨_, by rw [List.map_map]; rfl, fun m hm => (hR.members m hm).1, ?_, ?_⟩
  · exact hR.ordered.imp_of_mem
      (fun {a b} ha hb hp => step a (hR.members a ha).1 b (hR.members b hb).1 hp)
  · intro m hm hc hno a ha
    exact step a (hR.members a ha).1 m hm (hR.best m hm hc hno a ha)

/-- C135. If the true scores of any two candidates differ by more than `10 T u`, rounding changes
neither the words returned nor their order. -/
theorem C135_float_set_same_words {cs : Option Bool} {callable : Bool} {sizes : NArg} {st₀ : WS}
    (h : WS.new cs callable sizes = .ok st₀) (ops : List WSOp) {q nq : List Char} {k : ℤ} {T : ℕ}
    (hnq : keyOf st₀.caseSensitive cf un q = some nq)
    (hTm : ∀ m ∈ (st₀.run cf un ops).members cf un, totalCount st₀.sizes nq m.key ≤ T)
    (hT : T ≤ 2 ^ 53) (hTu : (T : ℚ) * R.u ≤ 1 / 2)
    (hgap : ∀ a ∈ (st₀.run cf un ops).members cf un, ∀ b ∈ (st₀.run cf un ops).members cf un,
      a ≠ b → Candidate st₀.sizes nq a.key → Candidate st₀.sizes nq b.key →
      10 * T * R.u < |score st₀.sizes nq a.key - score st₀.sizes nq b.key|) :
    suggestF R cf un (setRunF R cf un st₀ ops) (.str q) (.int k) =
      (st₀.run cf un ops).suggest cf un (.str q) (.int k) := by
  obtain ⟨hrep, hcfg⟩ := (Rep.new (cf := cf) (un := un) h).run ops
  have hst : setRunF R cf un st₀ ops = flWS R (st₀.run cf un ops) := by
    conv_lhs => rw [← flWS_new (R := R) h]
    exact setRunF_eq _ _
  have hkey : (st₀.run cf un ops).key cf un q = some nq := by rw [hcfg.key]; exact hnq
  have hns : (st₀.run cf un ops).nList.map Int.toNat = st₀.sizes := by rw [hcfg.2.1]; rfl
  have hnd : st₀.sizes.Nodup := (Rep.new (cf := cf) (un := un) h).nodupSizes
  unfold suggestF WS.suggest
  rw [hst, findSimilarF_abs hrep, hrep.findSimilar, hns]
  rw [hrep.members] at hTm hgap
  have hsn := hrep.nodupMembers
  generalize absRun _ _ _ _ = s at *
  unfold absFind absFindF
  simp only [hkey]
  split
  · rfl
  split
  · rfl
  split
  · rfl
  simp only [bind, Except.bind, pure, Except.pure, List.map_map]
  congr 1
  have hu := R.u_pos
  have herr : ∀ m ∈ s, |scoreSF R st₀.sizes nq m.key - score st₀.sizes nq m.key| ≤ 5 * T * R.u := by
    intro m hm
    have h1 : (totalCount st₀.sizes nq m.key : ℚ) ≤ T := by exact_mod_cast hTm m hm
    refine (scoreSF_err hnd ((hTm m hm).trans hT) (by nlinarith)).trans ?_
    nlinarith
  have hpref : ∀ a ∈ s, ∀ b ∈ s, Candidate st₀.sizes nq a.key → Candidate st₀.sizes nq b.key →
      PreferredBy (scoreSF R st₀.sizes nq) s a b → Preferred st₀.sizes nq s a b := by
    intro a ha b hb hca hcb hp
    have hab : a ≠ b := by rintro rfl; exact preferredBy_asymm hp hp
    have e1 := abs_le.1 (herr a ha)
    have e2 := abs_le.1 (herr b hb)
    have hle : scoreSF R st₀.sizes nq b.key ≤ scoreSF R st₀.sizes nq a.key := by
      rcases hp with hp | ⟨hp, _⟩
      · exact hp.le
      · exact hp.le
    rcases lt_abs.1 (hgap a ha b hb hab hca hcb) with hg | hg
    · left
      have : 0 ≤ 10 * (T : ℚ) * R.u := by positivity
      linarith
    · exfalso
      linarith [e1.1, e1.2, e2.1, e2.2]
  have hR := rankedBy_ranking (sc := scoreSF R st₀.sizes nq) (ns := st₀.sizes) (q := nq) hsn k.toNat
  have hL : rankedBy (scoreSF R st₀.sizes nq) st₀.sizes nq s k.toNat =
      ranked st₀.sizes nq s k.toNat := by
    apply ranking_unique _ (ranked_ranking hsn _)
    constructor
    · exact hR.members
    · exact hR.ordered.imp_of_mem (fun {a b} ha hb hp =>
        hpref a (hR.members a ha).1 b (hR.members b hb).1 (hR.members a ha).2 (hR.members b hb).2 hp)
    · exact hR.length
    · intro m hm hc hno r hr
      exact hpref r (hR.members r hr).1 m hm (hR.members r hr).2 hc (hR.best m hm hc hno r hr)
  rw [hL]
  rfl

example : suggestF binary64 (List.map Char.toLower) none wsDemoF (.str "nights".toList) (.int 5) =
      .ok [['N', 'i', 'g', 'h', 't'], ['l', 'i', 'g', 'h', 't']] ∧
    10 * (24 : ℕ) * binary64.u < |(521 / 720 : ℚ) - 63 / 160| := by
  refine ⟨by decide +kernel, ?_⟩
  show 10 * ((24 : ℕ) : ℚ) * (2 : ℚ)⁻¹ ^ 53 < _
  rw [abs_of_pos (by norm_num)]
  norm_num

/-! ## C136 -/

/-- C136. Exchanging query and word does not change the computed score if the two words have
different numbers of different n-grams. -/
theorem C136_float_set_symm {ns : List ℕ} {q w : List Char}
    (h : (allGrams ns q).toFinset.card ≠ (allGrams ns w).toFinset.card) :
    scoreSF R ns q w = scoreSF R ns w q := by
  apply scoreSF_comm
  have e : ∀ v : List Char, (firsts (allGrams ns v)).length = (allGrams ns v).toFinset.card := by
    intro v
    rw [← List.toFinset_card_of_nodup (nodup_firsts _)]
    congr 1
    ext g
    simp [mem_firsts]
  rw [e, e]
  exact h

example : (allGrams [2, 3] "nights".toList).toFinset.card = 13 ∧
    (allGrams [2, 3] "nacht".toList).toFinset.card = 11 ∧
    scoreSF binary64 [2, 3] "nights".toList "nacht".toList =
      5804639519721973 / 36028797018963968 := by
  refine ⟨?_, ?_, ?_⟩ <;> decide +kernel

/-- A case-sensitive set with sizes 2 and 3 and one word. -/
def oneWordF (w : List Char) : WS :=
  match WS.new (some true) true (.iter [3, 2]) with
  | .ok st => setRunF binary64 id none st [.add (.str w)]
  | .error _ => ⟨false, [], none, [], [], 0, [], []⟩

/-- C136. In general it does: with Python's floats and the sizes 2 and 3, looking up `"baaba"` in a
set with `"babaa"` gives another score than looking up `"babaa"` in a set with `"baaba"`, although
the true scores are equal. -/
theorem C136_float_set_not_symmetric :
    SetReachableF binary64 id none (oneWordF "babaa".toList) ∧
    SetReachableF binary64 id none (oneWordF "baaba".toList) ∧
    findSimilarF binary64 id none (oneWordF "babaa".toList) (.str "baaba".toList) (.int 1) .none =
      .ok [("babaa".toList, 6734928533658607 / 9007199254740992)] ∧
    findSimilarF binary64 id none (oneWordF "baaba".toList) (.str "babaa".toList) (.int 1) .none =
      .ok [("baaba".toList, 6734928533658605 / 9007199254740992)] ∧
    score [2, 3] "babaa".toList "baaba".toList = score [2, 3] "baaba".toList "babaa".toList := by
  have hr : ∀ w, SetReachableF binary64 id none (oneWordF w) := by
    intro w
    unfold oneWordF
    cases hn : WS.new (some true) true (.iter [3, 2]) with
    | ok st => exact ⟨_, _, _, _, _, hn, rfl⟩
    | error e =>
      have : (WS.new (some true) true (.iter [3, 2])).toOption.isSome = true := by decide +kernel
      rw [hn] at this; cases this
  refine ⟨hr _, hr _, ?_, ?_, ?_⟩ <;> decide +kernel

end Fp
end Verif
