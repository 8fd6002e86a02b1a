import Verif.Fp.SetProps
import Verif.WordSet.IncrProps
import Verif.WordSet.MergeProps

/-!
# Property C220: how the answers of a word set with floats depend on `k`, on single words and on parts

The statements of C207, C208 and C214, for `find_similar` in rounded arithmetic. They hold exactly,
for every rounding: the score of a word does not depend on the other words.
-/

namespace Verif
namespace Fp

open GramSpec WordSetSpec IndexSpec

variable {R : FOps} {cf : List Char → List Char} {un : Normalizer}

theorem setReachable_exact {st : WS} (h : SetReachableF R cf un st) :
    ∃ st', WSReachable cf un st' ∧ st = flWS R st' := by
  obtain ⟨cs, cb, sizes, st₀, ops, h₀, rfl⟩ := h
  refine ⟨st₀.run cf un ops, ⟨cs, cb, sizes, st₀, ops, h₀, rfl⟩, ?_⟩
  conv_lhs => rw [← flWS_new (R := R) h₀]
  exact setRunF_eq _ _

/-- Everything that a search could return, in the order of insertion. -/
def answers (R : FOps) (key : List Char → Option (List Char)) (ns : List ℕ) (s : List Member)
    (q : List Char) : List (List Char × ℚ) :=
  if q = [] then []
  else
    match key q with
    | none => []
    | some nq =>
      if nq = [] then []
      else (s.filter (fun m => Candidate ns nq m.key)).map (fun m => (m.orig, scoreSF R ns nq m.key))

theorem answers_append (key : List Char → Option (List Char)) (ns : List ℕ) (s s' : List Member)
    (q : List Char) : answers R key ns (s ++ s') q = answers R key ns s q ++ answers R key ns s' q := by
  unfold answers
  split
  · rfl
  · split
    · rfl
    · split
      · rfl
      · rw [List.filter_append, List.map_append]

theorem answers_delete {key : List Char → Option (List Char)} {ns : List ℕ} {s : List Member}
    (hkey : ∀ m ∈ s, key m.orig = some m.key) (kv q : List Char) :
    answers R key ns (delete s kv) q =
      (answers R key ns s q).filter (fun x => key x.1 ≠ some kv) := by
  unfold answers
  split
  · rfl
  · split
    · rfl
    · split
      · rfl
      · rw [delete, List.filter_comm, List.filter_map]
        congr 1
        apply List.filter_congr
        intro m hm
        simp only [Function.comp, hkey m (List.mem_of_mem_filter hm), Option.some.injEq, ne_eq]

theorem answers_count {key : List Char → Option (List Char)} {ns : List ℕ} {s : List Member}
    (hkey : ∀ m ∈ s, key m.orig = some m.key) (hs : (s.map Member.key).Nodup) (kv q : List Char) :
    ((answers R key ns s q).filter (fun x => !decide (key x.1 ≠ some kv))).length ≤ 1 := by
  unfold answers
  split
  · simp
  · split
    · simp
    · rename_i nq _
      split
      · simp
      · rw [List.filter_map, List.length_map]
        have e : ((s.filter (fun m => Candidate ns nq m.key)).filter
            ((fun x : List Char × ℚ => !decide (key x.1 ≠ some kv)) ∘
              (fun m : Member => (m.orig, scoreSF R ns nq m.key)))) =
            ((s.filter (fun m => Candidate ns nq m.key)).filter (fun m => m.key = kv)) := by
          apply List.filter_congr
          intro m hm
          simp only [Function.comp, hkey m (List.mem_of_mem_filter hm), Option.some.injEq, ne_eq,
            decide_not, Bool.not_not]
        rw [e, List.filter_comm]
        refine (List.length_filter_le _ _).trans ?_
        have h2 : (s.filter (fun m => m.key = kv)).length = (s.map Member.key).count kv := by
          rw [List.count, List.countP_map, List.countP_eq_length_filter]
          congr 2
          funext m
          simp [Function.comp, beq_eq_decide]
        rw [h2]
        exact List.nodup_iff_count_le_one.1 hs kv

theorem best_delete {l : List (List Char × ℚ)} {p : List Char × ℚ → Bool} (k : ℕ)
    (h : (l.filter (fun x => !p x)).length ≤ 1) :
    best (fun x => x.2) k (l.filter p) = ((best (fun x => x.2) (k + 1) l).filter p).take k := by
  rw [best_eq, best_eq, sortDesc_filter, take_filter_of_one]
  rw [((sortDesc_perm _ _).filter _).length_eq]
  exact h

/-- What a search that does not raise returns. -/
theorem findF_answers {st : WS} (h : SetReachableF R cf un st) {q k : PyVal} {ms : MinSim}
    {r : List (List Char × ℚ)} (hr : findSimilarF R cf un st q k ms = .ok r) :
    ∃ qs kz, q = .str qs ∧ k = .int kz ∧ 0 < kz ∧
      r = best (fun x => x.2) kz.toNat
        (answers R (st.key cf un) st.sizes (st.members cf un) qs) := by
  obtain ⟨st', h', rfl⟩ := setReachable_exact h
  rw [findSimilarF_abs h'.rep] at hr
  have hsz : (flWS R st').sizes = st'.nList.map Int.toNat := rfl
  have hk : (flWS R st').key cf un = st'.key cf un := rfl
  have hm : (flWS R st').members cf un = st'.members cf un := rfl
  rw [hsz, hk, hm]
  have hnil : ∀ j, best (fun x : List Char × ℚ => x.2) j [] = [] := by intro j; simp [best]
  unfold absFindF at hr
  cases q with
  | int i => cases k <;> cases hr
  | other => cases k <;> cases hr
  | str qs =>
    cases k with
    | str s => cases hr
    | other => cases hr
    | int kz =>
      simp only at hr
      split at hr
      · cases hr
      rename_i h1
      rw [not_or] at h1
      refine ⟨qs, kz, rfl, rfl, not_le.1 h1.1, ?_⟩
      split at hr
      · rename_i h2
        injection hr with hr
        subst hr
        have : answers R (st'.key cf un) (st'.nList.map Int.toNat) (st'.members cf un) qs = [] := by
          unfold answers
          rcases h2 with h2 | h2
          · rw [if_pos h2]
          · split
            · rfl
            · split
              · rfl
              · split
                · rfl
                · rw [h2]; rfl
        rw [this, hnil]
      rename_i h2
      rw [not_or] at h2
      unfold answers
      rw [if_neg h2.1]
      cases hk : st'.key cf un qs with
      | none => rw [hk] at hr; cases hr
      | some nq =>
        rw [hk] at hr
        simp only at hr ⊢
        split at hr
        · rename_i h3
          injection hr with hr
          rw [if_pos h3, hnil, hr]
        · rename_i h3
          injection hr with hr
          rw [if_neg h3, best_map, ← hr]
          rfl

theorem repF {st : WS} (h : SetReachableF R cf un st) :
    (∀ m ∈ st.members cf un, st.key cf un m.orig = some m.key) ∧
      ((st.members cf un).map Member.key).Nodup ∧
      st.iter = (st.members cf un).map Member.orig := by
  obtain ⟨st', h', rfl⟩ := setReachable_exact h
  exact ⟨fun m hm => (h'.rep.keys m hm).1, h'.rep.nodup, h'.rep.iter⟩

/-- **C220.** Asking for fewer words returns the beginning of the longer answer. -/
theorem C220_prefix {st : WS} (h : SetReachableF R cf un st) {q : PyVal} {k k' : ℤ} (hkk : k ≤ k')
    {ms : MinSim} {r r' : List (List Char × ℚ)}
    (hr : findSimilarF R cf un st q (.int k) ms = .ok r)
    (hr' : findSimilarF R cf un st q (.int k') ms = .ok r') : r = r'.take k.toNat := by
  obtain ⟨qs, kz, rfl, hz, hk, rfl⟩ := findF_answers h hr
  obtain ⟨qs', kz', hq', hz', hk', rfl⟩ := findF_answers h hr'
  injection hz with hz; subst hz
  injection hz' with hz'; subst hz'
  injection hq' with hq'; subst hq'
  rw [best_eq, best_eq, List.take_take, Nat.min_eq_left (by omega)]

theorem findF_delete {st st' : WS} (h : SetReachableF R cf un st) (h' : SetReachableF R cf un st')
    (hc : SameConfig st st') {kv : List Char}
    (hm : st'.members cf un = delete (st.members cf un) kv) {q : PyVal} {k : ℤ} {ms : MinSim}
    {r r' : List (List Char × ℚ)} (hr : findSimilarF R cf un st q (.int (k + 1)) ms = .ok r)
    (hr' : findSimilarF R cf un st' q (.int k) ms = .ok r') :
    r' = (r.filter (fun x => keyOf st.caseSensitive cf un x.1 ≠ some kv)).take k.toNat := by
  obtain ⟨qs, kz, rfl, hz, hk, rfl⟩ := findF_answers h hr
  obtain ⟨qs', kz', hq', hz', hk', rfl⟩ := findF_answers h' hr'
  injection hz with hz; subst hz
  injection hz' with hz'; subst hz'
  injection hq' with hq'; subst hq'
  obtain ⟨hkey, hnd, -⟩ := repF h
  have hk' : st'.key cf un = st.key cf un := by
    funext w; unfold WS.key; rw [hc.1]
  have hsz : st'.sizes = st.sizes := by unfold WS.sizes; rw [hc.2.1]
  rw [hm, hk', hsz, answers_delete hkey, best_delete _ (answers_count hkey hnd kv qs),
    show (k + 1).toNat = k.toNat + 1 by omega]
  rfl

theorem SetReachableF.next {st : WS} (h : SetReachableF R cf un st) (op : WSOp) :
    SetReachableF R cf un (setStepF R cf un st op).1 := by
  obtain ⟨cs, cb, sizes, st₀, ops, h₀, rfl⟩ := h
  exact ⟨cs, cb, sizes, st₀, ops ++ [op], h₀, by simp [setRunF]⟩

/-- The state after a call, up to the stored positions. -/
theorem stepF_members {st : WS} (h : SetReachableF R cf un st) (op : WSOp) :
    (setStepF R cf un st op).1.members cf un = (absStep (st.key cf un) st.sizes (st.members cf un) op).1 ∧
      SameConfig st (setStepF R cf un st op).1 := by
  obtain ⟨st', h', rfl⟩ := setReachable_exact h
  rw [setStepF_state]
  obtain ⟨h1, _, h3⟩ := h'.rep.step op
  exact ⟨h1.members, h3⟩

/-- **C220.** After discarding a word, every search gives what it gave before, without the word and
with the next word moving up. -/
theorem C220_discard {st : WS} (h : SetReachableF R cf un st) {v kv : List Char}
    (hv : keyOf st.caseSensitive cf un v = some kv) {q : PyVal} {k : ℤ} {ms : MinSim}
    {r r' : List (List Char × ℚ)} (hr : findSimilarF R cf un st q (.int (k + 1)) ms = .ok r)
    (hr' : findSimilarF R cf un (st.discard cf un (.str v)).1 q (.int k) ms = .ok r') :
    r' = (r.filter (fun x => keyOf st.caseSensitive cf un x.1 ≠ some kv)).take k.toNat := by
  obtain ⟨h1, h3⟩ := stepF_members h (.discard (.str v))
  refine findF_delete h (h.next (.discard (.str v))) h3 ?_ hr hr'
  rw [h1]
  simp only [absStep, absDiscard, WS.key, hv]

/-- **C220.** After adding a new word, every search gives what it gave before, except that the word
may appear somewhere and then pushes the following ones back. -/
theorem C220_add {st : WS} (h : SetReachableF R cf un st) {v kv : List Char}
    (hv : keyOf st.caseSensitive cf un v = some kv)
    (hnew : st.contains cf un (.str v) = .ok false) {q : PyVal} {k : ℤ} {ms : MinSim}
    {r r' : List (List Char × ℚ)} (hr : findSimilarF R cf un st q (.int k) ms = .ok r)
    (hr' : findSimilarF R cf un (addSetF R cf un st (.str v)).1 q (.int (k + 1)) ms = .ok r') :
    r = (r'.filter (fun x => keyOf st.caseSensitive cf un x.1 ≠ some kv)).take k.toNat := by
  obtain ⟨h1, h3⟩ := stepF_members h (.add (.str v))
  have h4 : SameConfig (setStepF R cf un st (.add (.str v))).1 st :=
    ⟨h3.1.symm, h3.2.1.symm, h3.2.2.symm⟩
  have hno : ¬ Mem (st.members cf un) kv := by
    obtain ⟨st', h', rfl⟩ := setReachable_exact h
    have hnew' : st'.contains cf un (.str v) = .ok false := hnew
    rw [C35_contains h' hv] at hnew'
    injection hnew' with hnew'
    rw [decide_eq_false_iff_not] at hnew'
    rintro ⟨m, hm, rfl⟩
    refine hnew' ⟨m.orig, ?_, (h'.rep.keys m hm).1⟩
    rw [h'.rep.iter]
    exact List.mem_map.2 ⟨m, hm, rfl⟩
  have := findF_delete (h.next (.add (.str v))) h h4 (kv := kv) ?_ hr' hr
  · rw [h3.1] at this; exact this
  rw [h1]
  have hdel : delete (st.members cf un) kv = st.members cf un := by
    unfold delete
    rw [List.filter_eq_self]
    intro m hm
    simp only [ne_eq, decide_not, Bool.not_eq_true', decide_eq_false_iff_not]
    exact fun hc => hno ⟨m, hm, hc⟩
  have hcase := absAdd_cases (key := st.key cf un) (s := st.members cf un) (v := v) (kv := kv) hv
  simp only [absStep]
  rcases hcase with hcase | hcase
  · rw [hcase, hdel]
  · rw [hcase, WordSetSpec.insert, if_neg hno, delete, List.filter_append]
    unfold delete at hdel
    rw [hdel]
    simp

/-- With binary64: discarding "night" (stored as "Night") lets "light" move up, and adding "knacht"
pushes it back. -/
example :
    keyOf wsDemoF.caseSensitive (List.map Char.toLower) none "nIGHT".toList = some "night".toList ∧
    (findSimilarF binary64 (List.map Char.toLower) none wsDemoF (.str "Nacht".toList) (.int 3)
      .none).map (List.map Prod.fst) = .ok ["nacht".toList, "Night".toList, "light".toList] ∧
    (findSimilarF binary64 (List.map Char.toLower) none
      (wsDemoF.discard (List.map Char.toLower) none (.str "nIGHT".toList)).1 (.str "Nacht".toList)
      (.int 2) .none).map (List.map Prod.fst) = .ok ["nacht".toList, "light".toList] ∧
    (findSimilarF binary64 (List.map Char.toLower) none
      (addSetF binary64 (List.map Char.toLower) none wsDemoF (.str "knacht".toList)).1
      (.str "Nacht".toList) (.int 3) .none).map (List.map Prod.fst) =
      .ok ["nacht".toList, "knacht".toList, "Night".toList] := by
  decide +kernel

/-- **C220.** If the words of `u` are those of `a` followed by those of `b`, the answer of `u` is the
merge of the answers of `a` and `b`. -/
theorem C220_merge {u a b : WS} (hu : SetReachableF R cf un u) (ha : SetReachableF R cf un a)
    (hb : SetReachableF R cf un b) (hca : a.caseSensitive = u.caseSensitive)
    (hsa : a.sizes = u.sizes) (hcb : b.caseSensitive = u.caseSensitive) (hsb : b.sizes = u.sizes)
    (hi : u.iter = a.iter ++ b.iter) {q : PyVal} {k : ℤ} {ms : MinSim}
    {ru ra rb : List (List Char × ℚ)} (hru : findSimilarF R cf un u q (.int k) ms = .ok ru)
    (hra : findSimilarF R cf un a q (.int k) ms = .ok ra)
    (hrb : findSimilarF R cf un b q (.int k) ms = .ok rb) :
    ru = best (fun r => r.2) k.toNat (ra ++ rb) := by
  have hka : a.key cf un = u.key cf un := by funext w; unfold WS.key; rw [hca]
  have hkb : b.key cf un = u.key cf un := by funext w; unfold WS.key; rw [hcb]
  obtain ⟨ku, -, iu⟩ := repF hu
  obtain ⟨ka, -, ia⟩ := repF ha
  obtain ⟨kb, -, ib⟩ := repF hb
  have hm : u.members cf un = a.members cf un ++ b.members cf un := by
    apply members_of_orig (key := u.key cf un) ku
    · intro m hm
      rcases List.mem_append.1 hm with hm | hm
      · rw [← hka]; exact ka m hm
      · rw [← hkb]; exact kb m hm
    · rw [List.map_append, ← iu, ← ia, ← ib, hi]
  obtain ⟨qs, kz, rfl, hz, -, rfl⟩ := findF_answers hu hru
  obtain ⟨qa, k1, h1, h2, -, rfl⟩ := findF_answers ha hra
  obtain ⟨qb, k2, h3, h4, -, rfl⟩ := findF_answers hb hrb
  injection hz with hz; subst hz
  injection h1 with h1; subst h1
  injection h2 with h2; subst h2
  injection h3 with h3; subst h3
  injection h4 with h4; subst h4
  rw [hm, hka, hkb, hsa, hsb, answers_append, best_merge]

/-- The set with "Night", "light" and "nacht", searched in two parts. -/
def wsPartF (ws : List (List Char)) : WS :=
  match WS.new (some false) true (.iter [3, 2]) with
  | .ok st => setRunF binary64 (List.map Char.toLower) none st (ws.map (fun w => .add (.str w)))
  | .error _ => ⟨false, [], none, [], [], 0, [], []⟩

theorem wsPartF_reach (ws : List (List Char)) :
    SetReachableF binary64 (List.map Char.toLower) none (wsPartF ws) := by
  unfold wsPartF
  cases hn : WS.new (some false) true (.iter [3, 2]) with
  | ok st => exact ⟨_, _, _, _, _, hn, rfl⟩
  | error e =>
    have : (WS.new (some false) true (.iter [3, 2])).toOption.isSome = true := by decide +kernel
    rw [hn] at this; cases this

example :
    wsDemoF.iter = (wsPartF ["Night".toList]).iter ++
      (wsPartF ["light".toList, "nacht".toList]).iter ∧
    (findSimilarF binary64 (List.map Char.toLower) none (wsPartF ["Night".toList])
      (.str "Nacht".toList) (.int 2) .none).map (List.map Prod.fst) = .ok ["Night".toList] ∧
    (findSimilarF binary64 (List.map Char.toLower) none (wsPartF ["light".toList, "nacht".toList])
      (.str "Nacht".toList) (.int 2) .none).map (List.map Prod.fst) =
      .ok ["nacht".toList, "light".toList] ∧
    (findSimilarF binary64 (List.map Char.toLower) none wsDemoF
      (.str "Nacht".toList) (.int 2) .none).map (List.map Prod.fst) =
      .ok ["nacht".toList, "Night".toList] := by
  decide +kernel

end Fp
end Verif
