import Verif.Memo.LruProps

/-!
# C199, C200: what goes wrong with the caches
-/

namespace Verif.Memo

open Verif.MemoSpec

set_option linter.unusedSectionVars false

variable {S : Type} [Ring S] [LinearOrder S]

/-! ## Floats -/

theorem numSet_one (n : Num) : numSet [n] = [n] := by
  have h : [n].pwFilter (fun a b => a.val ≠ b.val) = [n] := by
    rw [List.pwFilter_cons_of_pos (by simp), List.pwFilter_nil]
  rw [numSet, h]
  simp

/-- Adding a new word to an empty V3 list for one `n` greater than 1. -/
theorem v3_add_new (M : ℕ) (cf : List Char → List Char) (n : Num) (hn : n.val > 1)
    (w : List Char) (hw : w ≠ []) (hm : '\x02' ∉ w ∧ '\x03' ∉ w) (c : Caches) :
    ∃ st : V3, st.vocabIndices = [(w, 0)] ∧ st.caseInsensitive = false ∧ st.ngramIndices = [] ∧
      (v3AddWordP cf [n] (v3New [n] true) (.str w)).exec M c =
        (match windows w n (callNums M c w.length n).1 with
          | .error e => (st, .error e)
          | .ok gs => ({ st with
              ngramIndices := (addLocations gs).foldl
                (fun d it => Dict.appendTo d it.1 (0, it.2)) [] }, .ok ()),
         (callNums M c w.length n).2) := by
  have hl : w.length ≠ 0 := by simpa using hw
  refine ⟨⟨[n.toInt], false, [w], [(w, 0)], []⟩, rfl, rfl, rfl, ?_⟩
  have hf : (v3New [n] true).fold cf w = w := rfl
  have hr : (v3New [n] true).resolve cf w true =
      (⟨[n.toInt], false, [w], [(w, 0)], []⟩, .ok (some 0)) := by
    unfold V3.resolve
    rw [if_neg hl]
    simp only [hf]
    simp [v3New, Dict.set]
  unfold v3AddWordP
  simp only [if_neg hl, hf]
  rw [if_neg (by simp [v3New, Dict.has]), if_neg (by simpa using hm), hr]
  simp only [numSet_one, Option.getD_some, v3AddGramsP]
  rw [exec_bind]
  unfold v3GramsP
  rw [if_pos hn]
  change Prod.mk _ _ = _
  simp only [ExceptT.run, ExceptT.mk, Prog.exec]
  cases windows w n (callNums M c w.length n).1 <;> rfl

theorem callNums_hit (M : ℕ) (c : Caches) (l : ℕ) (n : Num) (h : Dict.get? c.nums (l, n.val) = none)
    (n' : Num) (hn : n'.val = n.val) :
    (callNums M (callNums M c l n).2 l n').1 = numsBody l n ∧
      Dict.get? (callNums M (callNums M c l n).2 l n').2.nums (l, n.val) =
        some (numsBody l n) := by
  have h1 : (callNums M c l n).2.nums = remember M c.nums (l, n.val) (numsBody l n) := by
    unfold callNums; rw [h]
  have h2 : Dict.get? (callNums M c l n).2.nums (l, n'.val) = some (numsBody l n) := by
    rw [h1, hn]
    simp [remember, Dict.get?_cons]
  unfold callNums at h2 ⊢
  rw [h2]
  exact ⟨rfl, by simp [refresh, Dict.get?_cons, hn]⟩

/-- **C199.** Let `n` be at least 2, and let `w`, `w'` and `q` be words of the same length. If
`num_grams` has not been called yet with this length and `n`, then adding `w` to a list
`ApproxWordListV3([float(n)])` raises `TypeError`, and from then on so does adding `w'` to another
list `ApproxWordListV3([n])` and looking up `q` in it, though both work in a process in which nobody
has used a float. Adding `w'` again succeeds without adding anything. -/
theorem C199_floats_break_other_lists (M : ℕ) (agg : List ℚ → S) (cf : List Char → List Char)
    (p : Proc) (n : ℤ) (hn : 2 ≤ n) (w w' q : List Char) (hw : w ≠ [])
    (hl : w'.length = w.length) (hlq : q.length = w.length)
    (hm : ∀ u ∈ [w, w', q], '\x02' ∉ u ∧ '\x03' ∉ u) (topK : Option ℤ)
    (hfresh : Dict.get? p.caches.nums (w.length, (n : ℚ)) = none) :
    (p.run M agg cf
      [.newV3 [.float n] true, .newV3 [.int n] true, .addV3 p.v3s.length (.str w),
       .addV3 (p.v3s.length + 1) (.str w'), .lookupV3 (p.v3s.length + 1) (.str q) topK,
       .addV3 (p.v3s.length + 1) (.str w')]).2 =
      [.unit (.ok ()), .unit (.ok ()), .unit (.error .typeError), .unit (.error .typeError),
       .foundV3 (.error .typeError), .unit (.ok ())] ∧
    (Objs.run (S := S) agg cf ⟨[], []⟩ [.newV3 [.int n] true, .addV3 0 (.str w')]).2 =
      [.unit (.ok ()), .unit (.ok ())] := by
  have hw' : w' ≠ [] := by
    intro h; rw [h] at hl; exact hw (List.length_eq_zero_iff.1 hl.symm)
  have hq : q ≠ [] := by
    intro h; rw [h] at hlq; exact hw (List.length_eq_zero_iff.1 hlq.symm)
  have hn1 : (1 : ℚ) < n := by exact_mod_cast (by omega : (1 : ℤ) < n)
  have hb : numsBody w.length (.float n) = .float (w.length + 2 + 1 - n) := by
    simp [numsBody, hn1]
  obtain ⟨s1, -, -, -, h1⟩ := v3_add_new M cf (.float n) hn1 w hw (hm w (by simp)) p.caches
  have e1 : (callNums M p.caches w.length (.float n)).1 = .float (w.length + 2 + 1 - n) := by
    unfold callNums
    simp only [Num.val]
    rw [hfresh, hb]
  set c1 := (callNums M p.caches w.length (.float n)).2 with hc1
  rw [e1] at h1
  simp only [windows] at h1
  obtain ⟨e2, g2⟩ := callNums_hit M p.caches w.length (.float n) hfresh (.int n) rfl
  rw [hb, ← hc1] at e2 g2
  obtain ⟨s2, hv2, hci2, hg2, h2⟩ := v3_add_new M cf (.int n) hn1 w' hw' (hm w' (by simp)) c1
  rw [hl] at h2
  set c2 := (callNums M c1 w.length (.int n)).2 with hc2
  rw [e2] at h2
  simp only [windows] at h2
  have h3 : ((v3LookupP agg cf [.int n] s2 (.str q) topK).run.exec M c2).1 = .error .typeError := by
    have hf : s2.fold cf q = q := by simp [V3.fold, hci2]
    unfold v3LookupP
    simp only [if_neg (show ¬ q.length = 0 by simpa using hq), hf]
    rw [if_neg (by simpa using hm q (by simp))]
    have e3 : (callNums M c2 q.length (.int n)).1 = .float (w.length + 2 + 1 - n) := by
      unfold callNums
      simp only [Num.val] at g2 ⊢
      rw [hlq, g2]
    have h4 : ((v3MatchesP [.int n] s2 q).run.exec M c2).1 = .error .typeError := by
      unfold v3MatchesP
      rw [List.zipIdx_singleton, List.foldlM_cons, ExceptT.run_bind, exec_bind, ExceptT.run_bind,
        exec_bind]
      simp only [ExceptT.run, ExceptT.mk, Prog.exec, e3, windows]
      rfl
    rw [ExceptT.run_bind, exec_bind, h4]
    rfl
  set c3 := ((v3LookupP agg cf [.int n] s2 (.str q) topK).run.exec M c2).2
  have h5 : ∀ c, (v3AddWordP cf [.int n] s2 (.str w')).exec M c = ((s2, .ok ()), c) := by
    intro c
    have hf : s2.fold cf w' = w' := by simp [V3.fold, hci2]
    unfold v3AddWordP
    simp only [if_neg (show ¬ w'.length = 0 by simpa using hw'), hf]
    rw [if_pos (by simp [Dict.has, hv2, Dict.get?_cons])]
    rfl
  constructor
  · simp only [Proc.run, Proc.step, List.append_assoc, List.cons_append, List.nil_append,
      List.getElem?_append_right (le_refl _), Nat.sub_self, List.getElem?_cons_zero, h1]
    have i1 : ∀ (x y : List Num × V3), (p.v3s ++ [x, y])[p.v3s.length + 1]? = some y := by
      intro x y
      rw [List.getElem?_append_right (by omega), Nat.add_sub_cancel_left]
      rfl
    have i0 : ∀ (x y z : List Num × V3), (p.v3s ++ [x, y]).set p.v3s.length z = p.v3s ++ [z, y] := by
      intro x y z
      rw [List.set_append_right _ _ (le_refl _), Nat.sub_self]
      rfl
    have i2 : ∀ (x y z : List Num × V3),
        (p.v3s ++ [x, y]).set (p.v3s.length + 1) z = p.v3s ++ [x, z] := by
      intro x y z
      rw [List.set_append_right _ _ (by omega), Nat.add_sub_cancel_left]
      rfl
    simp only [i0, i1, h2, i2, h3, h5]
  · have hf : (v3New [.int n] true).fold cf w' = w' := rfl
    have hr : (v3New [.int n] true).resolve cf w' true =
        (⟨[n], false, [w'], [(w', 0)], []⟩, .ok (some 0)) := by
      unfold V3.resolve
      rw [if_neg (by simpa using hw')]
      simp only [hf]
      simp [v3New, Dict.set, Num.toInt]
    simp only [Objs.run, Objs.step, List.nil_append, List.getElem?_cons_zero]
    unfold V3.addWord
    simp only [if_neg (show ¬ w'.length = 0 by simpa using hw'), hf]
    rw [if_neg (by simp [v3New, Dict.has]), if_neg (by simpa using hm w' (by simp)), hr]

/-- Two lists, one of which was made with `2.0`. -/
example : ∃ ops : List Op, (Proc.start.run 0xFFFF mean1 id ops).2 =
    [.unit (.ok ()), .unit (.ok ()), .unit (.error .typeError), .unit (.error .typeError),
     .foundV3 (.error .typeError), .unit (.ok ())] :=
  ⟨_, (C199_floats_break_other_lists 0xFFFF mean1 id Proc.start 2 (by decide) ['c', 'a', 't']
    ['d', 'o', 'g'] ['d', 'i', 'g'] (by decide) rfl rfl (by decide) none rfl).1⟩

/-! ## Changed lists -/

theorem foldlM_skip {α β : Type} (l : List α) (b : β) :
    l.foldlM (fun b _ => (pure b : P β)) b = pure b := by
  induction l with
  | nil => rfl
  | cons a l ih => rw [List.foldlM_cons, pure_bind, ih]

/-- A word list for one `n`, without a filter, that lists words but has no n-grams. -/
structure Blank (st : WL) (n : ℤ) : Prop where
  nList : st.nList = [n]
  case : st.caseInsensitive = false
  filter : st.filterN = 0
  counts : st.ngramCounts = []

/-- In such a list nothing is found, whatever the caches contain. -/
theorem blank_lookup (M : ℕ) (agg : List ℚ → S) (cf : List Char → List Char) {st : WL} {n : ℤ}
    (h : Blank st n) (q : List Char) (hq : q ≠ []) (hm : '\x02' ∉ q ∧ '\x03' ∉ q) (k : ℤ)
    (hk : 0 < k) (nm : Bool) (c : Caches) :
    ((lookupP agg cf st (.str q) (.int k) nm).run.exec M c).1 = .ok [] := by
  have hc : st.checkLookup cf (.str q) (.int k) = .ok (q, k.toNat) := by
    unfold WL.checkLookup WL.fold
    simp only [if_neg (show ¬ q.length = 0 by simpa using hq), if_neg (show ¬ k ≤ 0 by omega),
      h.case]
    rw [if_neg (by simpa using hm)]
    rfl
  have hms : ∀ c, ((minScoresP st q nm).run.exec M c).1 = .ok [] := by
    intro c
    unfold minScoresP filterP
    rw [if_neg (by simp [h.filter]), pure_bind, h.nList, List.zipIdx_singleton, List.foldlM_cons]
    simp only [h.counts, Dict.get?_nil, Option.getD_none, List.foldlM_nil, foldlM_skip]
    rw [ExceptT.run_bind, exec_bind, ExceptT.run_bind, exec_bind]
    obtain ⟨a, ha⟩ := callGrams_int_ok M c q n
    simp only [tryGrams, askGrams, ExceptT.run_mk, Prog.exec]
    rcases hg : callGrams M c q (.int n) with ⟨r, c'⟩
    rw [hg] at ha
    simp only at ha
    subst ha
    rfl
  have hls : ∀ c, ((lookupSimilarityP agg st q k.toNat nm).run.exec M c).1 = .ok [] := by
    intro c
    unfold lookupSimilarityP
    rw [if_neg (by omega), ExceptT.run_bind, exec_bind, hms]
    rfl
  unfold lookupP
  rw [hc, ExceptT.run_bind, exec_bind]
  change ((ExceptT.run (lookupSimilarityP agg st q k.toNat nm >>= _)).exec M c).1 = _
  rw [ExceptT.run_bind, exec_bind, hls]
  have hmc : ∀ (T : Type) [LinearOrder T] (j : ℕ), mostCommon ([] : List (ℕ × T)) j = [] := by
    intro T _ j
    simp [mostCommon, sortDesc]
  simp only [hmc, List.mapM_nil]
  change Except.bind (pure []) _ = _
  simp only [Except.bind, pure, Except.pure, hmc]
  rfl

/-- Adding a word whose cached list of n-grams is empty. -/
theorem blank_add (M : ℕ) (cf : List Char → List Char) {st : WL} {n : ℤ} (h : Blank st n)
    (hw0 : st.wordIndices = [] ∧ st.wordList = [] ∧ st.wordLens = [])
    (w : List Char) (hw : w ≠ []) (hm : '\x02' ∉ w ∧ '\x03' ∉ w) (c : Caches) (a : ℕ)
    (hg : Dict.get? c.grams (w, (n : ℚ)) = some a) (he : c.heap.getD a [] = []) :
    ∃ st', Blank st' n ∧ st'.wordList = [w] ∧
      ((addWordP cf st (.str w)).exec M c).1 = (st', .ok ()) := by
  have hf : st.fold cf w = w := by simp [WL.fold, h.case]
  have hl : ¬ w.length = 0 := by simpa using hw
  have hr : ∀ c, ∃ st', Blank st' n ∧ st'.wordList = [w] ∧
      ((resolveP cf st w).exec M c).1 = (st', .ok 0) ∧
      ((resolveP cf st w).exec M c).2.grams = c.grams ∧
      ((resolveP cf st w).exec M c).2.heap = c.heap := by
    intro c
    unfold resolveP
    simp only [if_neg hl, hf, hw0.1, hw0.2.1, hw0.2.2, Dict.get?_nil, h.nList]
    have hn : ∃ x, ((numsP w.length [n]).exec M c).1 = x := ⟨_, rfl⟩
    obtain ⟨x, hx⟩ := hn
    refine ⟨{ st with
      wordIndices := [(w, 0)]
      wordList := [w]
      wordLens := [w.length]
      wordNumGrams := st.wordNumGrams ++ [x]
      nList := [n] }, ⟨rfl, h.case, h.filter, h.counts⟩, rfl, ?_⟩
    rw [exec_bind, hx]
    have hc : ((numsP w.length [n]).exec M c).2.grams = c.grams ∧
        ((numsP w.length [n]).exec M c).2.heap = c.heap := by
      simp only [numsP, Prog.exec]
      change (callNums M c w.length (.int n)).2.grams = _ ∧ _
      unfold callNums
      split <;> exact ⟨rfl, rfl⟩
    simp only [Dict.set, List.nil_append, List.length_singleton, List.length_nil]
    rw [if_pos (by simp)]
    exact ⟨by simp only [← h.nList]; rfl, hc.1, hc.2⟩
  obtain ⟨st', hb, hwl, h1, h2, h3⟩ := hr c
  refine ⟨st', hb, hwl, ?_⟩
  unfold addWordP
  simp only [if_neg hl, hf]
  rw [if_neg (by simp [hw0.1, Dict.has]), if_neg (by simpa using hm), exec_bind, h1]
  simp only
  rw [exec_bind]
  have hfil : ∀ c, (addFilterP st' w 0).exec M c = ((st', .ok ()), c) := by
    intro c
    unfold addFilterP
    rw [if_neg (by simp [hb.filter])]
    rfl
  rw [hfil]
  simp only [hb.nList, addGramsP]
  rw [exec_bind]
  simp only [askGrams, Prog.exec]
  unfold callGrams
  simp only [Num.val]
  rw [h2, hg, h3]
  simp only [he]
  rfl

/-- **C200.** Suppose that a process, whatever it has done before, calls `get_n_grams(w, n)` and
empties the list that it gets. If it then makes a new `WordList(n, filter_n=0)` and adds `w`,
`add_word` succeeds and the list contains the word `w`; but no lookup of any word ever finds it. -/
theorem C200_changed_list_spoils_words (M : ℕ) (hM : 1 ≤ M) (agg : List ℚ → S)
    (cf : List Char → List Char) (ops : List Op) (p : Proc)
    (hp : p = (Proc.start.run M agg cf ops).1) (w : List Char) (hw : w ≠ [])
    (hm : '\x02' ∉ w ∧ '\x03' ∉ w) (n : ℤ) (hn : 0 < n) :
    ∃ a l p', p.run M agg cf [.grams w (.int n), .write a [], .newList (.int n) true 0,
        .add p.wls.length (.str w)] =
        (p', [.list (.ok (a, l)), .unit (.ok ()), .unit (.ok ()), .unit (.ok ())]) ∧
      p'.wls[p.wls.length]?.map WL.vocabulary = some [w] ∧
      ∀ (q : List Char), q ≠ [] → ('\x02' ∉ q ∧ '\x03' ∉ q) → ∀ (k : ℤ), 0 < k → ∀ (nm : Bool),
        (p'.step M agg cf (.lookup p.wls.length (.str q) (.int k) nm)).2 = .found (.ok []) := by
  have hc : CacheInv M p.caches := hp ▸ run_inv hM agg cf ops (start_inv M)
  obtain ⟨a, ha⟩ := callGrams_int_ok M p.caches w n
  have hs := step_grams M agg cf p w n ha
  set c1 := (callGrams M p.caches w (.int n)).2 with hc1
  have hi1 : CacheInv M c1 := callGrams_inv hM hc w (.int n)
  have hget : Dict.get? c1.grams (w, (n : ℚ)) = some a := by
    rw [hc1]
    unfold callGrams at ha ⊢
    split
    next b hb =>
      rw [hb] at ha
      simp only [refresh, Dict.get?_cons, Num.val, if_true] at ha ⊢
      rw [Except.ok.inj ha]
    next hb =>
      rw [hb] at ha
      simp only [gramsBody, remember, Dict.get?_cons, Num.val, if_true] at ha ⊢
      rw [Except.ok.inj ha]
  have hal : a < c1.heap.length := hi1.exist _ (Dict.mem_of_get? hget)
  set c2 : Caches := { c1 with heap := c1.heap.set a [] } with hc2
  have he : c2.heap.getD a [] = [] := by
    simp [hc2, List.getD_eq_getElem?_getD, hal]
  set st : WL := { nList := [n], caseInsensitive := false, filterN := 0, wordIndices := [],
                   wordList := [], wordLens := [], wordNumGrams := [], ngramFilter := [],
                   ngramCounts := [], ngramPositions := [] } with hst
  have hnew : WL.new (.int n) true 0 = .ok st := by
    simp only [WL.new, mkNList]
    rw [if_pos (by omega)]
    rfl
  have hb : Blank st n := ⟨rfl, rfl, rfl, rfl⟩
  obtain ⟨st', hb', hwl, h1⟩ := blank_add M cf hb ⟨rfl, rfl, rfl⟩ w hw hm c2 a hget he
  have hidx : ∀ x : WL, (p.wls ++ [x])[p.wls.length]? = some x := by
    intro x
    rw [List.getElem?_append_right (le_refl _), Nat.sub_self]
    rfl
  have hset : ∀ x y : WL, (p.wls ++ [x]).set p.wls.length y = p.wls ++ [y] := by
    intro x y
    rw [List.set_append_right _ _ (le_refl _), Nat.sub_self]
    rfl
  refine ⟨a, c1.heap.getD a [], { p with
    caches := ((addWordP cf st (.str w)).exec M c2).2
    wls := p.wls ++ [st'] }, ?_, ?_, ?_⟩
  · simp only [Proc.run]
    rw [hs]
    simp only [Proc.step, hnew, hidx, hset]
    rw [← hc2, h1]
  · simp only [hidx, Option.map_some, WL.vocabulary, hwl]
    rfl
  · intro q hq hmq k hk nm
    simp only [Proc.step, hidx]
    rw [blank_lookup M agg cf hb' q hq hmq k hk nm]

/-- Without the change the word is found. -/
example :
    (Proc.start.run 0xFFFF mean1 id [.grams ['h', 'i'] (.int 2), .newList (.int 2) true 0,
      .add 0 (.str ['h', 'i']), .lookup 0 (.str ['h', 'i']) (.int 1) true]).2.getLast? =
      some (.found (.ok [(['h', 'i'], toLex (1, 1))])) := by
  with_unfolding_all rfl

end Verif.Memo
