import Verif.Conc.ListRun

/-!
# `WordList` filled by several threads: properties C189, C190
-/

namespace Verif
namespace ListConc

open GramSpec IndexSpec

variable {cf : List Char → List Char} {S : Type} [LinearOrder S]

/-! ## C189 -/

/-- Threads call `add_word` of one list, steps interleaved arbitrarily, at no time two calls for the same
word. If, when no call is in progress, none of them has raised that could have succeeded, then each has
returned or raised what it does alone, and the list behaves like one to which the words were added one
after another, in any order: the same vocabulary, the same exceptions and scores of lookups, exact scores;
and all this also after any further calls. -/
theorem C189_threads_adding (hcf : ∀ w, cf (cf w) = cf w) {st : WL} (hr : st.Reachable cf)
    {C : ℕ → Call} (hfair : ∀ i, (C i).Fair) {sched : List ℕ}
    (ha : AlwaysApart cf C (Sys.start st) sched)
    (hidle : ∀ i, (((Sys.start st).run cf C sched).pc i).active = false)
    (hret : ∀ i r, (((Sys.start st).run cf C sched).pc i).outcome = some r →
      (st.addWord cf (C i).word).2 = .ok () → r = .ok ()) :
    (∀ i ∈ sched, (((Sys.start st).run cf C sched).pc i).outcome =
      some (st.addWord cf (C i).word).2) ∧
    ∀ js : List ℕ, (∀ j, j ∈ js ↔ j ∈ sched) → ∀ ops : List WLOp,
      (((Sys.start st).run cf C sched).mem.run cf ops).vocabulary =
        ((st.run cf (js.map fun j => .add (C j).word)).run cf ops).vocabulary ∧
      ∀ (agg : List ℚ → S), MonotoneAgg agg → ∀ (word topK : PyVal) (normalize : Bool),
        SameScores ((((Sys.start st).run cf C sched).mem.run cf ops).lookup agg cf word topK normalize)
          (((st.run cf (js.map fun j => .add (C j).word)).run cf ops).lookup agg cf word topK
            normalize) ∧
        ∀ w res, word = .str w →
          (((Sys.start st).run cf C sched).mem.run cf ops).lookup agg cf word topK normalize =
            .ok res → ∀ p ∈ res,
          (ofLex p.2).1 = agg (st.nList.map (fun n => scoreN normalize n (st.fold cf w) p.1)) ∧
          nmd (.str (st.fold cf w)) (.str p.1) (.int 2) true normalize = .ok (ofLex p.2).2 := by
  have hi := hr.inv hcf
  have hadds : ∀ v, (st.addWord cf v).2 = .ok () ↔ ∃ x, Adds cf st.caseInsensitive v x :=
    fun v => (addWord_words hcf hi v).1
  have hinv : Inv cf st C ((Sys.start st).run cf C sched) := by
    refine (Inv.start hi).run hcf hfair ha hidle ?_
    intro t e x ht hx
    have := hret t (.error e) (by rw [ht]; rfl) ((hadds _).2 ⟨x, hx⟩)
    cases this
  have hidl := hinv.idle hidle
  have hdone : ∀ i ∈ sched, ∃ r, ((Sys.start st).run cf C sched).pc i = .done r := by
    intro i hi
    have h1 := hidle i
    have h2 : ((Sys.start st).run cf C sched).pc i ≠ .enter := by
      intro hc
      exact ((run_enter sched _ i).1 hc).2 hi
    revert h1 h2
    cases ((Sys.start st).run cf C sched).pc i with
    | enter => intro _ h2; exact absurd rfl h2
    | done r => intro _ _; exact ⟨r, rfl⟩
    | _ => intro h1; cases h1
  refine ⟨?_, ?_⟩
  · intro i hi'
    obtain ⟨r, hr⟩ := hdone i hi'
    have := hinv.thread i
    rw [hr] at this ⊢
    rw [addWord_result hcf hi, ← hinv.ci]
    exact congrArg some this.1
  intro js hjs ops
  have hi2 := hi.run hcf (js.map fun j => .add (C j).word)
  obtain ⟨c1, c2, c3⟩ := config_run hcf hi (js.map fun j => .add (C j).word)
  have hp : ((Sys.start st).run cf C sched).mem.wordList.Perm
      (st.run cf (js.map fun j => .add (C j).word)).wordList := by
    refine (List.perm_ext_iff_of_nodup hinv.nodupW hi2.nodupW).2 ?_
    intro x
    have h1 := mem_run_adds hcf hi (js.map fun j => (C j).word) x
    rw [List.map_map] at h1
    change x ∈ (st.run cf (js.map fun j => .add (C j).word)).wordList ↔ _ at h1
    rw [h1]
    constructor
    · intro hx
      rcases hinv.new x hx with hx | ⟨t, ht, hx⟩
      · exact Or.inl hx
      · refine Or.inr ⟨(C t).word, List.mem_map.2 ⟨t, (hjs t).2 ?_, rfl⟩, hx⟩
        by_contra hn
        exact ht ((run_enter sched _ t).2 ⟨rfl, hn⟩)
    · rintro (hx | ⟨v, hv, hx⟩)
      · exact hinv.old x hx
      · obtain ⟨t, ht, rfl⟩ := List.mem_map.1 hv
        obtain ⟨r, hr⟩ := hdone t ((hjs t).1 ht)
        have := hinv.thread t
        rw [hr, Thread, hinv.ci] at this
        exact hidl.keys.mem_iff.1 (this.2 x hx)
  have hci : ((Sys.start st).run cf C sched).mem.caseInsensitive =
      (st.run cf (js.map fun j => .add (C j).word)).caseInsensitive := hinv.ci.trans c3.symm
  have hp' := perm_run hcf hidl hi2 hci hp ops
  have hm := hidl.run hcf ops
  have hs := hi2.run hcf ops
  obtain ⟨a1, a2, a3⟩ := config_run hcf hidl ops
  obtain ⟨b1, b2, b3⟩ := config_run hcf hi2 ops
  refine ⟨vocabulary_perm hp', ?_⟩
  intro agg hagg word topK normalize
  refine ⟨sameScores hm hs (by rw [a1, b1, hinv.nList, c1]) (by rw [a2, b2, hinv.filterN, c2])
    (by rw [a3, b3, hci]) hp' hagg word topK normalize, ?_⟩
  rintro w res rfl hres p hpm
  have hfold : (((Sys.start st).run cf C sched).mem.run cf ops).fold cf w = st.fold cf w := by
    unfold WL.fold; rw [a3, hinv.ci]
  obtain ⟨k, hw, rfl, hk, hcl⟩ : ∃ k, w ≠ [] ∧ topK = .int k ∧ 0 < k ∧
      Clean ((((Sys.start st).run cf C sched).mem.run cf ops).fold cf w) := by
    obtain ⟨q1, q2, q3, q4, q5⟩ := C44_lookup_validation (cf := cf) agg
      (((Sys.start st).run cf C sched).mem.run cf ops) normalize
    by_cases hw : w = []
    · subst hw; rw [q2] at hres; cases hres
    by_cases hk : ∀ i, topK ≠ .int i
    · rw [q3 _ _ hw hk] at hres; cases hres
    push Not at hk
    obtain ⟨k, rfl⟩ := hk
    by_cases hk : k ≤ 0
    · rw [q4 _ _ hw hk] at hres; cases hres
    by_cases hc : Clean ((((Sys.start st).run cf C sched).mem.run cf ops).fold cf w)
    · exact ⟨k, hw, rfl, not_le.1 hk, hc⟩
    · rw [q5 _ _ hw (not_le.1 hk) hc] at hres; cases hres
  obtain ⟨h1, h2⟩ := lookup_spec hm hagg hw hk rfl hcl normalize
  by_cases hf : LookupFails agg (((Sys.start st).run cf C sched).mem.run cf ops).nList
      (((Sys.start st).run cf C sched).mem.run cf ops).filterN normalize
      (((Sys.start st).run cf C sched).mem.run cf ops).wordList k.toNat
      ((((Sys.start st).run cf C sched).mem.run cf ops).fold cf w)
  · rw [h1 hf] at hres; cases hres
  · obtain ⟨res', h3, h4⟩ := h2 hf
    rw [hres] at h3
    injection h3 with h3
    subst h3
    have := (h4.scores p hpm).2.2
    rw [hfold, a1, hinv.nList] at this
    exact this

/-- A test of `AlwaysApart` for the examples: `T` contains the threads of the schedule. -/
theorem alwaysApart_of_test {C : ℕ → Call} {st : WL} {sched T : List ℕ} (hT : ∀ i ∈ sched, i ∈ T)
    (h : ∀ n ≤ sched.length, ∀ i ∈ T, ∀ j ∈ T, i ≠ j →
      (((Sys.start st).run cf C (sched.take n)).pc i).active = true →
      (((Sys.start st).run cf C (sched.take n)).pc j).active = true →
      target cf ((Sys.start st).run cf C (sched.take n)).mem.caseInsensitive (C i).word ≠
        target cf ((Sys.start st).run cf C (sched.take n)).mem.caseInsensitive (C j).word) :
    AlwaysApart cf C (Sys.start st) sched := by
  intro l hl i j hij hi hj
  have hmem : ∀ t, (((Sys.start st).run cf C l).pc t).active = true → t ∈ T := by
    intro t ht
    apply hT
    apply hl.subset
    by_contra hn
    rw [(run_enter l _ t).2 ⟨rfl, hn⟩] at ht
    cases ht
  have he : l = sched.take l.length := (List.prefix_iff_eq_take.1 hl)
  have := h l.length hl.length_le i (hmem i hi) j (hmem j hj) hij
  rw [← he] at this
  exact this hi hj

/-- Four calls; the last enumerates sets backwards. -/
def addCalls : ℕ → Call
  | 0 => ⟨.str "banana".toList, id, id⟩
  | 1 => ⟨.str "cabana".toList, id, id⟩
  | 2 => ⟨.int 3, id, id⟩
  | _ => ⟨.str "bandana".toList, List.reverse, List.reverse⟩

theorem addCalls_fair : ∀ i, (addCalls i).Fair := by
  intro i
  rcases i with _ | _ | _ | i
  · exact ⟨fun l => .refl l, fun l => .refl l⟩
  · exact ⟨fun l => .refl l, fun l => .refl l⟩
  · exact ⟨fun l => .refl l, fun l => .refl l⟩
  · exact ⟨fun l => List.reverse_perm l, fun l => List.reverse_perm l⟩

/-- Each call gets its index undisturbed; then they enter their n-grams in turns. -/
def addSched : List ℕ :=
  List.replicate 12 0 ++ List.replicate 12 1 ++ [0, 1, 0, 1, 2, 0, 1] ++ List.replicate 13 3 ++
    (List.replicate 60 [3, 1, 0]).flatten

theorem demo₀_reachable : demo₀.Reachable id :=
  ⟨.iter [3, 2, 3], true, 0, demo₀, [], by decide +kernel, rfl⟩

theorem addSched_apart : AlwaysApart id addCalls (Sys.start demo₀) addSched := by
  refine alwaysApart_of_test (T := [0, 1, 2, 3]) (by decide +kernel) ?_
  have : ∀ n, ∀ i ∈ [0, 1, 2, 3], ∀ j ∈ [0, 1, 2, 3], i ≠ j → target id n (addCalls i).word ≠
      target id n (addCalls j).word := by decide +kernel
  intro n _ i hi j hj hij _ _
  exact this _ i hi j hj hij

theorem addSched_idle (i : ℕ) :
    (((Sys.start demo₀).run id addCalls addSched).pc i).active = false := by
  by_cases hi : i ∈ addSched
  · have h : ∀ i ∈ [0, 1, 2, 3], (((Sys.start demo₀).run id addCalls addSched).pc i).active =
        false := by decide +kernel
    have : ∀ i ∈ addSched, i ∈ [0, 1, 2, 3] := by decide +kernel
    exact h i (this i hi)
  · rw [(run_enter addSched _ i).2 ⟨rfl, hi⟩]; rfl

theorem addSched_returned (i : ℕ) (r : Except PyErr Unit)
    (h : (((Sys.start demo₀).run id addCalls addSched).pc i).outcome = some r)
    (hok : (demo₀.addWord id (addCalls i).word).2 = .ok ()) : r = .ok () := by
  by_cases hi : i ∈ addSched
  · have h1 : ∀ i ∈ [0, 1, 2, 3], (demo₀.addWord id (addCalls i).word).2 = .ok () →
        (((Sys.start demo₀).run id addCalls addSched).pc i).outcome = some (.ok ()) := by
      decide +kernel
    have : ∀ i ∈ addSched, i ∈ [0, 1, 2, 3] := by decide +kernel
    rw [h1 i (this i hi) hok] at h
    injection h with h
    exact h.symm
  · rw [(run_enter addSched _ i).2 ⟨rfl, hi⟩] at h; cases h

/-- The list filled by the threads, later extended by another word, scores like the list filled in the
order 3, 2, 1, 0. -/
example (word topK : PyVal) (normalize : Bool) :
    SameScores ((((Sys.start demo₀).run id addCalls addSched).mem.run id
        [.add (.str "ban".toList)]).lookup mean1 id word topK normalize)
      (((demo₀.run id [.add (.str "bandana".toList), .add (.int 3), .add (.str "cabana".toList),
        .add (.str "banana".toList)]).run id [.add (.str "ban".toList)]).lookup mean1 id word topK
          normalize) := by
  have h : ∀ i ∈ addSched, i ∈ [3, 2, 1, 0] := by decide +kernel
  have h' : ∀ i ∈ [3, 2, 1, 0], i ∈ addSched := by decide +kernel
  exact (((C189_threads_adding (cf := id) (S := ℚ) (fun _ => rfl) demo₀_reachable addCalls_fair addSched_apart
    addSched_idle addSched_returned).2 [3, 2, 1, 0] (fun j => ⟨h' j, h j⟩)
      [.add (.str "ban".toList)]).2 mean1 mean1_monotone word topK normalize).1

example : plain (((Sys.start demo₀).run id addCalls addSched).mem.lookup mean1 id
    (.str "bananas".toList) (.int 2) true) =
    .ok [("banana", 1383 / 1820, 163 / 210), ("bandana", 43 / 84, 17 / 28)] := by decide +kernel

/-! ## C190 -/

/-- Two calls for the same word. -/
def sameCalls : ℕ → Call := fun _ => ⟨.str "banana".toList, id, id⟩

/-- Thread 0 sees that the word is missing; thread 1 adds it; thread 0 finds its index and goes on. -/
def sameSched : List ℕ := [0] ++ List.replicate 70 1 ++ List.replicate 60 0

theorem outcome_ok {p : Pc} (h : p = .enter ∨ p = .done (.ok ())) {r : Except PyErr Unit}
    (hr : p.outcome = some r) : r = .ok () := by
  rcases h with rfl | rfl
  · cases hr
  · injection hr with hr; exact hr.symm

/-- Without the proviso that overlapping calls add different words, C189 fails without any sign: two calls
for the same word both return, the vocabulary is as it should be, but the n-grams are entered twice, and a
lookup of the word itself with `normalize=True` gives it a similarity of 2. -/
theorem C190_same_word_counted_twice :
    ¬ ∀ (st : WL) (C : ℕ → Call) (sched : List ℕ), st.Reachable id → (∀ i, (C i).Fair) →
      (∀ i, (((Sys.start st).run id C sched).pc i).active = false) →
      (∀ i r, (((Sys.start st).run id C sched).pc i).outcome = some r → r = .ok ()) →
      ((Sys.start st).run id C sched).mem.vocabulary =
        (st.run id (sched.map fun j => .add (C j).word)).vocabulary →
      ∀ (word topK : PyVal) (normalize : Bool),
        SameScores (((Sys.start st).run id C sched).mem.lookup mean1 id word topK normalize)
          ((st.run id (sched.map fun j => .add (C j).word)).lookup mean1 id word topK normalize) := by
  intro h
  have hd : ∀ i, ((Sys.start demo₀).run id sameCalls sameSched).pc i = .enter ∨
      ((Sys.start demo₀).run id sameCalls sameSched).pc i = .done (.ok ()) := by
    intro i
    by_cases hi : i ∈ sameSched
    · right
      have h1 : ∀ i ∈ [0, 1], ((Sys.start demo₀).run id sameCalls sameSched).pc i =
          .done (.ok ()) := by decide +kernel
      have : ∀ i ∈ sameSched, i ∈ [0, 1] := by decide +kernel
      exact h1 i (this i hi)
    · exact Or.inl ((run_enter sameSched _ i).2 ⟨rfl, hi⟩)
  have hv : ((Sys.start demo₀).run id sameCalls sameSched).mem.vocabulary =
      (demo₀.run id (sameSched.map fun j => .add (sameCalls j).word)).vocabulary := by
    decide +kernel
  have hi : ∀ i, (((Sys.start demo₀).run id sameCalls sameSched).pc i).active = false := by
    intro i
    rcases hd i with e | e <;> rw [e] <;> rfl
  have hr : ∀ i r, (((Sys.start demo₀).run id sameCalls sameSched).pc i).outcome = some r →
      r = .ok () := by
    intro i r hr
    exact outcome_ok (hd i) hr
  have hf : ∀ i, (sameCalls i).Fair := fun _ => ⟨fun l => .refl l, fun l => .refl l⟩
  have := h demo₀ sameCalls sameSched demo₀_reachable hf hi hr hv (.str "banana".toList) (.int 1) true
  have h1 : ((Sys.start demo₀).run id sameCalls sameSched).mem.lookup mean1 id
      (.str "banana".toList) (.int 1) true = .ok [("banana".toList, toLex (2, 1))] := by
    decide +kernel
  have h2 : (demo₀.run id (sameSched.map fun j => .add (sameCalls j).word)).lookup mean1 id
      (.str "banana".toList) (.int 1) true = .ok [("banana".toList, toLex (1, 1))] := by
    decide +kernel
  have := this.2 _ _ h1 h2
  revert this
  decide +kernel

end ListConc
end Verif
