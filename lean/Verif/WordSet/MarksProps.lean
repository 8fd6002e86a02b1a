import Verif.WordSet.Marks
import Verif.WordSet.Props

/-!
# Ignoring accents: C163, C164

`normalize_nfd_strip_marks`, alone and as the `unicode_normalizer` of a `WordSet`.
-/

namespace Verif

open WordSetSpec

/-! ## Specification -/

/-- The letters of a text without accents: of the decomposition of each character, what is not a mark. -/
def Ucd.letters (U : Ucd) (text : List Char) : List Char :=
  text.flatMap fun c => (U.dec c).filter (fun d => U.mark d = false)

/-! ## Lemmas -/

namespace Ucd

variable (U : Ucd)

/-- Canonical ordering does not move letters with respect to each other. -/
theorem putBack_letters (acc : List Char) (c : Char) :
    (U.putBack acc c).filter (fun d => !U.mark d) = (c :: acc).filter (fun d => !U.mark d) := by
  induction acc with
  | nil => rfl
  | cons p ps ih =>
    unfold putBack
    split
    · rfl
    · rename_i h
      rw [not_or, not_or] at h
      have hp := U.ccc_mark p h.1
      have hc := U.ccc_mark c h.2.1
      rw [List.filter_cons_of_neg (by simp [hp]), ih, List.filter_cons_of_neg (by simp [hc]),
        List.filter_cons_of_neg (by simp [hc]), List.filter_cons_of_neg (by simp [hp])]

theorem fold_letters (l acc : List Char) :
    ((l.foldl U.putBack acc).reverse).filter (fun d => !U.mark d) =
      (acc.reverse ++ l).filter (fun d => !U.mark d) := by
  induction l generalizing acc with
  | nil => simp
  | cons c l ih =>
    rw [List.foldl_cons, ih, List.filter_append, List.filter_append, List.filter_reverse,
      putBack_letters]
    by_cases hc : U.mark c = true <;> simp [hc, List.filter_reverse]

theorem stripMarks_eq (text : List Char) : U.stripMarks text = U.letters text := by
  unfold stripMarks nfd letters
  rw [fold_letters, List.reverse_nil, List.nil_append, List.filter_flatMap]
  congr 1
  funext c
  congr 1
  funext d
  cases U.mark d <;> rfl

theorem letters_append (s t : List Char) : U.letters (s ++ t) = U.letters s ++ U.letters t :=
  List.flatMap_append

theorem mem_letters {s : List Char} {d : Char} (h : d ∈ U.letters s) :
    U.mark d = false ∧ U.dec d = [d] := by
  unfold letters at h
  obtain ⟨c, -, h⟩ := List.mem_flatMap.1 h
  obtain ⟨h1, h2⟩ := List.mem_filter.1 h
  exact ⟨by simpa using h2, U.dec_dec c d h1⟩

theorem letters_letters (s : List Char) : U.letters (U.letters s) = U.letters s := by
  have : ∀ l : List Char, (∀ d ∈ l, U.mark d = false ∧ U.dec d = [d]) → U.letters l = l := by
    intro l
    induction l with
    | nil => intro _; rfl
    | cons d l ih =>
      intro h
      obtain ⟨h1, h2⟩ := h d List.mem_cons_self
      have := ih fun x hx => h x (List.mem_cons_of_mem _ hx)
      unfold letters at this ⊢
      rw [List.flatMap_cons, this, h2]
      simp [h1]
  exact this _ fun d hd => U.mem_letters hd

end Ucd

/-- A small table: `é` and `ạ́` decompose, the acute has class 230, the dot below 220 and the Greek iota
subscript 240. -/
def demoUcd : Ucd where
  dec c := if c = 'é' then ['e', '́'] else if c = 'ạ' then ['a', '̣'] else [c]
  ccc c := if c = '́' then 230 else if c = '̣' then 220 else if c = 'ͅ' then 240 else 0
  mark c := c = '́' || c = '̣' || c = 'ͅ'
  dec_dec c d hd := by
    split_ifs at hd with h1 h2
    · rcases List.mem_cons.1 hd with rfl | hd
      · rfl
      · rw [List.mem_singleton] at hd; subst hd; rfl
    · rcases List.mem_cons.1 hd with rfl | hd
      · rfl
      · rw [List.mem_singleton] at hd; subst hd; rfl
    · rw [List.mem_singleton] at hd
      subst hd
      rw [if_neg h1, if_neg h2]
  ccc_mark c hc := by
    split_ifs at hc with h1 h2 h3
    · simp [h1]
    · simp [h2]
    · simp [h3]
    · exact absurd rfl hc

/-! ## C163 -/

/-- `normalize_nfd_strip_marks` keeps exactly the letters of the decomposed text, in order: it works character
by character, leaves neither marks nor characters that decompose, and doing it twice is the same as doing
it once. -/
theorem C163_strip_marks (U : Ucd) (s t : List Char) :
    U.stripMarks s = U.letters s ∧
    U.stripMarks (s ++ t) = U.stripMarks s ++ U.stripMarks t ∧
    (∀ c ∈ U.stripMarks s, U.mark c = false ∧ U.dec c = [c]) ∧
    U.stripMarks (U.stripMarks s) = U.stripMarks s := by
  simp only [U.stripMarks_eq]
  exact ⟨trivial, U.letters_append s t, fun c hc => U.mem_letters hc, U.letters_letters s⟩

/-- Inserting marks anywhere does not change the result, and neither does the order of the marks. -/
theorem C163_marks_ignored (U : Ucd) (s t m : List Char)
    (hm : ∀ c ∈ m, ∀ d ∈ U.dec c, U.mark d = true) :
    U.stripMarks (s ++ m ++ t) = U.stripMarks (s ++ t) := by
  have : U.letters m = [] := by
    unfold Ucd.letters
    rw [List.flatMap_eq_nil_iff]
    intro c hc
    rw [List.filter_eq_nil_iff]
    intro d hd
    simp [hm c hc d hd]
  rw [U.stripMarks_eq, U.stripMarks_eq, U.letters_append, U.letters_append, U.letters_append, this,
    List.append_nil]

/-- The marks of `a + acute + dot` are put into order by NFD and removed. -/
example : demoUcd.nfd ['é', 'a', '́', '̣', 'x'] = ['e', '́', 'a', '̣', '́', 'x'] ∧
    demoUcd.stripMarks ['é', 'a', '́', '̣', 'x'] = ['e', 'a', 'x'] ∧
    demoUcd.stripMarks (['e'] ++ ['́', '̣'] ++ ['x']) = ['e', 'x'] := by decide +kernel

/-! ## C164 -/

variable {cf : List Char → List Char}

/-- A set with sizes 2 and 3 that ignores accents. -/
def marksSet (cf : List Char → List Char) (cs : Bool) (ws : List (List Char)) : WS :=
  match WS.new (some cs) true (.iter [2, 3]) with
  | .ok st => st.run cf demoUcd.stripper (ws.map (fun w => .add (.str w)))
  | .error _ => ⟨cs, [], none, [], [], 0, [], []⟩

theorem marksSet_reachable (cf : List Char → List Char) (cs : Bool) (ws : List (List Char)) :
    WSReachable cf demoUcd.stripper (marksSet cf cs ws) := by
  unfold marksSet
  cases hn : WS.new (some cs) true (.iter [2, 3]) with
  | ok st => exact ⟨_, _, _, _, _, hn, rfl⟩
  | error e =>
    have : (WS.new (some cs) true (.iter [2, 3])).toOption.isSome = true := by
      cases cs <;> decide +kernel
    rw [hn] at this
    cases this

/-- The text whose accents are removed by a set: case-folded first, unless the set is case-sensitive. -/
def WS.folded (cf : List Char → List Char) (st : WS) (w : List Char) : List Char :=
  if st.caseSensitive then w else cf w

theorem keyOf_stripper (U : Ucd) (cs : Bool) (w : List Char) :
    keyOf cs cf U.stripper w =
      if '\x00' ∈ U.letters (if cs then w else cf w) then none
      else some (U.letters (if cs then w else cf w)) := by
  unfold keyOf Ucd.stripper
  simp only [U.stripMarks_eq]

/-- Two words with the same letters. -/
theorem key_congr (U : Ucd) (cs : Bool) {w w' : List Char}
    (h : U.letters (if cs then w else cf w) = U.letters (if cs then w' else cf w')) :
    keyOf cs cf U.stripper w = keyOf cs cf U.stripper w' := by
  rw [keyOf_stripper, keyOf_stripper, h]

/-- In a word set with `normalize_nfd_strip_marks`, words that differ in accents only are interchangeable: they
are members, are found, and are removed together, and adding one makes the other a member. -/
theorem C164_accents_ignored (U : Ucd) {st : WS} (h : WSReachable cf U.stripper st)
    {w w' : List Char} (hne : w ≠ []) (hne' : w' ≠ [])
    (hw : U.letters (st.folded cf w) = U.letters (st.folded cf w')) :
    st.contains cf U.stripper (.str w) = st.contains cf U.stripper (.str w') ∧
    st.discard cf U.stripper (.str w) = st.discard cf U.stripper (.str w') ∧
    st.remove cf U.stripper (.str w) = st.remove cf U.stripper (.str w') ∧
    (∀ k ms, st.findSimilar cf U.stripper (.str w) k ms =
      st.findSimilar cf U.stripper (.str w') k ms) ∧
    (∀ k, st.suggest cf U.stripper (.str w) k = st.suggest cf U.stripper (.str w') k) ∧
    ((st.add cf U.stripper (.str w)).2 = .ok () →
      let st' := (st.add cf U.stripper (.str w)).1
      st'.contains cf U.stripper (.str w') = .ok true ∧
      st'.add cf U.stripper (.str w') = (st', .ok ())) := by
  have hk : keyOf st.caseSensitive cf U.stripper w = keyOf st.caseSensitive cf U.stripper w' :=
    key_congr U _ hw
  have hn : st.normalizeWord cf U.stripper w = st.normalizeWord cf U.stripper w' := by
    rw [normalizeWord_eq, normalizeWord_eq, hk]
  have hc : st.contains cf U.stripper (.str w) = st.contains cf U.stripper (.str w') := by
    unfold WS.contains
    simp only [hn]
  have hd : st.discard cf U.stripper (.str w) = st.discard cf U.stripper (.str w') := by
    unfold WS.discard
    simp only [hn]
  have hf : ∀ k ms, st.findSimilar cf U.stripper (.str w) k ms =
      st.findSimilar cf U.stripper (.str w') k ms := by
    intro k ms
    unfold WS.findSimilar
    simp only [hn, hne, hne']
  refine ⟨hc, hd, ?_, hf, ?_, ?_⟩
  · unfold WS.remove
    simp only [hn, hd]
  · intro k
    unfold WS.suggest
    rw [hf]
  · intro h1 st'
    obtain ⟨h2, h3, h4⟩ := h.rep.add (.str w)
    obtain ⟨c, cs, rfl⟩ : ∃ c cs, w = c :: cs := by
      cases w with
      | nil => exact absurd rfl hne
      | cons c cs => exact ⟨c, cs, rfl⟩
    rw [h3] at h1
    have h5 : ∃ d ds, st.key cf U.stripper (c :: cs) = some (d :: ds) := by
      unfold absAdd at h1
      cases hkk : st.key cf U.stripper (c :: cs) with
      | none => simp only [hkk] at h1; cases h1
      | some kk =>
        cases kk with
        | nil => simp only [hkk] at h1; cases h1
        | cons d ds => exact ⟨d, ds, rfl⟩
    obtain ⟨d, ds, h5⟩ := h5
    have h6 : Mem (absAdd (st.key cf U.stripper) (st.members cf U.stripper) (.str (c :: cs))).1
        (d :: ds) := by
      simp only [absAdd, h5, WordSetSpec.insert]
      split
      · assumption
      · exact ⟨_, List.mem_append_right _ (List.mem_singleton.2 rfl), rfl⟩
    have h7 : st'.key cf U.stripper w' = some (d :: ds) := by
      rw [show st'.key cf U.stripper = st.key cf U.stripper from h4.key, ← h5]
      exact hk.symm
    have h8 : st'.contains cf U.stripper (.str w') = .ok true := by
      have h9 := (h2.step (.contains (.str w'))).2.1
      simp only [WS.step, absStep, absContains, h4.key, WSOut.bool.injEq] at h9
      rw [h9, show st.key cf U.stripper w' = some (d :: ds) by rw [← h5]; exact hk.symm]
      simp only [h6, decide_true]
    refine ⟨h8, ?_⟩
    have h10 : st'.normalizeWord cf U.stripper w' = .ok (d :: ds) := by
      rw [normalizeWord_eq]
      unfold WS.key at h7
      rw [h7]
    have h11 : Dict.has st'.vocab (d :: ds) = true := by
      unfold WS.contains at h8
      simp only [h10] at h8
      simpa using h8
    unfold WS.add
    simp only [if_neg hne', h10, h11, if_true]
    simp

/-- A word is accepted by such a set exactly if it has a letter (and no null byte is left). -/
theorem C164_needs_letter (U : Ucd) (st : WS) (w : List Char) (hne : w ≠ []) :
    ((st.add cf U.stripper (.str w)).2 = .ok () ↔
      (∃ c ∈ st.folded cf w, ∃ d ∈ U.dec c, U.mark d = false) ∧
      ∀ c ∈ st.folded cf w, ∀ d ∈ U.dec c, d = '\x00' → U.mark d = true) ∧
    ((st.add cf U.stripper (.str w)).2 ≠ .ok () →
      st.add cf U.stripper (.str w) = (st, .error .valueError)) := by
  have hmem : ∀ d, d ∈ U.letters (st.folded cf w) ↔
      ∃ c ∈ st.folded cf w, d ∈ U.dec c ∧ U.mark d = false := by
    intro d
    simp [Ucd.letters, List.mem_flatMap, List.mem_filter]
  have hk := keyOf_stripper (cf := cf) U st.caseSensitive w
  change keyOf _ _ _ _ = if '\x00' ∈ U.letters (st.folded cf w) then none
    else some (U.letters (st.folded cf w)) at hk
  by_cases h0 : '\x00' ∈ U.letters (st.folded cf w)
  · rw [if_pos h0] at hk
    have ha : st.add cf U.stripper (.str w) = (st, .error .valueError) := by
      unfold WS.add
      simp only [if_neg hne, normalizeWord_eq, hk]
    obtain ⟨c, h1, h2, h3⟩ := (hmem _).1 h0
    rw [ha]
    refine ⟨⟨fun hc => (nomatch hc), fun hc => ?_⟩, fun _ => rfl⟩
    have := hc.2 c h1 _ h2 rfl
    rw [h3] at this
    cases this
  · rw [if_neg h0] at hk
    have h0' : ∀ c ∈ st.folded cf w, ∀ d ∈ U.dec c, d = '\x00' → U.mark d = true := by
      intro c hc d hd he
      by_contra hm
      exact h0 ((hmem _).2 ⟨c, hc, he ▸ hd, he ▸ by simpa using hm⟩)
    by_cases hl : U.letters (st.folded cf w) = []
    · have ha : st.add cf U.stripper (.str w) = (st, .error .valueError) := by
        unfold WS.add
        simp only [if_neg hne, normalizeWord_eq, hk, hl, if_true]
      rw [ha]
      refine ⟨⟨fun hc => (nomatch hc), fun hc => ?_⟩, fun _ => rfl⟩
      obtain ⟨⟨c, h1, d, h2, h3⟩, _⟩ := hc
      have := (hmem d).2 ⟨c, h1, h2, h3⟩
      rw [hl] at this
      cases this
    · have ha : (st.add cf U.stripper (.str w)).2 = .ok () := by
        unfold WS.add
        simp only [if_neg hne, normalizeWord_eq, hk, if_neg hl]
        split <;> rfl
      refine ⟨⟨fun _ => ⟨?_, h0'⟩, fun _ => ha⟩, fun hc => absurd ha hc⟩
      obtain ⟨d, hd⟩ := List.exists_mem_of_ne_nil _ hl
      obtain ⟨c, h1, h2, h3⟩ := (hmem d).1 hd
      exact ⟨c, h1, d, h2, h3⟩

/-- A query with other accents finds the word first, with similarity 1. -/
theorem C164_found_first (U : Ucd) {st : WS} (h : WSReachable cf U.stripper st) {q o : List Char}
    {k : ℤ} {ms : MinSim} (hk : 0 < k) (ha : ms.accepted = true) (hq : q ≠ []) (ho : o ∈ st.iter)
    (hl : LongEnough st.sizes (U.letters (st.folded cf q)))
    (hw : U.letters (st.folded cf q) = U.letters (st.folded cf o)) :
    ∃ rest, st.findSimilar cf U.stripper (.str q) (.int k) ms = .ok ((o, 1) :: rest) := by
  obtain ⟨k', hk', -⟩ := (C35_len_iter h).2.2 o ho
  have h1 : keyOf st.caseSensitive cf U.stripper o = if '\x00' ∈ U.letters (st.folded cf o) then none
      else some (U.letters (st.folded cf o)) := keyOf_stripper U st.caseSensitive o
  rw [h1] at hk'
  split at hk'
  · cases hk'
  · rename_i h0
    rw [if_neg h0] at h1
    have h2 : keyOf st.caseSensitive cf U.stripper q = some (U.letters (st.folded cf q)) := by
      rw [key_congr U _ hw, h1]
      exact congrArg some hw.symm
    refine C41_exact_first h hk ha hq h2 hl ho ?_
    rw [h1]
    exact congrArg some hw.symm

/-- In a case-insensitive set (the default) words are case-folded before the accents are removed, and the
iota subscript (U+0345), a mark, is folded to the letter iota: then it is not ignored. -/
theorem C164_iota_subscript :
    ∃ (cf : List Char → List Char) (st : WS), WSReachable cf demoUcd.stripper st ∧
      demoUcd.mark 'ͅ' = true ∧ cf ['ͅ'] = ['ι'] ∧
      demoUcd.stripMarks ['α', 'ͅ'] = demoUcd.stripMarks ['α'] ∧
      st.contains cf demoUcd.stripper (.str ['α']) = .ok true ∧
      st.contains cf demoUcd.stripper (.str ['α', 'ͅ']) = .ok false := by
  refine ⟨List.map fun c => if c = 'ͅ' then 'ι' else c.toLower,
    marksSet (List.map fun c => if c = 'ͅ' then 'ι' else c.toLower) false [['α']],
    marksSet_reachable _ _ _, ?_⟩
  decide +kernel

example : ∃ rest, (marksSet id true [['r', 'é', 's'], ['x']]).findSimilar id demoUcd.stripper
    (.str ['r', 'e', 's']) (.int 3) .none = .ok ((['r', 'é', 's'], 1) :: rest) :=
  C164_found_first demoUcd (marksSet_reachable _ _ _) (by decide) rfl (by decide) (by decide +kernel)
    (by
      unfold LongEnough
      rw [show filterSize (marksSet id true [['r', 'é', 's'], ['x']]).sizes = some 3 by
        decide +kernel]
      decide +kernel) (by decide +kernel)

example : (marksSet id true [['r', 'é', 's'], ['x']]).contains id demoUcd.stripper
    (.str ['r', 'é', 's']) = (marksSet id true [['r', 'é', 's'], ['x']]).contains id demoUcd.stripper
    (.str ['r', 'e', '̣', '́', 's']) :=
  (C164_accents_ignored demoUcd (marksSet_reachable _ _ _) (by decide) (by decide)
    (by decide +kernel)).1

example : ((marksSet id true []).add id demoUcd.stripper (.str ['́', '̣'])).2 ≠ .ok () ∧
    ((marksSet id true []).add id demoUcd.stripper (.str ['é'])).2 = .ok () := by
  rw [ne_eq, (C164_needs_letter demoUcd _ _ (by decide)).1,
    (C164_needs_letter demoUcd _ _ (by decide)).1]
  decide +kernel

end Verif
