import Verif.Core.Mirror
import Verif.Core.Props
import Verif.Edit.Props

/-!
# Properties C169, C170, C173, C174: `ngram_movers_distance` of edited, renamed and reversed words

`nmd w₁ w₂ n invert normalize` models `ngram_movers_distance`, `Edit.levenshtein` and
`Edit.damerauDistance` the two distances of the experiments.
-/

namespace Verif

open EmdSpec GramSpec EditSpec

theorem countInt_le_count (n : ℤ) (hn : 2 ≤ n) (w : List Char) :
    (countInt n w : ℚ) ≤ count n.toNat w := by
  have : countInt n w ≤ (count n.toNat w : ℤ) := by rw [countInt, count_eq]; omega
  exact_mod_cast this

/-- The value of `ngram_movers_distance` is at most the transport cost. -/
theorem nmd_le_locDist {a b : List Char} (ha : Clean a) (hb : Clean b) {n : ℤ} (hn : 2 ≤ n) :
    ∃ d, nmd (.str a) (.str b) (.int n) false false = .ok d ∧
      d ≤ locDist (located n.toNat a) (located n.toNat b) := by
  rw [nmd_valid ha hb hn]
  refine ⟨_, rfl, ?_⟩
  simp only [Bool.false_eq_true, if_false, locDist, length_located]
  have := countInt_le_count n hn a
  have := countInt_le_count n hn b
  linarith

theorem toNat_cast {n : ℤ} (hn : 2 ≤ n) : ((n.toNat : ℕ) : ℚ) = n := by
  have : ((n.toNat : ℕ) : ℤ) = n := by omega
  exact_mod_cast this

/-- **C169.** Replacing a block of a word by another block, anywhere, moves it by at most
`2 * (length of the longer block + n - 1)`, however long the rest of the word is. -/
theorem C169_block_edit {u v x y : List Char} (ha : Clean (u ++ x ++ v)) (hb : Clean (u ++ y ++ v))
    {n : ℤ} (hn : 2 ≤ n) :
    ∃ d, nmd (.str (u ++ x ++ v)) (.str (u ++ y ++ v)) (.int n) false false = .ok d ∧
      d ≤ 2 * ((max x.length y.length : ℕ) + n - 1) := by
  obtain ⟨d, h1, h2⟩ := nmd_le_locDist ha hb hn
  have := locDist_block (n := n.toNat) (by omega) u v x y
  rw [toNat_cast hn] at this
  exact ⟨d, h1, h2.trans this⟩

/-- The bound is attained: replacing one character in the middle can cost `2 * n`. -/
example : nmd (.str "abcde".toList) (.str "abxde".toList) (.int 2) false false = .ok 4 ∧
    nmd (.str "abcdefg".toList) (.str "abcxefg".toList) (.int 3) false false = .ok 6 := by
  decide +kernel

example : nmd (.str "concatenate".toList) (.str "conate".toList) (.int 2) false false =
    .ok (125 / 22) := by
  decide +kernel

/-! ### Edits -/

theorem locDist_steps {r : List Char → List Char → Prop} {n : ℕ} {e : ℚ}
    (h1 : ∀ u v, r u v → locDist (located n u) (located n v) ≤ e) {k : ℕ} {a b : List Char}
    (h : Steps r k a b) : locDist (located n a) (located n b) ≤ k * e := by
  induction h with
  | zero u => rw [locDist_self]; simp
  | step hr _ ih =>
    have := locDist_trans (located n _) (located n _) (located n _) |>.trans
      (add_le_add (h1 _ _ hr) ih)
    refine this.trans (le_of_eq ?_)
    push_cast; ring

theorem locDist_oneEdit {n : ℕ} (hn : 1 ≤ n) {a b : List Char} (h : OneEdit a b) :
    locDist (located n a) (located n b) ≤ 2 * n := by
  have key : ∀ u v x y : List Char, x.length ≤ 1 → y.length ≤ 1 →
      locDist (located n (u ++ x ++ v)) (located n (u ++ y ++ v)) ≤ 2 * n := by
    intro u v x y hx hy
    refine (locDist_block hn u v x y).trans ?_
    have : ((max x.length y.length : ℕ) : ℚ) ≤ 1 := by exact_mod_cast max_le hx hy
    linarith
  cases h with
  | ins p b q => simpa using key p q [] [b] (by simp) (by simp)
  | del p a q => simpa using key p q [a] [] (by simp) (by simp)
  | sub p a b q => simpa using key p q [a] [b] (by simp) (by simp)

theorem locDist_oneEditT {n : ℕ} (hn : 1 ≤ n) {a b : List Char} (h : OneEditT a b) :
    locDist (located n a) (located n b) ≤ 2 * (n + 1) := by
  cases h with
  | edit h => exact (locDist_oneEdit hn h).trans (by linarith)
  | swap p a b q =>
    have := locDist_block hn p q [a, b] [b, a]
    simp only [List.append_assoc, List.cons_append, List.nil_append, List.length_cons,
      List.length_nil, max_self] at this
    refine this.trans (le_of_eq ?_)
    push_cast; ring

/-- **C170.** The distance is at most `2 * n` times the Levenshtein distance. -/
theorem C170_le_levenshtein {a b : List Char} (ha : Clean a) (hb : Clean b) {n : ℤ} (hn : 2 ≤ n) :
    ∃ d k, nmd (.str a) (.str b) (.int n) false false = .ok d ∧
      Edit.levenshtein a b = .ok k ∧ d ≤ 2 * n * k := by
  obtain ⟨d, h1, h2⟩ := nmd_le_locDist ha hb hn
  obtain ⟨k, h3, h4⟩ := Edit.C66_edit_distance_least a b
  rw [← Edit.C66_levenshtein_same] at h3
  refine ⟨d, k, h1, h3, h2.trans ?_⟩
  have := locDist_steps (fun u v => locDist_oneEdit (n := n.toNat) (by omega)) h4.1
  rw [toNat_cast hn] at this
  linarith

example : nmd (.str "kitten".toList) (.str "sitting".toList) (.int 2) false false = .ok (467 / 42) ∧
    Edit.levenshtein "kitten".toList "sitting".toList = .ok 3 := by decide +kernel

/-- **C170.** It is at most `2 * (n + 1)` times the distance that counts a transposition of
adjacent characters as one edit. -/
theorem C170_le_damerau {a b : List Char} (ha : Clean a) (hb : Clean b) {n : ℤ} (hn : 2 ≤ n) :
    ∃ d k, nmd (.str a) (.str b) (.int n) false false = .ok d ∧
      Edit.damerauDistance a b = .ok k ∧ d ≤ 2 * (n + 1) * k := by
  obtain ⟨d, h1, h2⟩ := nmd_le_locDist ha hb hn
  obtain ⟨k, l, h3, -, -, -, -, -, h4⟩ := Edit.C68_damerau_laws a b
  refine ⟨d, k, h1, h3, h2.trans ?_⟩
  have := locDist_steps (fun u v => locDist_oneEditT (n := n.toNat) (by omega)) h4
  rw [toNat_cast hn] at this
  linarith

example : nmd (.str "form".toList) (.str "from".toList) (.int 2) false false = .ok 6 ∧
    Edit.damerauDistance "form".toList "from".toList = .ok 1 := by decide +kernel

/-- **C170.** Normalised similarity of words `k` edits apart: at least
`1 - 2 * n * k / (number of n-grams of both words)`. -/
theorem C170_similarity {a b : List Char} (ha : Clean a) (hb : Clean b) {n : ℤ} (hn : 2 ≤ n)
    (hla : HasGram n a) (hlb : HasGram n b) {k : ℕ} (h : Steps OneEdit k a b) :
    ∃ s, nmd (.str a) (.str b) (.int n) true true = .ok s ∧
      1 - 2 * n * k / (count n.toNat a + count n.toNat b) ≤ s := by
  unfold HasGram at hla hlb
  have h1 := locDist_steps (fun u v => locDist_oneEdit (n := n.toNat) (by omega)) h
  rw [toNat_cast hn] at h1
  rw [nmd_valid ha hb hn, countInt_eq_count hn (by omega), countInt_eq_count hn (by omega)]
  have hc : 0 < count n.toNat a := by rw [count_eq]; omega
  have hcq : (0 : ℚ) < (count n.toNat a : ℚ) + count n.toNat b := by
    have : (0 : ℚ) < count n.toNat a := by exact_mod_cast hc
    positivity
  simp only [if_true]
  rw [if_neg (by omega)]
  refine ⟨_, rfl, ?_⟩
  simp only [locDist, length_located] at h1
  push_cast
  rw [sub_le_iff_le_add, ← add_div, le_div_iff₀ hcq]
  linarith

example : nmd (.str "similarity".toList) (.str "similarty".toList) (.int 2) true true =
    .ok (799 / 945) ∧
    Steps OneEdit 1 "similarity".toList "similarty".toList :=
  ⟨by decide +kernel, .step (.del "similar".toList 'i' "ty".toList) (.zero _)⟩

/-- **C170.** In the other direction, the distance is at least the difference of the lengths. -/
theorem C170_length {a b : List Char} (ha : Clean a) (hb : Clean b) {n : ℤ} (hn : 2 ≤ n)
    (hla : n ≤ (a.length : ℤ) + 3) (hlb : n ≤ (b.length : ℤ) + 3) :
    ∃ d, nmd (.str a) (.str b) (.int n) false false = .ok d ∧
      |(a.length : ℚ) - b.length| ≤ d := by
  rw [nmd_valid ha hb hn]
  refine ⟨_, rfl, ?_⟩
  have h1 := locSim_le_two_mul (located n.toNat a) (located n.toNat b)
  have h2 := locSim_le_two_mul' (located n.toNat a) (located n.toNat b)
  rw [length_located, ← Int.cast_natCast (R := ℚ), ← countInt_eq_count hn (by assumption)] at h1 h2
  simp only [Bool.false_eq_true, if_false]
  unfold countInt at *
  push_cast at *
  rw [abs_le]
  constructor <;> linarith

example : nmd (.str "a".toList) (.str "aaaa".toList) (.int 2) false false = .ok 3 := by
  decide +kernel

/-! ### Renaming and reversing -/

/-- **C173.** Only equality of characters matters: renaming the characters of both words by a map
that keeps different characters different (and produces no marker) changes no result. -/
theorem C173_rename {a b : List Char} (ha : Clean a) (hb : Clean b) {f : Char → Char}
    (hf : ∀ c ∈ a ++ b, ∀ d ∈ a ++ b, f c = f d → c = d)
    (hfa : Clean (a.map f)) (hfb : Clean (b.map f)) (k : PyVal) (invert normalize : Bool) :
    nmd (.str (a.map f)) (.str (b.map f)) k invert normalize =
      nmd (.str a) (.str b) k invert normalize := by
  obtain ⟨_, _, _, _, t5, t6, _⟩ := C10_validation (.str a) (.str b) k invert normalize
  obtain ⟨_, _, _, _, u5, u6, _⟩ :=
    C10_validation (.str (a.map f)) (.str (b.map f)) k invert normalize
  cases k with
  | str s => rw [t5 a b rfl ha rfl hb (by simp), u5 _ _ rfl hfa rfl hfb (by simp)]
  | other => rw [t5 a b rfl ha rfl hb (by simp), u5 _ _ rfl hfa rfl hfb (by simp)]
  | int n =>
    rcases lt_or_ge n 2 with hn | hn
    · rw [t6 a b n rfl ha rfl hb rfl hn, u6 _ _ n rfl hfa rfl hfb rfl hn]
    · rw [nmd_valid ha hb hn, nmd_valid hfa hfb hn]
      let g : Char → Char := fun c => if c = stx then stx else if c = etx then etx else f c
      have hg : ∀ w : List Char, Clean w → bracketed (w.map f) = (bracketed w).map g := by
        intro w hw
        have : w.map f = w.map g := by
          apply List.map_congr_left
          intro c hc
          simp only [g]
          rw [if_neg (fun e : c = stx => hw.1 (e ▸ hc)), if_neg (fun e : c = etx => hw.2 (e ▸ hc))]
        unfold bracketed
        rw [this, List.map_append, List.map_append]
        simp [g, stx, etx]
      have hs : locSim (located n.toNat (a.map f)) (located n.toNat (b.map f)) =
          locSim (located n.toNat a) (located n.toNat b) := by
        apply locSim_rename n.toNat (hg a ha) (hg b hb)
        have hmem : ∀ c ∈ bracketed a ++ bracketed b, c = stx ∨ c = etx ∨
            (c ∈ a ++ b ∧ c ≠ stx ∧ c ≠ etx ∧ f c ≠ stx ∧ f c ≠ etx) := by
          intro c hc
          by_cases h1 : c = stx
          · exact Or.inl h1
          by_cases h2 : c = etx
          · exact Or.inr (Or.inl h2)
          refine Or.inr (Or.inr ?_)
          have hm : c ∈ a ∨ c ∈ b := by
            simp only [bracketed, List.mem_append, List.mem_singleton] at hc
            tauto
          refine ⟨List.mem_append.2 hm, h1, h2, ?_, ?_⟩ <;> intro e <;> rcases hm with hm | hm
          · exact hfa.1 (e ▸ List.mem_map_of_mem hm)
          · exact hfb.1 (e ▸ List.mem_map_of_mem hm)
          · exact hfa.2 (e ▸ List.mem_map_of_mem hm)
          · exact hfb.2 (e ▸ List.mem_map_of_mem hm)
        have gs : g stx = stx := by simp [g]
        have ge : g etx = etx := by simp [g, stx, etx]
        have gf : ∀ c, c ≠ stx → c ≠ etx → g c = f c := by
          intro c h1 h2; simp only [g]; rw [if_neg h1, if_neg h2]
        intro c hc d hd e
        rcases hmem c hc with rfl | rfl | ⟨c1, c2, c3, c4, c5⟩ <;>
          rcases hmem d hd with rfl | rfl | ⟨d1, d2, d3, d4, d5⟩
        · rfl
        · rw [gs, ge] at e; exact e
        · rw [gs, gf d d2 d3] at e; exact absurd e.symm d4
        · rw [gs, ge] at e; exact e
        · rfl
        · rw [ge, gf d d2 d3] at e; exact absurd e.symm d5
        · rw [gs, gf c c2 c3] at e; exact absurd e c4
        · rw [ge, gf c c2 c3] at e; exact absurd e c5
        · rw [gf c c2 c3, gf d d2 d3] at e; exact hf c c1 d d1 e
      have e : ∀ w : List Char, countInt n (w.map f) = countInt n w := by
        intro w; rw [countInt, countInt, List.length_map]
      rw [hs, e, e]

example : nmd (.str "anna".toList) (.str "ann".toList) (.int 2) true true =
    nmd (.str "otto".toList) (.str "ott".toList) (.int 2) true true := by decide +kernel

/-- A map that merges two characters does change the result. -/
example : nmd (.str "ab".toList) (.str "ac".toList) (.int 2) false false ≠
    nmd (.str "aa".toList) (.str "aa".toList) (.int 2) false false := by decide +kernel

/-- **C174.** Reading both words backwards changes no result and no exception. -/
theorem C174_reverse (a b : List Char) (k : PyVal) (invert normalize : Bool) :
    nmd (.str a.reverse) (.str b.reverse) k invert normalize =
      nmd (.str a) (.str b) k invert normalize := by
  have hcr : ∀ w : List Char, Clean w.reverse ↔ Clean w := by
    intro w; unfold Clean; simp
  obtain ⟨_, t2, _, t4, t5, t6, _⟩ := C10_validation (.str a) (.str b) k invert normalize
  obtain ⟨_, u2, _, u4, u5, u6, _⟩ :=
    C10_validation (.str a.reverse) (.str b.reverse) k invert normalize
  by_cases ha : Clean a
  · by_cases hb : Clean b
    · cases k with
      | str s =>
        rw [t5 a b rfl ha rfl hb (by simp), u5 _ _ rfl ((hcr a).2 ha) rfl ((hcr b).2 hb) (by simp)]
      | other =>
        rw [t5 a b rfl ha rfl hb (by simp), u5 _ _ rfl ((hcr a).2 ha) rfl ((hcr b).2 hb) (by simp)]
      | int n =>
        rcases lt_or_ge n 2 with hn | hn
        · rw [t6 a b n rfl ha rfl hb rfl hn,
            u6 _ _ n rfl ((hcr a).2 ha) rfl ((hcr b).2 hb) rfl hn]
        · rw [nmd_valid ha hb hn, nmd_valid ((hcr a).2 ha) ((hcr b).2 hb) hn]
          have e : ∀ w : List Char, countInt n w.reverse = countInt n w := by
            intro w; rw [countInt, countInt, List.length_reverse]
          rw [locSim_reverse ha hb, e, e]
    · rw [t4 a b rfl ha rfl hb, u4 _ _ rfl ((hcr a).2 ha) rfl (fun h => hb ((hcr b).1 h))]
  · rw [t2 a rfl ha, u2 _ rfl (fun h => ha ((hcr a).1 h))]

example : nmd (.str "stressed".toList) (.str "dressed".toList) (.int 2) false true =
    nmd (.str "desserts".toList) (.str "desserd".toList) (.int 2) false true := by decide +kernel

end Verif
