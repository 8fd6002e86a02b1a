import Verif.Edit.EedProps
import Mathlib.Data.Fin.VecNotation
import Mathlib.Data.Fintype.Basic
import Mathlib.Tactic.FinCases
import Mathlib.Tactic.Linarith
import Mathlib.Tactic.Ring

/-!
# C250: what the extended edit distance depends on
-/

namespace Verif
namespace Edit

open EedSpec

variable {α β : Type} [DecidableEq α] [DecidableEq β]

theorem eedCells_map (c : EedCosts) (g : α → β) (a : α) (row : List ℚ) :
    ∀ (hs : List α), (∀ h ∈ hs, g a = g h → a = h) → ∀ (j : Nat) (next : List ℚ),
      eedCells c (g a) row (hs.map g) j next = eedCells c a row hs j next
  | [], _, _, _ => rfl
  | h :: hs, hg, j, next => by
    have e : (g a = g h) ↔ (a = h) := ⟨hg h List.mem_cons_self, fun e => e ▸ rfl⟩
    simp only [List.map_cons, eedCells, e]
    have ih := eedCells_map c g a row hs (fun h' hh => hg h' (List.mem_cons_of_mem _ hh))
    simp only [ih]

theorem eedLoop_map (c : EedCosts) (inf : ℚ) (g : α → β) (sa : α → Bool) (sb : β → Bool)
    (hyp : List α) : ∀ (ref : List α), (∀ a ∈ ref, sb (g a) = sa a) →
      (∀ a ∈ ref, ∀ h ∈ hyp, g a = g h → a = h) → ∀ st : List ℚ × List ℚ,
      eedLoop c inf sb (hyp.map g) (ref.map g) st = eedLoop c inf sa hyp ref st
  | [], _, _, _ => rfl
  | a :: ref, hs, hg, st => by
    have e : eedStep c inf sb (hyp.map g) (g a) st = eedStep c inf sa hyp a st := by
      unfold eedStep eedNext
      simp only [List.length_map, eedCells_map c g a st.1 hyp (hg a List.mem_cons_self),
        hs a List.mem_cons_self]
    simp only [List.map_cons, eedLoop, e]
    have ih := eedLoop_map c inf g sa sb hyp ref (fun b hb => hs b (List.mem_cons_of_mem _ hb))
      (fun b hb => hg b (List.mem_cons_of_mem _ hb))
    simp only [ih]

/-- **C250.** The extended edit distance depends only on which characters of the two strings (and the space
they are padded with) are equal and which are whitespace: renaming them changes nothing, whatever the costs. -/
theorem C250_rename (c : EedCosts) (inf : ℚ) (g : α → β) (sp : α) (sa : α → Bool) (sb : β → Bool)
    (hyp ref : List α) (hs : ∀ a ∈ sp :: ref, sb (g a) = sa a)
    (hg : ∀ a ∈ sp :: ref, ∀ h ∈ sp :: hyp, g a = g h → a = h) :
    extendedEditDistance c inf (g sp) sb (hyp.map g) (ref.map g) =
      extendedEditDistance c inf sp sa hyp ref := by
  have m : ∀ {l : List α} {x : α}, x ∈ [sp] ++ l ++ [sp] → x ∈ sp :: l := by
    intro l x hx
    simp only [List.mem_append, List.mem_cons] at hx ⊢
    tauto
  have e := eedLoop_map c inf g sa sb ([sp] ++ hyp ++ [sp]) ([sp] ++ ref ++ [sp])
    (fun a ha => hs a (m ha)) (fun a ha h hh => hg a (m ha) h (m hh))
    ([0] ++ List.replicate ([sp] ++ hyp ++ [sp]).length 1,
      List.replicate (([sp] ++ hyp ++ [sp]).length + 1) 0)
  simp only [List.map_append, List.map_cons, List.map_nil] at e
  unfold extendedEditDistance
  have l1 : ∀ l : List α, ([g sp] ++ l.map g ++ [g sp]).length = ([sp] ++ l ++ [sp]).length := by
    intro l; simp
  simp only [l1, e]

/-- "ab cd" and "cd ab" with the letters renamed. -/
example : extendedEditDistance EedCosts.default 0 ' ' (· == ' ') "xy zw".toList "zw xy".toList =
    extendedEditDistance EedCosts.default 0 ' ' (· == ' ') "ab cd".toList "cd ab".toList :=
  C250_rename _ 0 (fun a => if a = 'a' then 'x' else if a = 'b' then 'y' else if a = 'c' then 'z'
    else if a = 'd' then 'w' else a) ' ' (· == ' ') (· == ' ') "ab cd".toList "cd ab".toList
    (by decide) (by decide)

/-- **C250.** The number that stands for infinity in the code does not matter. -/
theorem C250_infinity (c : EedCosts) (hrho : 0 ≤ c.rho) (inf inf' : ℚ) (sp : α) (isspace : α → Bool)
    (hyp ref : List α) :
    extendedEditDistance c inf sp isspace hyp ref = extendedEditDistance c inf' sp isspace hyp ref := by
  obtain ⟨E, hE, h⟩ := C73_eed_cheapest_walk c inf sp isspace hyp ref hrho
  obtain ⟨E', hE', h'⟩ := C73_eed_cheapest_walk c inf' sp isspace hyp ref hrho
  rw [h, h', hE.unique hE']

/-- **C250.** What the default parameters amount to: the score of every string for itself, of a single letter
for nothing, of nothing for a letter, of a letter for another letter, and of two words with exchanged places. -/
theorem C250_default (inf : ℚ) (sp : α) (isspace : α → Bool) (hsp : isspace sp = true) :
    (∀ s : List α, extendedEditDistance EedCosts.default inf sp isspace s s =
      .ok (3 / (10 * (s.length : ℚ) + 23))) ∧
    ∀ a b c d : α, [a, b, c, d].Nodup → (∀ x ∈ [a, b, c, d], isspace x = false) →
      extendedEditDistance EedCosts.default inf sp isspace [a] [] = .ok (4 / 13) ∧
      extendedEditDistance EedCosts.default inf sp isspace [] [a] = .ok (4 / 9) ∧
      extendedEditDistance EedCosts.default inf sp isspace [a] [b] = .ok (19 / 39) ∧
      extendedEditDistance EedCosts.default inf sp isspace [a, b, sp, c, d] [c, d, sp, a, b] =
        .ok (41 / 79) := by
  refine ⟨fun s => ?_, fun a b c d hn hx => ?_⟩
  · rw [C75_eed_identical EedCosts.default (by decide +kernel) (by decide +kernel)
      (by decide +kernel) (by decide +kernel) (by decide +kernel) inf sp isspace s]
    congr 1
    have hp : (0 : ℚ) ≤ s.length := Nat.cast_nonneg _
    have e : EedCosts.default.rho = 3 / 10 := rfl
    rw [e, div_eq_div_iff (by linarith) (by linarith)]
    ring
  · have ha := hx a (by simp)
    have hb := hx b (by simp)
    have hc := hx c (by simp)
    have hd := hx d (by simp)
    have na : sp ≠ a := by rintro rfl; rw [hsp] at ha; cases ha
    have nb : sp ≠ b := by rintro rfl; rw [hsp] at hb; cases hb
    have nc : sp ≠ c := by rintro rfl; rw [hsp] at hc; cases hc
    have nd : sp ≠ d := by rintro rfl; rw [hsp] at hd; cases hd
    set g : Fin 5 → α := ![sp, a, b, c, d] with hgdef
    have hs : ∀ i, isspace (g i) = decide (i = 0) := by
      intro i
      fin_cases i <;> simp [g, hsp, ha, hb, hc, hd]
    have hinj : ∀ i j, g i = g j → i = j := by
      have hn' : [sp, a, b, c, d].Nodup := by
        rw [List.nodup_cons]
        exact ⟨by simp [na, nb, nc, nd], hn⟩
      intro i j hij
      have e : ∀ i : Fin 5, g i = [sp, a, b, c, d][i.val]'(by simp) := by
        intro i
        fin_cases i <;> rfl
      rw [e, e, hn'.getElem_inj_iff] at hij
      exact Fin.ext hij
    have key : ∀ (h r : List (Fin 5)),
        extendedEditDistance EedCosts.default inf sp isspace (h.map g) (r.map g) =
        extendedEditDistance EedCosts.default 0 0 (fun i => decide (i = 0)) h r := by
      intro h r
      rw [C250_infinity EedCosts.default (by decide +kernel) inf 0]
      exact C250_rename EedCosts.default 0 g 0 _ isspace h r (fun i _ => hs i)
        (fun i _ j _ => hinj i j)
    refine ⟨(key [1] []).trans ?_, (key [] [1]).trans ?_, (key [1] [2]).trans ?_,
      (key [1, 2, 0, 3, 4] [3, 4, 0, 1, 2]).trans ?_⟩ <;> decide +kernel

/-- The hypotheses hold for the letters a to d. -/
example : ['a', 'b', 'c', 'd'].Nodup ∧ (∀ x ∈ ['a', 'b', 'c', 'd'], (x == ' ') = false) ∧
    (' ' == ' ') = true := by decide

/-! ### Larger costs -/

/-- No cost of `c` is larger than that of `c'`. -/
structure EedCosts.LE (c c' : EedCosts) : Prop where
  deletion : c.deletion ≤ c'.deletion
  insertion : c.insertion ≤ c'.insertion
  substitution : c.substitution ≤ c'.substitution
  jump : c.jump ≤ c'.jump

mutual

theorem before_mono {α : Type} {c c' : EedCosts} (hc : c.LE c') {space : α → Prop}
    {hyp ref : List α} {i j : Nat} {x : ℚ} :
    Before c' space hyp ref i j x → ∃ y, y ≤ x ∧ Before c space hyp ref i j y
  | .border hi h => by
    obtain ⟨y, hy, h⟩ := after_mono hc h
    exact ⟨_, by linarith, .border hi h⟩
  | .skip hj h => by
    obtain ⟨y, hy, h⟩ := before_mono hc h
    exact ⟨_, by linarith [hc.deletion], .skip hj h⟩
  | .same ha hb h => by
    obtain ⟨y, hy, h⟩ := after_mono hc h
    exact ⟨_, hy, .same ha hb h⟩
  | .subst ha hb hn h => by
    obtain ⟨y, hy, h⟩ := after_mono hc h
    exact ⟨_, by linarith [hc.substitution], .subst ha hb hn h⟩
  | .read hi hj h => by
    obtain ⟨y, hy, h⟩ := after_mono hc h
    exact ⟨_, by linarith [hc.insertion], .read hi hj h⟩

theorem after_mono {α : Type} {c c' : EedCosts} (hc : c.LE c') {space : α → Prop}
    {hyp ref : List α} {i j : Nat} {x : ℚ} :
    After c' space hyp ref i j x → ∃ y, y ≤ x ∧ After c space hyp ref i j y
  | .start => ⟨0, le_refl _, .start⟩
  | .first hj => ⟨1, le_refl _, .first hj⟩
  | .stay h => by
    obtain ⟨y, hy, h⟩ := before_mono hc h
    exact ⟨y, hy, .stay h⟩
  | .jump ha hs hj h => by
    obtain ⟨y, hy, h⟩ := before_mono hc h
    exact ⟨_, by linarith [hc.jump], .jump ha hs hj h⟩

end

/-- **C250.** Without the coverage penalty (`rho = 0`) raising costs never lowers the score. -/
theorem C250_costs {c c' : EedCosts} (hc : c.LE c') (h0 : c.rho = 0) (h0' : c'.rho = 0)
    (inf : ℚ) (sp : α) (isspace : α → Bool) (hyp ref : List α) :
    ∃ x y, extendedEditDistance c inf sp isspace hyp ref = .ok x ∧
      extendedEditDistance c' inf sp isspace hyp ref = .ok y ∧ x ≤ y := by
  obtain ⟨E, hE, h⟩ := C73_eed_cheapest_walk c inf sp isspace hyp ref (le_of_eq h0.symm)
  obtain ⟨E', hE', h'⟩ := C73_eed_cheapest_walk c' inf sp isspace hyp ref (le_of_eq h0'.symm)
  refine ⟨_, _, h, h', ?_⟩
  rw [h0, h0', zero_mul, zero_mul, add_zero, add_zero, add_zero]
  obtain ⟨y, hy, hy'⟩ := after_mono hc hE'.1
  have hle : E ≤ E' := (hE.2 hy').trans hy
  have hp : (0 : ℚ) ≤ ref.length := Nat.cast_nonneg _
  exact min_le_min_left _ (div_le_div_of_nonneg_right hle (by linarith))

/-- **C250.** With the penalty it can: with the other parameters at their defaults, a dearer insertion makes "a"
a better hypothesis for "b". -/
theorem C250_penalty : EedCosts.default.LE { EedCosts.default with insertion := 2 } ∧
    ∃ x y, extendedEditDistance EedCosts.default 0 ' ' (· == ' ') ['a'] ['b'] = .ok x ∧
      extendedEditDistance { EedCosts.default with insertion := 2 } 0 ' ' (· == ' ') ['a'] ['b'] = .ok y ∧
      y < x :=
  ⟨⟨le_refl _, by decide +kernel, le_refl _, le_refl _⟩, 19 / 39, 13 / 33, by decide +kernel,
    by decide +kernel, by norm_num⟩

/-- Dearer deletions. -/
example : EedCosts.LE ⟨1 / 5, 1, 1, 2, 0⟩ ⟨1, 1, 1, 2, 0⟩ ∧
    extendedEditDistance ⟨1 / 5, 1, 1, 2, 0⟩ 0 ' ' (· == ' ') "abc".toList "b".toList = .ok (2 / 15) ∧
    extendedEditDistance ⟨1, 1, 1, 2, 0⟩ 0 ' ' (· == ' ') "abc".toList "b".toList = .ok (2 / 3) := by
  refine ⟨⟨by norm_num, by norm_num, by norm_num, by norm_num⟩, ?_, ?_⟩ <;> decide +kernel

end Edit
end Verif
