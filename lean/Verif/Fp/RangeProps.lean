import Verif.Fp.RangeBow
import Verif.Fp.RangeSet
import Verif.Bow.Props
import Verif.Fp.IndexProps

/-!
# Overflow and underflow

C165–C168. `IsDouble comp O` says that `O` is the arithmetic of Python's floats with their range of exponents:
every operation returns the nearest binary64 number (`nearest64`), with gradual underflow, and nothing is
known about operations that overflow. `unbounded comp` is `binary64` (before Python 3.12) or `binary64c`
(from 3.12 on), the arithmetics of the other theorems about floats, which have no bounds on the
exponent.
-/

namespace Verif
namespace Fp

open GramSpec WordSetSpec BowSpec

variable {comp : Bool} {O : FOps} {cf : List Char → List Char} {un : Normalizer}

/-- An arithmetic with the range of exponents of binary64, for the examples; operations that overflow
return 0. -/
def doubleOps (comp : Bool) : FOps :=
  let fl : ℚ → ℚ := fun x => (nearest64 x).getD 0
  { fl := fl
    sum := if comp then compSum fl else plainSum fl
    zero := by
      have : nearest64 0 = some 0 := by
        rw [nearest64_eq (Or.inl OnGrid.zero) (by rw [abs_zero]; positivity), rne_zero]
      change (nearest64 0).getD 0 = 0
      rw [this]; rfl }

theorem doubleOps_isDouble (comp : Bool) : IsDouble comp (doubleOps comp) :=
  ⟨fun x v h => by change (nearest64 x).getD 0 = v; rw [h]; rfl, rfl⟩

/-! ## C165 -/

/-- C165. `nearest64` is what IEEE 754 says: the result is a binary64 number to which none is preferable. -/
theorem C165_double_nearest {x v : ℚ} (h : nearest64 x = some v) :
    IsF64 v ∧ ∀ f, IsF64 f → |v - x| ≤ |f - x| := nearest64_nearest h

example : nearest64 (1 / 3 / 2 ^ 1070) = some (5 / 2 ^ 1074) := by decide +kernel

/-- C165. Results overflow from half a unit above the largest number on. -/
theorem C165_double_overflow (x : ℚ) :
    nearest64 x = none ↔ (2 : ℚ) ^ 1024 - 2 ^ 970 ≤ |x| := nearest64_none x

example : nearest64 (2 ^ 1024 - 2 ^ 970) = none ∧
    nearest64 (2 ^ 1024 - 2 ^ 970 - 1) = some (2 ^ 1024 - 2 ^ 971) := by decide +kernel

/-- C165. `emd_1d` (`emd_1d_dp`) on binary64 numbers of at most `2 ^ 970`: no operation overflows, none is
affected by underflow, and the result is that of the arithmetic without bounds on the exponent. -/
theorem C165_double_emd (hO : IsDouble comp O) {xs ys : List ℚ}
    (hx : ∀ x ∈ xs, IsF64 x ∧ |x| ≤ 2 ^ 970) (hy : ∀ y ∈ ys, IsF64 y ∧ |y| ≤ 2 ^ 970)
    (hl : xs.length + ys.length ≤ 2 ^ 53) :
    emdDpF O xs ys = emdDpF (unbounded comp) xs ys := by
  have key : ∀ l : List ℚ, (∀ x ∈ l, IsF64 x ∧ |x| ≤ 2 ^ 970) → Pts (-1074) 970 l := by
    intro l h x hx
    obtain ⟨⟨k, e, rfl, _, he, _⟩, hb⟩ := h x hx
    exact ⟨OnGrid.mono ⟨k, rfl⟩ he, by simpa using hb⟩
  exact (emdDpF_range hO (unbounded_fl comp) le_rfl (by norm_num) le_rfl (key xs hx) (key ys hy) hl).1

-- with subnormal positions and a large one
example : emdDpF (doubleOps false) [1 / 2 ^ 1074] [3 / 2 ^ 1074] = .ok (1 / 2 ^ 1073) ∧
    emdDpF (doubleOps false) [1 / 2 ^ 1074, 2 ^ 900] [3 / 2 ^ 1074] = .ok 1 := by decide +kernel

/-! ## C166 -/

/-- C166. `ngram_movers_distance` with words of at most `2 ^ 48` characters: no operation overflows, none is
affected by underflow, and the result (or exception) is that of the arithmetic without bounds on the
exponent. -/
theorem C166_double_nmd (hO : IsDouble comp O) {v₁ v₂ k : PyVal} (h1 : SmallArg v₁) (h2 : SmallArg v₂)
    (h3 : SmallArg k) (invert normalize : Bool) :
    nmdF O v₁ v₂ k invert normalize = nmdF (unbounded comp) v₁ v₂ k invert normalize :=
  (nmdF_range hO (unbounded_fl comp) h1 h2 h3 invert normalize).1

example : SmallArg (.str "banana".toList) ∧ SmallArg (.str "bandana".toList) ∧ SmallArg (.int 2) ∧
    ∃ r, nmdF (doubleOps true) (.str "banana".toList) (.str "bandana".toList) (.int 2) false true = .ok r ∧
      0 < r ∧ r < 1 / 2 := by
  refine ⟨by unfold SmallArg; decide, by unfold SmallArg; decide, by unfold SmallArg; decide, ?_⟩
  have : (nmdF (doubleOps true) (.str "banana".toList) (.str "bandana".toList) (.int 2) false true).toOption.any
      (fun r => 0 < r ∧ r < 1 / 2) = true := by decide +kernel
  cases h : nmdF (doubleOps true) (.str "banana".toList) (.str "bandana".toList) (.int 2) false true with
  | error e => rw [h] at this; cases this
  | ok r =>
    rw [h] at this
    exact ⟨r, rfl, by simpa [Except.toOption] using this⟩

/-- C166. `bow_ngram_movers_distance` with bags of at most `2 ^ 48` such words. -/
theorem C166_double_bow (hO : IsDouble comp O) {lsa : List (List ℚ) → List (ℕ × ℕ)}
    (hl : LsaComplete lsa) {k : PyVal} (hk : SmallArg k) {a b : List PyVal}
    (ha : ∀ v ∈ a, SmallArg v) (hb : ∀ v ∈ b, SmallArg v) (hla : a.length ≤ 2 ^ 48)
    (hlb : b.length ≤ 2 ^ 48) (invert normalize : Bool) :
    bowNmdF O lsa a b k invert normalize = bowNmdF (unbounded comp) lsa a b k invert normalize :=
  bowNmdF_range hO (unbounded_fl comp) hl hk ha hb hla hlb invert normalize

example : LsaComplete bruteLsa ∧
    bowNmdF (doubleOps true) bruteLsa [.str ['a', 'b'], .str ['c']] [.str ['c'], .str ['a', 'd']] (.int 2)
      false false = .ok (6004799503160661 / 2 ^ 53) :=
  ⟨lsaNear_complete (lsaOk_iff_near.1 bruteLsa_ok), by decide +kernel⟩

/-! ## C167 -/

theorem words_run {st₀ : WL} (hcf : ∀ w, cf (cf w) = cf w) (hi : WLInv cf st₀)
    (hw : ∀ w ∈ st₀.wordList, w.length ≤ 2 ^ 48) (ops : List WLOp) (h : ∀ op ∈ ops, SmallOp cf op) :
    ∀ w ∈ (st₀.run cf ops).wordList, w.length ≤ 2 ^ 48 := by
  induction ops using List.reverseRecOn with
  | nil => exact hw
  | append_singleton ops op ih =>
    have ih := ih fun op hop => h op (by simp [hop])
    rw [run_append_singleton]
    cases op with
    | lookup _ _ _ => exact ih
    | add v =>
      obtain ⟨-, h2, h3⟩ := addWord_words hcf (hi.run hcf ops) v
      change ∀ w ∈ ((st₀.run cf ops).addWord cf v).1.wordList, _
      by_cases hx : ∃ x, Adds cf (st₀.run cf ops).caseInsensitive v x
      · obtain ⟨x, hx⟩ := hx
        rw [h2 x hx]
        split
        · exact ih
        · intro w hw
          rcases List.mem_append.1 hw with hw | hw
          · exact ih w hw
          · rw [List.mem_singleton] at hw
            subst hw
            obtain ⟨u, rfl, _, he, _⟩ := hx
            have hs : SmallWord cf (.str u) := h (.add (.str u)) (by simp)
            rw [← he]
            split
            · exact hs.2
            · exact hs.1
      · rw [h3 fun x hc => hx ⟨x, hc⟩]
        exact ih

/-- C167. A `WordList` with at most `2 ^ 20` sizes: after any calls with words of at most `2 ^ 48` characters the
stored positions are those of the arithmetic without bounds on the exponent, and so is the result of
every lookup (with the mean as the aggregate, which is the default `dim=1`). -/
theorem C167_double_word_list (hcf : ∀ w, cf (cf w) = cf w) (hO : IsDouble comp O) {n : NArg} {cs : Bool}
    {fn : ℤ} {st₀ : WL} (h₀ : WL.new n cs fn = .ok st₀) (hN : st₀.nList.length ≤ 2 ^ 20)
    {ops : List WLOp} (hops : ∀ op ∈ ops, SmallOp cf op) {word : PyVal} (hword : SmallWord cf word)
    (topK : PyVal) (normalize : Bool) :
    runF O cf st₀ ops = runF (unbounded comp) cf st₀ ops ∧
    lookupF O (mean1F O) cf (runF O cf st₀ ops) word topK normalize =
      lookupF (unbounded comp) (mean1F (unbounded comp)) cf (runF (unbounded comp) cf st₀ ops) word topK
        normalize := by
  have hi : WLInv cf st₀ := WLInv.new h₀
  have e := runF_range hO st₀ ops hops
  have r₀ : ∀ R : FOps, Rounded R st₀ st₀ := by
    intro R
    refine ⟨st₀.ngramPositions, rfl, ?_⟩
    intro g
    unfold WL.new at h₀
    cases hm : mkNList n with
    | error e => rw [hm] at h₀; cases h₀
    | ok l =>
      rw [hm] at h₀
      injection h₀ with h₀
      subst h₀
      rfl
  have hw₀ : ∀ w ∈ st₀.wordList, w.length ≤ 2 ^ 48 := by
    unfold WL.new at h₀
    cases hm : mkNList n with
    | error e => rw [hm] at h₀; cases h₀
    | ok l =>
      rw [hm] at h₀
      injection h₀ with h₀
      subst h₀
      exact fun w hw => nomatch hw
  refine ⟨e, ?_⟩
  rw [e]
  refine lookupF_range hO (hi.run hcf ops) ?_ (runF_rounded (r₀ _) ops) ?_
    (words_run hcf hi hw₀ ops hops) hword topK normalize
  · rw [← e]
    exact runF_rounded (r₀ _) ops
  · rw [(config_run hcf hi ops).1]
    exact hN

example : ∃ res, lookupF (doubleOps true) (mean1F (doubleOps true)) id (runF (doubleOps true) id demo₀ demoOps)
      (.str "banan".toList) (.int 2) true = .ok res ∧ res ≠ [] := by
  have : (lookupF (doubleOps true) (mean1F (doubleOps true)) id (runF (doubleOps true) id demo₀ demoOps)
      (.str "banan".toList) (.int 2) true).toOption.any (fun r => r ≠ []) = true := by decide +kernel
  cases h : lookupF (doubleOps true) (mean1F (doubleOps true)) id (runF (doubleOps true) id demo₀ demoOps)
      (.str "banan".toList) (.int 2) true with
  | error e => rw [h] at this; cases this
  | ok r =>
    rw [h] at this
    exact ⟨r, rfl, by simpa [Except.toOption] using this⟩

/-! ## C168 -/

/-- C168. A `WordSet` with at most `2 ^ 20` sizes: every call of the public interface observes the same as in the
arithmetic without bounds on the exponent, after any calls whose words have at most `2 ^ 30` characters
once normalised. -/
theorem C168_double_word_set (hO : IsDouble comp O) {cs : Option Bool} {cb : Bool} {sizes : NArg} {st₀ : WS}
    (h₀ : WS.new cs cb sizes = .ok st₀) (hN : st₀.nList.length ≤ 2 ^ 20) {ops : List WSOp}
    (hops : ∀ op ∈ ops, ShortOp (keyOf st₀.caseSensitive cf un) op) :
    setOutputsF O cf un st₀ ops = setOutputsF (unbounded comp) cf un st₀ ops := by
  have h := setOutputsF_range hO (unbounded_fl comp) ops (Rep.new (cf := cf) (un := un) h₀)
    (fun m hm => nomatch hm) hN hops
  rwa [flWS_new h₀, flWS_new h₀] at h

example : (setOutputsF (doubleOps true) id none
      (match WS.new (some true) true (.iter [2, 3]) with
        | .ok st => st
        | .error _ => ⟨true, [], none, [], [], 0, [], []⟩)
      [.add (.str "banana".toList), .add (.str "bandana".toList), .discard (.str "x".toList),
        .suggest (.str "bandan".toList) (.int 2)]).any
    (fun | .names (.ok r) => r = ["bandana".toList, "banana".toList] | _ => false) = true := by
  decide +kernel

end Fp
end Verif
