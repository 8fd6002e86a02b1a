import Verif.Fp.RangeSim
import Verif.Fp.RangeLookup
import Verif.Fp.BowProps

/-!
# Bags of words: the range of exponents does not matter
-/

namespace Verif
namespace Fp

open GramSpec BowSpec

variable {comp : Bool} {O U : FOps}

theorem bowCellF_range (hO : IsDouble comp O) (hU : U.fl = rne) {k v₁ v₂ : PyVal} (h3 : SmallArg k)
    (h1 : SmallArg v₁) (h2 : SmallArg v₂) :
    bowCellF O k v₁ v₂ = bowCellF U k v₁ v₂ ∧
      ∀ r, bowCellF U k v₁ v₂ = .ok r → Bd (-212) 52 1 r := by
  obtain ⟨e, b⟩ := nmdF_range hO hU h1 h2 h3 false true
  unfold bowCellF
  rw [e]
  refine ⟨rfl, fun r hr => ?_⟩
  split at hr
  · rename_i r' he
    injection hr with hr
    exact hr ▸ b _ he
  · injection hr with hr
    rw [← hr]
    split
    · exact ⟨by simpa using OnGrid.int (e := -212) (by norm_num) 1, by norm_num⟩
    · exact Bd.zero
  · cases hr

theorem bowCostsF_range (hO : IsDouble comp O) (hU : U.fl = rne) {k : PyVal} (h3 : SmallArg k)
    {a b : List PyVal} (ha : ∀ v ∈ a, SmallArg v) (hb : ∀ v ∈ b, SmallArg v) :
    bowCostsF O k a b = bowCostsF U k a b ∧
      ∀ m, bowCostsF U k a b = .ok m → ∀ row ∈ m, ∀ x ∈ row, Bd (-212) 52 1 x := by
  unfold bowCostsF
  constructor
  · apply mapM_congr_mem
    intro x hx
    apply mapM_congr_mem
    intro y hy
    exact (bowCellF_range hO hU h3 (ha x hx) (hb y hy)).1
  · intro m hm row hrow x hx
    obtain ⟨v, hv, hr⟩ := mapM_mem hm hrow
    obtain ⟨w, hw, hc⟩ := mapM_mem hr hx
    exact (bowCellF_range hO hU h3 (ha v hv) (hb w hw)).2 x hc

/-- The loop over the chosen cells. -/
theorem bowLoop_range (hO : IsDouble comp O) (hU : U.fl = rne) (invert : Bool) {m : List (List ℚ)}
    (hm : ∀ row ∈ m, ∀ x ∈ row, Bd (-212) 52 1 x) (pairs : List (ℕ × ℕ)) {s : ℚ} {c : ℕ}
    (hs : Bd (-212) 52 c s) (hc : c + pairs.length ≤ 2 ^ 53) :
    pairs.foldlM (fun out p => do
        let c ← bowEntry m p
        return O.fl (if invert then out - c else out + c)) s =
      pairs.foldlM (fun out p => do
        let c ← bowEntry m p
        return U.fl (if invert then out - c else out + c)) s ∧
    ∀ r, pairs.foldlM (fun out p => do
        let c ← bowEntry m p
        return U.fl (if invert then out - c else out + c)) s = .ok r →
      Bd (-212) 52 (c + pairs.length) r := by
  induction pairs generalizing s c with
  | nil =>
    refine ⟨rfl, fun r hr => ?_⟩
    simp only [List.foldlM_nil, pure, Except.pure, Except.ok.injEq] at hr
    exact hr ▸ hs
  | cons p pairs ih =>
    rw [List.length_cons] at hc ⊢
    simp only [List.foldlM_cons, bind, Except.bind, pure, Except.pure]
    cases he : bowEntry m p with
    | error e => exact ⟨rfl, fun r hr => nomatch hr⟩
    | ok x =>
      simp only
      have hx : Bd (-212) 52 1 x := by
        unfold bowEntry at he
        simp only [bind, Except.bind] at he
        cases hr : pyGet m p.1 with
        | error e => rw [hr] at he; cases he
        | ok row =>
          rw [hr] at he
          simp only at he
          have h1 : row ∈ m := by
            unfold pyGet at hr
            split at hr
            · rename_i v hv
              injection hr with hr
              exact hr ▸ List.mem_of_getElem? hv
            · cases hr
          have h2 : x ∈ row := by
            unfold pyGet at he
            split at he
            · rename_i v hv
              injection he with he
              exact he ▸ List.mem_of_getElem? hv
            · cases he
          exact hm row h1 x h2
      have b : Bd (-212) 52 (c + 1) (if invert then s - x else s + x) := by
        cases invert
        · exact hs.add hx
        · exact hs.sub hx
      have f := hO.fl_eq (by norm_num) (by norm_num) (by omega) b
      have b2 := b.rne (by omega)
      rw [f, hU]
      have := ih (s := rne (if invert then s - x else s + x)) (c := c + 1) b2 (by omega)
      simp only [bind, Except.bind, pure, Except.pure, hU] at this
      refine ⟨this.1, fun r hr => ?_⟩
      exact (this.2 r hr).mono (by omega)

/-- `bow_ngram_movers_distance` in binary64 is `bow_ngram_movers_distance` without bounds on the exponent. -/
theorem bowNmdF_range (hO : IsDouble comp O) (hU : U.fl = rne) {lsa : List (List ℚ) → List (ℕ × ℕ)}
    (hl : LsaComplete lsa) {k : PyVal} (h3 : SmallArg k) {a b : List PyVal}
    (ha : ∀ v ∈ a, SmallArg v) (hb : ∀ v ∈ b, SmallArg v) (hla : a.length ≤ 2 ^ 48)
    (hlb : b.length ≤ 2 ^ 48) (invert normalize : Bool) :
    bowNmdF O lsa a b k invert normalize = bowNmdF U lsa a b k invert normalize := by
  obtain ⟨e, hc⟩ := bowCostsF_range hO hU h3 ha hb
  unfold bowNmdF
  rw [e]
  simp only [bind, Except.bind]
  cases hm : bowCostsF U k a b with
  | error e => rfl
  | ok m =>
    simp only
    have hlen : m.length = a.length := (mapM_ok_facts hm).1
    have hrow : ∀ row ∈ m, row.length = b.length := by
      intro row hr
      obtain ⟨x, _, hx⟩ := (mapM_ok_facts hm).2 row hr
      exact (mapM_ok_facts hx).1
    set pairs := if m = [] then [] else lsa m with hp
    have hpl : pairs.length ≤ 2 ^ 48 := by
      rw [hp]
      split
      · simp
      · rw [(hl m _ hrow).2.2.2]; omega
    have key : ∀ inv : Bool, ∀ z : ℤ, |z| ≤ 2 ^ 48 →
        pairs.foldlM (fun out p => do
            let c ← bowEntry m p
            return O.fl (if inv then out - c else out + c)) (z : ℚ) =
          pairs.foldlM (fun out p => do
            let c ← bowEntry m p
            return U.fl (if inv then out - c else out + c)) (z : ℚ) ∧
        ∀ r, pairs.foldlM (fun out p => do
            let c ← bowEntry m p
            return U.fl (if inv then out - c else out + c)) (z : ℚ) = .ok r →
          Bd (-212) 52 (2 ^ 50) r := by
      intro inv z hz
      obtain ⟨h1, h2⟩ := bowLoop_range hO hU inv (hc m hm) pairs (s := z) (c := 2 ^ 48)
        (Bd.int (by norm_num) hz) (by omega)
      exact ⟨h1, fun r hr => (h2 r hr).mono (by omega)⟩
    have fin : ∀ r, Bd (-212) 52 (2 ^ 50) r →
        O.fl (r / max (a.length : ℚ) b.length) = U.fl (r / max (a.length : ℚ) b.length) := by
      intro r hb
      have hq := (hO.quot_eq (d := ((max a.length b.length : ℕ) : ℤ)) (by norm_num) (by norm_num)
        (by norm_num) hb (by rw [abs_of_nonneg (by omega)]; omega)).1
      rw [Int.cast_natCast] at hq
      push_cast at hq
      rw [hq, hU]
    cases invert with
    | false =>
      have hz : |(a.length : ℚ) - b.length| = ((|(a.length : ℤ) - b.length| : ℤ) : ℚ) := by
        push_cast; rfl
      obtain ⟨h1, h2⟩ := key false |(a.length : ℤ) - b.length| (by rw [abs_abs, abs_le]; omega)
      simp only [Bool.false_eq_true, if_false, bind, Except.bind, pure, Except.pure] at h1 h2 ⊢
      rw [hz]
      rw [h1]
      revert h2
      generalize (List.foldlM _ _ pairs : Except PyErr ℚ) = y
      intro h2
      cases y with
      | error e => rfl
      | ok r => simp only [fin r (h2 r rfl)]
    | true =>
      have hz : (min a.length b.length : ℚ) = (((min a.length b.length : ℕ) : ℤ) : ℚ) := by
        push_cast; rfl
      obtain ⟨h1, h2⟩ := key true ((min a.length b.length : ℕ) : ℤ) (by
        rw [abs_of_nonneg (by omega)]; omega)
      simp only [if_true, bind, Except.bind, pure, Except.pure] at h1 h2 ⊢
      rw [hz]
      rw [h1]
      revert h2
      generalize (List.foldlM _ _ pairs : Except PyErr ℚ) = y
      intro h2
      cases y with
      | error e => rfl
      | ok r => simp only [fin r (h2 r rfl)]

end Fp
end Verif
