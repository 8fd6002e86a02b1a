import Verif.Fp.BowProps
import Verif.Fp.Props
import Verif.Bow.EditProps

/-!
# Property C179: renaming and reversal in rounded arithmetic

`R` is any set of (rounded) operations, nothing is assumed about them.
-/

namespace Verif
namespace Fp

open GramSpec BowSpec

/-! ### Dictionaries with renamed keys -/

section Dicts

variable {κ ν : Type} [DecidableEq κ]

/-- The same dictionary with renamed keys. -/
def dmap (φ : κ → κ) (d : Dict κ ν) : Dict κ ν := d.map fun p => (φ p.1, p.2)

theorem get?_dmap {φ : κ → κ} {S : Set κ} (hφ : Set.InjOn φ S) {k : κ} (hk : k ∈ S) :
    ∀ {d : Dict κ ν}, (∀ p ∈ d, p.1 ∈ S) → Dict.get? (dmap φ d) (φ k) = Dict.get? d k
  | [], _ => rfl
  | (k', v) :: d, h => by
    have ih := get?_dmap hφ hk fun p hp => h p (List.mem_cons_of_mem _ hp)
    unfold dmap at ih ⊢
    rw [List.map_cons, Dict.get?_cons, Dict.get?_cons, ih]
    have : φ k' = φ k ↔ k' = k :=
      ⟨fun e => hφ (h (k', v) List.mem_cons_self) hk e, fun e => by rw [e]⟩
    simp only [this]

theorem set_dmap {φ : κ → κ} {S : Set κ} (hφ : Set.InjOn φ S) {k : κ} (hk : k ∈ S) (v : ν) :
    ∀ {d : Dict κ ν}, (∀ p ∈ d, p.1 ∈ S) → Dict.set (dmap φ d) (φ k) v = dmap φ (Dict.set d k v)
  | [], _ => rfl
  | (k', v') :: d, h => by
    have ih := set_dmap hφ hk v fun p hp => h p (List.mem_cons_of_mem _ hp)
    unfold dmap at ih ⊢
    rw [List.map_cons]
    unfold Dict.set
    have : φ k' = φ k ↔ k' = k :=
      ⟨fun e => hφ (h (k', v') List.mem_cons_self) hk e, fun e => by rw [e]⟩
    simp only [this]
    split
    · rfl
    · rw [List.map_cons, ih]

theorem set_keys {S : Set κ} {k : κ} (hk : k ∈ S) (v : ν) :
    ∀ {d : Dict κ ν}, (∀ p ∈ d, p.1 ∈ S) → ∀ p ∈ Dict.set d k v, p.1 ∈ S
  | [], _, p, hp => by
    unfold Dict.set at hp
    rw [List.mem_singleton] at hp
    rw [hp]; exact hk
  | (k', v') :: d, h, p, hp => by
    unfold Dict.set at hp
    split at hp
    · rcases List.mem_cons.1 hp with rfl | hp
      · exact hk
      · exact h p (List.mem_cons_of_mem _ hp)
    · rcases List.mem_cons.1 hp with rfl | hp
      · exact h _ List.mem_cons_self
      · exact set_keys hk v (fun p hp => h p (List.mem_cons_of_mem _ hp)) p hp

theorem foldl_appendTo_dmap {ι : Type} {φ : κ → κ} {S : Set κ} (hφ : Set.InjOn φ S) (f : ι → κ)
    (x : ι → ν) : ∀ (l : List ι) {d : Dict κ (List ν)}, (∀ i ∈ l, f i ∈ S) → (∀ p ∈ d, p.1 ∈ S) →
    l.foldl (fun d i => Dict.appendTo d (φ (f i)) (x i)) (dmap φ d) =
      dmap φ (l.foldl (fun d i => Dict.appendTo d (f i) (x i)) d) ∧
    ∀ p ∈ l.foldl (fun d i => Dict.appendTo d (f i) (x i)) d, p.1 ∈ S
  | [], _, _, h => ⟨rfl, h⟩
  | i :: l, d, hf, h => by
    have hi := hf i List.mem_cons_self
    have e : Dict.appendTo (dmap φ d) (φ (f i)) (x i) = dmap φ (Dict.appendTo d (f i) (x i)) := by
      unfold Dict.appendTo
      rw [get?_dmap hφ hi h, set_dmap hφ hi _ h]
    rw [List.foldl_cons, List.foldl_cons, e]
    exact foldl_appendTo_dmap hφ f x l (fun j hj => hf j (List.mem_cons_of_mem _ hj))
      (set_keys hi _ h)

end Dicts

/-! ### Distances -/

variable {R : FOps}

theorem pySlice_map {α β : Type} (g : α → β) (w : List α) (a b : ℕ) :
    pySlice (w.map g) a b = (pySlice w a b).map g := by
  unfold pySlice
  rw [← List.map_drop, ← List.map_take]

theorem mem_pySlice {α : Type} {w : List α} {a b : ℕ} {c : α} (h : c ∈ pySlice w a b) : c ∈ w :=
  List.mem_of_mem_drop (List.mem_of_mem_take h)

/-- Lists of characters from `P`. -/
def over (P : List Char) : Set (List Char) := {k | ∀ c ∈ k, c ∈ P}

theorem map_injOn_over {g : Char → Char} {P : List Char}
    (hg : ∀ c ∈ P, ∀ d ∈ P, g c = g d → c = d) : Set.InjOn (List.map g) (over P) := by
  intro v
  induction v with
  | nil => intro _ w _ e; simpa using e.symm
  | cons x v ih =>
    intro hv w hw e
    cases w with
    | nil => simp at e
    | cons y w =>
      simp only [List.map_cons, List.cons.injEq] at e
      rw [hg x (hv x List.mem_cons_self) y (hw y List.mem_cons_self) e.1,
        ih (fun c hc => hv c (List.mem_cons_of_mem _ hc))
          (fun c hc => hw c (List.mem_cons_of_mem _ hc)) e.2]

theorem nGramLocationsF_rename {g : Char → Char} {P : List Char}
    (hg : ∀ c ∈ P, ∀ d ∈ P, g c = g d → c = d) {p : List Char} (hp : ∀ c ∈ p, c ∈ P) (n : ℤ) :
    nGramLocationsF R (p.map g) n = dmap (List.map g) (nGramLocationsF R p n) ∧
    ∀ x ∈ nGramLocationsF R p n, x.1 ∈ over P := by
  have e : numGramsInt (p.map g) n = numGramsInt p n := by
    unfold numGramsInt; rw [List.length_map]
  unfold nGramLocationsF
  rw [e]
  simp only [pySlice_map]
  exact foldl_appendTo_dmap (map_injOn_over hg) (fun idx => pySlice p idx (idx + n.toNat))
    (fun idx : ℕ => R.fl ((idx : ℚ) / max 1 ((numGramsInt p n : ℚ) - 1)))
    (List.range (numGramsInt p n).toNat) (d := []) (fun i _ c hc => hp c (mem_pySlice hc)) (by simp)

theorem similarityLoopF_rename {g : Char → Char} {P : List Char}
    (hg : ∀ c ∈ P, ∀ d ∈ P, g c = g d → c = d) {d₁ d₂ : Dict (List Char) (List ℚ)}
    (h₁ : ∀ x ∈ d₁, x.1 ∈ over P) (h₂ : ∀ x ∈ d₂, x.1 ∈ over P) :
    similarityLoopF R (dmap (List.map g) d₁) (dmap (List.map g) d₂) = similarityLoopF R d₁ d₂ := by
  unfold similarityLoopF
  generalize (0 : ℚ) = s
  have key : ∀ (l : Dict (List Char) (List ℚ)) (s : ℚ), (∀ x ∈ l, x.1 ∈ over P) →
      (dmap (List.map g) l).foldl (fun s item =>
        match Dict.get? (dmap (List.map g) d₂) item.1 with
        | none => s
        | some l₂ => R.fl (R.fl (s + (item.2.length + l₂.length)) - emdF R item.2 l₂)) s =
      l.foldl (fun s item =>
        match Dict.get? d₂ item.1 with
        | none => s
        | some l₂ => R.fl (R.fl (s + (item.2.length + l₂.length)) - emdF R item.2 l₂)) s := by
    intro l
    induction l with
    | nil => intro s _; rfl
    | cons x l ih =>
      intro s hl
      have hx := get?_dmap (map_injOn_over hg) (hl x List.mem_cons_self) h₂
      have e : dmap (List.map g) (x :: l) = (x.1.map g, x.2) :: dmap (List.map g) l := rfl
      rw [e, List.foldl_cons, List.foldl_cons]
      simp only [hx]
      exact ih _ fun y hy => hl y (List.mem_cons_of_mem _ hy)
  exact key d₁ s h₁

/-- **C179.** Renaming the characters of both words by a map that keeps different characters different
(and produces no marker) changes no computed result in any bit. -/
theorem C179_float_rename {a b : List Char} (ha : Clean a) (hb : Clean b) {f : Char → Char}
    (hf : ∀ c ∈ a ++ b, ∀ d ∈ a ++ b, f c = f d → c = d)
    (hfa : Clean (a.map f)) (hfb : Clean (b.map f)) (k : PyVal) (invert normalize : Bool) :
    nmdF R (.str (a.map f)) (.str (b.map f)) k invert normalize =
      nmdF R (.str a) (.str b) k invert normalize := by
  let g : Char → Char := fun c => if c = stx then stx else if c = etx then etx else f c
  have hpad : ∀ w : List Char, Clean w → pad (w.map f) = (pad w).map g := by
    intro w hw
    have : w.map f = w.map g := by
      apply List.map_congr_left
      intro c hc
      simp only [g]
      rw [if_neg (fun e : c = stx => hw.1 (e ▸ hc)), if_neg (fun e : c = etx => hw.2 (e ▸ hc))]
    unfold pad
    rw [this, List.map_cons, List.map_append]
    simp [g, stx, etx]
  have hmem : ∀ c ∈ pad a ++ pad b, c = stx ∨ c = etx ∨
      (c ∈ a ++ b ∧ c ≠ stx ∧ c ≠ etx ∧ f c ≠ stx ∧ f c ≠ etx) := by
    intro c hc
    by_cases h1 : c = stx
    · exact Or.inl h1
    by_cases h2 : c = etx
    · exact Or.inr (Or.inl h2)
    refine Or.inr (Or.inr ?_)
    have hm : c ∈ a ∨ c ∈ b := by
      simp only [pad, List.mem_append, List.mem_cons, List.not_mem_nil, or_false] at hc
      unfold stx at h1
      unfold etx at h2
      tauto
    refine ⟨List.mem_append.2 hm, h1, h2, ?_, ?_⟩ <;> intro e <;> rcases hm with hm | hm
    · exact hfa.1 (e ▸ List.mem_map_of_mem hm)
    · exact hfb.1 (e ▸ List.mem_map_of_mem hm)
    · exact hfa.2 (e ▸ List.mem_map_of_mem hm)
    · exact hfb.2 (e ▸ List.mem_map_of_mem hm)
  have gs : g stx = stx := by simp [g]
  have ge : g etx = etx := by simp [g, stx, etx]
  have gf : ∀ c, c ≠ stx → c ≠ etx → g c = f c := by
    intro c h1 h2; simp only [g]; rw [if_neg h1, if_neg h2]
  have hg : ∀ c ∈ pad a ++ pad b, ∀ d ∈ pad a ++ pad b, g c = g d → c = d := by
    intro c hc d hd e
    rcases hmem c hc with rfl | rfl | ⟨c1, c2, c3, c4, c5⟩ <;>
      rcases hmem d hd with rfl | rfl | ⟨d1, d2, d3, d4, d5⟩
    · rfl
    · rw [gs, ge] at e; exact e
    · rw [gs, gf d d2 d3] at e; exact absurd e.symm d4
    · rw [gs, ge] at e; exact e
    · rfl
    · rw [ge, gf d d2 d3] at e; exact absurd e.symm d5
    · rw [gs, gf c c2 c3] at e; exact absurd e c4
    · rw [ge, gf c c2 c3] at e; exact absurd e c5
    · rw [gf c c2 c3, gf d d2 d3] at e; exact hf c c1 d d1 e
  have hcw : ∀ w : List Char, Clean w → checkWord (.str w) = .ok w := by
    intro w hw
    show (if '\x02' ∈ w ∨ '\x03' ∈ w then _ else _) = _
    rw [if_neg]
    rintro (h | h)
    · exact hw.1 h
    · exact hw.2 h
  unfold nmdF
  rw [hcw a ha, hcw b hb, hcw _ hfa, hcw _ hfb]
  have e : ∀ n : ℤ, nmdCheckedF R (a.map f) (b.map f) n invert normalize =
      nmdCheckedF R a b n invert normalize := by
    intro n
    have el : ∀ w : List Char, numGramsInt (pad (w.map f)) n = numGramsInt (pad w) n := by
      intro w; simp [numGramsInt, pad]
    obtain ⟨a1, a2⟩ := nGramLocationsF_rename (R := R) hg (p := pad a)
      (fun c hc => List.mem_append_left _ hc) n
    obtain ⟨b1, b2⟩ := nGramLocationsF_rename (R := R) hg (p := pad b)
      (fun c hc => List.mem_append_right _ hc) n
    unfold nmdCheckedF
    simp only [el]
    rw [hpad a ha, hpad b hb, a1, b1, similarityLoopF_rename hg a2 b2]
  simp only [bind, Except.bind]
  cases checkN k with
  | error x => rfl
  | ok n => exact e n

example : nmdF binary64 (.str "anna".toList) (.str "ann".toList) (.int 2) true true =
    nmdF binary64 (.str "otto".toList) (.str "ott".toList) (.int 2) true true := by decide +kernel

theorem bowNmdF_congr {a b : List (List Char)} {g : List Char → List Char} {n : PyVal}
    (hg : ∀ v ∈ a, ∀ w ∈ b, nmdF R (.str (g v)) (.str (g w)) n false true =
      nmdF R (.str v) (.str w) n false true) (hi : ∀ v ∈ a, ∀ w ∈ b, g v = g w → v = w)
    (lsa : List (List ℚ) → List (ℕ × ℕ)) (invert normalize : Bool) :
    bowNmdF R lsa ((a.map g).map .str) ((b.map g).map .str) n invert normalize =
      bowNmdF R lsa (a.map .str) (b.map .str) n invert normalize := by
  have hc : bowCostsF R n ((a.map g).map .str) ((b.map g).map .str) =
      bowCostsF R n (a.map .str) (b.map .str) := by
    unfold bowCostsF
    simp only [List.mapM_map]
    apply mapM_congr_mem
    intro v hv
    apply mapM_congr_mem
    intro w hw
    simp only [Function.comp_apply]
    unfold bowCellF
    rw [hg v hv w hw]
    have : (PyVal.str (g v) ≠ .str (g w)) ↔ (PyVal.str v ≠ .str w) := by
      simp only [ne_eq, PyVal.str.injEq, not_iff_not]
      exact ⟨hi v hv w hw, fun e => by rw [e]⟩
    simp only [this]
  unfold bowNmdF
  rw [hc]
  simp only [List.length_map]

/-- **C179.** The same for texts: bit for bit the same result, whatever the solver does. -/
theorem C179_float_bow_rename {a b : List (List Char)} (ha : ∀ w ∈ a, Clean w)
    (hb : ∀ w ∈ b, Clean w) {f : Char → Char}
    (hf : ∀ c ∈ (a ++ b).flatten, ∀ d ∈ (a ++ b).flatten, f c = f d → c = d)
    (hfa : ∀ w ∈ a, Clean (w.map f)) (hfb : ∀ w ∈ b, Clean (w.map f)) (n : PyVal)
    (lsa : List (List ℚ) → List (ℕ × ℕ)) (invert normalize : Bool) :
    bowNmdF R lsa ((a.map (List.map f)).map .str) ((b.map (List.map f)).map .str) n invert normalize =
      bowNmdF R lsa (a.map .str) (b.map .str) n invert normalize := by
  have hfl : ∀ v ∈ a, ∀ w ∈ b, ∀ c ∈ v ++ w, c ∈ (a ++ b).flatten := by
    intro v hv w hw c hc
    rw [List.mem_flatten]
    rcases List.mem_append.1 hc with h | h
    · exact ⟨v, List.mem_append_left _ hv, h⟩
    · exact ⟨w, List.mem_append_right _ hw, h⟩
  refine bowNmdF_congr ?_ ?_ lsa invert normalize
  · intro v hv w hw
    exact C179_float_rename (ha v hv) (hb w hw)
      (fun c hc d hd => hf c (hfl v hv w hw c hc) d (hfl v hv w hw d hd)) (hfa v hv) (hfb w hw) n
      false true
  · intro v hv w hw e
    exact map_injOn_over hf (fun c hc => hfl v hv w hw c (List.mem_append_left _ hc))
      (fun c hc => hfl v hv w hw c (List.mem_append_right _ hc)) e

example : bowNmdF binary64 bruteLsa [.str "anna".toList, .str "a".toList] [.str "ann".toList] (.int 2)
      true true =
    bowNmdF binary64 bruteLsa [.str "otto".toList, .str "o".toList] [.str "ott".toList] (.int 2)
      true true := by
  decide +kernel

/-! ### Reversal -/

/-- **C179.** Reversing both words can change the computed distance. -/
theorem C179_float_reverse_differs :
    ∃ a b : List Char, Clean a ∧ Clean b ∧
      nmdF binary64 (.str a.reverse) (.str b.reverse) (.int 2) false false ≠
        nmdF binary64 (.str a) (.str b) (.int 2) false false := by
  refine ⟨"aaa".toList, "aaba".toList, ⟨by decide, by decide⟩, ⟨by decide, by decide⟩, ?_⟩
  decide +kernel

/-- **C179.** But only by rounding errors: with `T` n-grams in both words by at most `10 T² u`, the
normalised values by at most `12 T u`; exceptions are the same. -/
theorem C179_float_reverse_near {R : Rounding} {a b : List Char} (ha : Clean a) (hb : Clean b) {n : ℤ}
    (hn : 2 ≤ n) (hla : n ≤ (a.length : ℤ) + 3) (hlb : n ≤ (b.length : ℤ) + 3) {T : ℕ}
    (hTd : T = count n.toNat a + count n.toNat b) (hT : T ≤ 2 ^ 53) (hTu : (T : ℚ) * R.u ≤ 1 / 2)
    (invert : Bool) :
    (∀ x y, nmdF R (.str a) (.str b) (.int n) invert false = .ok x →
      nmdF R (.str a.reverse) (.str b.reverse) (.int n) invert false = .ok y →
      |y - x| ≤ 10 * (T : ℚ) ^ 2 * R.u) ∧
    (∀ x y, nmdF R (.str a) (.str b) (.int n) invert true = .ok x →
      nmdF R (.str a.reverse) (.str b.reverse) (.int n) invert true = .ok y →
      |y - x| ≤ 12 * (T : ℚ) * R.u) ∧
    ∀ normalize e, nmdF R (.str a.reverse) (.str b.reverse) (.int n) invert normalize = .error e ↔
      nmdF R (.str a) (.str b) (.int n) invert normalize = .error e := by
  have har : Clean a.reverse := by unfold Clean at *; simpa using ha
  have hbr : Clean b.reverse := by unfold Clean at *; simpa using hb
  have hrev := fun normalize => C174_reverse a b (.int n) invert normalize
  have h3 : ∀ normalize e, nmdF R (.str a.reverse) (.str b.reverse) (.int n) invert normalize =
      .error e ↔ nmdF R (.str a) (.str b) (.int n) invert normalize = .error e := by
    intro normalize e
    rw [C104_nmd_float_raises, C104_nmd_float_raises, hrev]
  have cr : ∀ w : List Char, count n.toNat w.reverse = count n.toNat w := by
    intro w; rw [count_eq, count_eq, List.length_reverse]
  have hTr : T = count n.toNat a.reverse + count n.toNat b.reverse := by rw [cr, cr, hTd]
  refine ⟨?_, ?_, h3⟩
  · intro x y hx hy
    cases hz : nmd (.str a) (.str b) (.int n) invert false with
    | error e =>
      rw [← C104_nmd_float_raises (R := R), hx] at hz
      cases hz
    | ok z =>
      have e1 := abs_le.1 ((C106_nmd_float_error (R := R) ha hb hn hla hlb hTd hT hTu invert).1 hx hz)
      rw [← hrev] at hz
      have e2 := abs_le.1 ((C106_nmd_float_error (R := R) har hbr hn (by simpa using hla)
        (by simpa using hlb) hTr hT hTu invert).1 hy hz)
      rw [abs_le]
      constructor <;> linarith [e1.1, e1.2, e2.1, e2.2]
  · intro x y hx hy
    cases hz : nmd (.str a) (.str b) (.int n) invert true with
    | error e =>
      rw [← C104_nmd_float_raises (R := R), hx] at hz
      cases hz
    | ok z =>
      have e1 := abs_le.1 ((C106_nmd_float_error (R := R) ha hb hn hla hlb hTd hT hTu invert).2 hx hz)
      rw [← hrev] at hz
      have e2 := abs_le.1 ((C106_nmd_float_error (R := R) har hbr hn (by simpa using hla)
        (by simpa using hlb) hTr hT hTu invert).2 hy hz)
      rw [abs_le]
      constructor <;> linarith [e1.1, e1.2, e2.1, e2.2]

example : count 2 "aaa".toList + count 2 "aaba".toList = 9 ∧ (9 : ℚ) * binary64.u ≤ 1 / 2 := by
  refine ⟨?_, ?_⟩ <;> decide +kernel

end Fp
end Verif
