import Verif.Bow.Props
import Verif.Core.EditProps

/-!
# Properties C175–C177: `bow_ngram_movers_distance` of edited, renamed and reversed texts

`bowNmd lsa a b n invert normalize` models the call; `lsa` is any assignment solver satisfying
scipy's documented contract.
-/

namespace Verif

open BowSpec GramSpec EditSpec

theorem bowDist_le_edits {v w : List Char} (hv : Clean v) (hw : Clean w) {n : ℤ} (hn : 2 ≤ n)
    (gv : HasGram n v) (gw : HasGram n w) {k : ℕ} (h : Steps OneEdit k v w) :
    bowDist n v w ≤ 2 * n * k / (count n.toNat v + count n.toNat w) := by
  obtain ⟨s, h1, h2⟩ := C170_similarity hv hw hn gv gw h
  rcases (C16_complement hv hw hn).2 with ⟨_, h3⟩ | ⟨d, s', h3, h4, h5⟩
  · rw [h3] at h1; cases h1
  · rw [h4] at h1
    cases h1
    have : bowDist n v w = d := by unfold bowDist; rw [h3]
    rw [this]
    linarith

/-- **C175.** Misspelling the words of a text: if the `i`-th word is changed by `kᵢ` edits, the
distance between the two texts is at most the sum of
`2 * n * kᵢ / (n-grams of the word before and after)`, and its inverted form is at least the number
of words minus that. -/
theorem C175_misspelt_text {lsa : List (List ℚ) → List (ℕ × ℕ)} (hl : LsaOk lsa) {n : ℤ}
    (hn : 2 ≤ n) (ps : List (List Char × List Char × ℕ))
    (hps : ∀ p ∈ ps, Clean p.1 ∧ Clean p.2.1 ∧ HasGram n p.1 ∧ HasGram n p.2.1 ∧
      Steps OneEdit p.2.2 p.1 p.2.1) :
    ∃ d s, bowNmd lsa (ps.map fun p => .str p.1) (ps.map fun p => .str p.2.1) (.int n) false false =
        .ok d ∧
      bowNmd lsa (ps.map fun p => .str p.1) (ps.map fun p => .str p.2.1) (.int n) true false =
        .ok s ∧
      s = ps.length - d ∧
      d ≤ (ps.map fun p => 2 * (n : ℚ) * p.2.2 / (count n.toNat p.1 + count n.toNat p.2.1)).sum := by
  have ha : ∀ w ∈ ps.map (fun p => p.1), Clean w := by
    intro w hw
    obtain ⟨p, hp, rfl⟩ := List.mem_map.1 hw
    exact (hps p hp).1
  have hb : ∀ w ∈ ps.map (fun p => p.2.1), Clean w := by
    intro w hw
    obtain ⟨p, hp, rfl⟩ := List.mem_map.1 hw
    exact (hps p hp).2.1
  have h := lsa_least hl (bowDist n) (ps.map (fun p => p.1)) (ps.map (fun p => p.2.1))
  have e1 := bowNmd_valid hl ha hb hn false false h
  have e2 := bowNmd_valid hl ha hb hn true false h
  rw [List.map_map, List.map_map] at e1 e2
  refine ⟨_, _, e1, e2, ?_, ?_⟩
  · simp
  · have h2 := h.2 ⟨((ps.map fun p => (p.1, p.2.1) : List _) : Multiset _), ⟨?_, ?_, ?_⟩, rfl⟩
    · simp only [List.length_map, sub_self, abs_zero, zero_add, Bool.false_eq_true, if_false]
      refine h2.trans ?_
      unfold assignCost
      rw [Multiset.map_coe, Multiset.sum_coe, List.map_map]
      apply List.sum_le_sum
      intro p hp
      obtain ⟨c1, c2, g1, g2, st⟩ := hps p hp
      exact bowDist_le_edits c1 c2 hn g1 g2 st
    · rw [Multiset.map_coe, List.map_map]; exact le_of_eq rfl
    · rw [Multiset.map_coe, List.map_map]; exact le_of_eq rfl
    · simp

/-- One word of two is misspelt, the order of the words is irrelevant. -/
example : bowNmd bruteLsa [.str "similarity".toList, .str "of".toList]
      [.str "of".toList, .str "similarty".toList] (.int 2) false false = .ok (146 / 945) ∧
    (146 / 945 : ℚ) ≤ 2 * 2 * 1 / (11 + 10) + 0 := by
  refine ⟨?_, ?_⟩
  · decide +kernel
  · norm_num

/-! ### Adding and replacing words -/

variable {α : Type}

theorem exists_cons_le {A N : Multiset α} (h : N ≤ A) (hc : N.card < A.card) :
    ∃ x, x ::ₘ N ≤ A := by
  obtain ⟨D, rfl⟩ := Multiset.le_iff_exists_add.1 h
  have : 0 < D.card := by rw [Multiset.card_add] at hc; omega
  obtain ⟨x, hx⟩ := Multiset.card_pos_iff_exists_mem.1 this
  refine ⟨x, ?_⟩
  rw [← Multiset.singleton_add, add_comm]
  exact add_le_add_right (Multiset.singleton_le.2 hx) N

theorem assignCost_cons (d : α → α → ℚ) (p : α × α) (M : Multiset (α × α)) :
    assignCost d (p ::ₘ M) = d p.1 p.2 + assignCost d M := by simp [assignCost]

theorem used_or_not {B : Multiset α} {w : α} {M : Multiset (α × α)}
    (h : M.map Prod.snd ≤ w ::ₘ B) :
    M.map Prod.snd ≤ B ∨ ∃ x N, M = (x, w) ::ₘ N ∧ N.map Prod.snd ≤ B := by
  by_cases hw : w ∈ M.map Prod.snd
  · right
    obtain ⟨⟨x, y⟩, hp, rfl⟩ := Multiset.mem_map.1 hw
    obtain ⟨N, rfl⟩ := Multiset.exists_cons_of_mem hp
    refine ⟨x, N, rfl, ?_⟩
    rw [Multiset.map_cons] at h
    exact (Multiset.cons_le_cons_iff _).1 h
  · left
    exact (Multiset.le_cons_of_notMem hw).1 h

theorem least_add {d : α → α → ℚ} {a b : List α} {w : α} {c c' : ℚ}
    (hd : ∀ x ∈ a, ∀ y ∈ w :: b, 0 ≤ d x y ∧ d x y ≤ 1) (h : IsLeastAssign d a b c)
    (h' : IsLeastAssign d a (w :: b) c') :
    (a.length ≤ b.length → c' ≤ c ∧ c ≤ c' + 1) ∧ (b.length < a.length → c ≤ c' ∧ c' ≤ c + 1) := by
  obtain ⟨⟨M, ⟨m1, m2, m3⟩, rfl⟩, hc⟩ := h
  obtain ⟨⟨M', ⟨m1', m2', m3'⟩, rfl⟩, hc'⟩ := h'
  rw [← Multiset.cons_coe] at m2' m3'
  simp only [Multiset.card_cons, Multiset.coe_card] at m3 m3'
  refine ⟨fun hle => ⟨?_, ?_⟩, fun hlt => ⟨?_, ?_⟩⟩
  · refine hc' ⟨M, ⟨m1, ?_, ?_⟩, rfl⟩
    · rw [← Multiset.cons_coe]; exact m2.trans (Multiset.le_cons_self _ _)
    · rw [← Multiset.cons_coe]; simp only [Multiset.card_cons, Multiset.coe_card]; omega
  · rcases used_or_not m2' with hu | ⟨x, N, rfl, hN⟩
    · have := hc ⟨M', ⟨m1', hu, by simp only [Multiset.coe_card]; omega⟩, rfl⟩
      linarith
    · rw [Multiset.card_cons] at m3'
      obtain ⟨y, hy⟩ := exists_cons_le hN (by
        rw [Multiset.card_map, Multiset.coe_card]; omega)
      have := hc ⟨(x, y) ::ₘ N, ⟨by simpa using m1', by simpa using hy, by
        simp only [Multiset.card_cons, Multiset.coe_card]; omega⟩, rfl⟩
      rw [assignCost_cons] at this ⊢
      have hx : x ∈ a := by
        have := Multiset.mem_of_le m1' (show x ∈ _ by simp)
        simpa using this
      have hyb : y ∈ b := by
        have := Multiset.mem_of_le hy (Multiset.mem_cons_self _ _)
        simpa using this
      have h1 := hd x hx y (List.mem_cons_of_mem _ hyb)
      have h2 := hd x hx w List.mem_cons_self
      simp only at this ⊢
      linarith
  · rcases used_or_not m2' with hu | ⟨x, N, rfl, hN⟩
    · have := Multiset.card_le_card hu
      rw [Multiset.card_map, Multiset.coe_card] at this
      omega
    · rw [Multiset.card_cons] at m3'
      have := hc ⟨N, ⟨(Multiset.map_le_map (Multiset.le_cons_self N _)).trans m1', hN, by
        simp only [Multiset.coe_card]; omega⟩, rfl⟩
      rw [assignCost_cons]
      have hx : x ∈ a := by
        have := Multiset.mem_of_le m1' (show x ∈ _ by simp)
        simpa using this
      have h2 := hd x hx w List.mem_cons_self
      simp only
      linarith
  · obtain ⟨x, hx⟩ := exists_cons_le m1 (by rw [Multiset.card_map, Multiset.coe_card]; omega)
    have := hc' ⟨(x, w) ::ₘ M, ⟨by simpa using hx, by
      rw [← Multiset.cons_coe, Multiset.map_cons]; exact (Multiset.cons_le_cons_iff _).2 m2, by
      rw [← Multiset.cons_coe]; simp only [Multiset.card_cons, Multiset.coe_card]; omega⟩, rfl⟩
    rw [assignCost_cons] at this
    have hxa : x ∈ a := by
      have := Multiset.mem_of_le hx (Multiset.mem_cons_self _ _)
      simpa using this
    have h2 := hd x hxa w List.mem_cons_self
    simp only at this
    linarith

theorem least_replace {d : α → α → ℚ} {a b : List α} {v w : α} {c c' : ℚ}
    (hd : ∀ x ∈ a, ∀ y ∈ v :: w :: b, 0 ≤ d x y ∧ d x y ≤ 1) (h : IsLeastAssign d a (v :: b) c)
    (h' : IsLeastAssign d a (w :: b) c') : c' ≤ c + 1 := by
  obtain ⟨⟨M, ⟨m1, m2, m3⟩, rfl⟩, -⟩ := h
  rw [← Multiset.cons_coe] at m2 m3
  simp only [Multiset.card_cons, Multiset.coe_card] at m3
  rcases used_or_not m2 with hu | ⟨x, N, rfl, hN⟩
  · have := h'.2 ⟨M, ⟨m1, by rw [← Multiset.cons_coe]; exact hu.trans (Multiset.le_cons_self _ _), by
      rw [← Multiset.cons_coe]; simp only [Multiset.card_cons, Multiset.coe_card]; omega⟩, rfl⟩
    linarith
  · have := h'.2 ⟨(x, w) ::ₘ N, ⟨by simpa using m1, by
      rw [← Multiset.cons_coe, Multiset.map_cons]; exact (Multiset.cons_le_cons_iff _).2 hN, by
      rw [← Multiset.cons_coe]
      simp only [Multiset.card_cons, Multiset.coe_card] at m3 ⊢; omega⟩, rfl⟩
    rw [assignCost_cons] at this ⊢
    have hx : x ∈ a := by
      have := Multiset.mem_of_le m1 (show x ∈ _ by simp)
      simpa using this
    have h1 := hd x hx v List.mem_cons_self
    have h2 := hd x hx w (List.mem_cons_of_mem _ List.mem_cons_self)
    simp only at this ⊢
    linarith

/-- **C176.** One more word in the second bag moves the distance by at most 1: upwards if the bag
was already at least as large as the other, downwards if it was smaller. -/
theorem C176_add_word {lsa : List (List ℚ) → List (ℕ × ℕ)} (hl : LsaOk lsa)
    {a b : List (List Char)} {w : List Char} (ha : ∀ v ∈ a, Clean v) (hb : ∀ v ∈ w :: b, Clean v)
    {n : ℤ} (hn : 2 ≤ n) :
    ∃ d d', bowNmd lsa (a.map .str) (b.map .str) (.int n) false false = .ok d ∧
      bowNmd lsa (a.map .str) ((w :: b).map .str) (.int n) false false = .ok d' ∧
      (a.length ≤ b.length → d ≤ d' ∧ d' ≤ d + 1) ∧
      (b.length < a.length → d' ≤ d ∧ d ≤ d' + 1) := by
  have h := lsa_least hl (bowDist n) a b
  have h' := lsa_least hl (bowDist n) a (w :: b)
  refine ⟨_, _, bowNmd_valid hl ha (fun v hv => hb v (List.mem_cons_of_mem _ hv)) hn false false h,
    bowNmd_valid hl ha hb hn false false h', ?_⟩
  obtain ⟨k1, k2⟩ := least_add (fun x hx y hy => bowDist_range hn (ha x hx) (hb y hy)) h h'
  simp only [Bool.false_eq_true, if_false, List.length_cons]
  refine ⟨fun hle => ?_, fun hlt => ?_⟩
  · have := k1 hle
    have hq : (a.length : ℚ) ≤ b.length := by exact_mod_cast hle
    push_cast
    rw [abs_of_nonpos (by linarith), abs_of_nonpos (by linarith)]
    constructor <;> linarith
  · have := k2 hlt
    have hq : (b.length : ℚ) + 1 ≤ a.length := by exact_mod_cast hlt
    push_cast
    rw [abs_of_nonneg (by linarith), abs_of_nonneg (by linarith)]
    constructor <;> linarith

/-- Both directions occur, and both bounds are attained. -/
example : bowNmd bruteLsa [.str "ab".toList] [] (.int 2) false false = .ok 1 ∧
    bowNmd bruteLsa [.str "ab".toList] [.str "ab".toList] (.int 2) false false = .ok 0 ∧
    bowNmd bruteLsa [.str "ab".toList] [.str "cd".toList, .str "ab".toList] (.int 2) false false =
      .ok 1 ∧
    bowNmd bruteLsa [.str "ab".toList] [.str "cd".toList] (.int 2) false false = .ok 1 := by
  refine ⟨?_, ?_, ?_, ?_⟩ <;> decide +kernel

/-- **C176.** Replacing one word by any other moves the distance by at most 1. -/
theorem C176_replace_word {lsa : List (List ℚ) → List (ℕ × ℕ)} (hl : LsaOk lsa)
    {a b : List (List Char)} {v w : List Char} (ha : ∀ u ∈ a, Clean u)
    (hb : ∀ u ∈ v :: w :: b, Clean u) {n : ℤ} (hn : 2 ≤ n) :
    ∃ d d', bowNmd lsa (a.map .str) ((v :: b).map .str) (.int n) false false = .ok d ∧
      bowNmd lsa (a.map .str) ((w :: b).map .str) (.int n) false false = .ok d' ∧
      |d - d'| ≤ 1 := by
  have hv : ∀ u ∈ v :: b, Clean u := fun u hu => hb u (by simp at hu ⊢; tauto)
  have hw : ∀ u ∈ w :: b, Clean u := fun u hu => hb u (by simp at hu ⊢; tauto)
  have h := lsa_least hl (bowDist n) a (v :: b)
  have h' := lsa_least hl (bowDist n) a (w :: b)
  refine ⟨_, _, bowNmd_valid hl ha hv hn false false h,
    bowNmd_valid hl ha hw hn false false h', ?_⟩
  have k1 := least_replace (fun x hx y hy => bowDist_range hn (ha x hx) (hb y hy)) h h'
  have k2 := least_replace (fun x hx y hy => bowDist_range hn (ha x hx)
    (hb y (by simp at hy ⊢; tauto))) h' h
  simp only [Bool.false_eq_true, if_false, List.length_cons]
  rw [abs_le]
  constructor <;> linarith

example : bowNmd bruteLsa [.str "ab".toList, .str "xy".toList] [.str "ab".toList, .str "xy".toList]
      (.int 2) false false = .ok 0 ∧
    bowNmd bruteLsa [.str "ab".toList, .str "xy".toList] [.str "cd".toList, .str "xy".toList]
      (.int 2) false false = .ok 1 := by
  refine ⟨?_, ?_⟩ <;> decide +kernel

/-! ### Renaming and reversing -/

theorem mapM_congr_mem {β γ : Type} {f g : β → Except PyErr γ} :
    ∀ {l : List β}, (∀ x ∈ l, f x = g x) → l.mapM f = l.mapM g
  | [], _ => rfl
  | x :: l, h => by
    rw [List.mapM_cons, List.mapM_cons, h x List.mem_cons_self,
      mapM_congr_mem fun y hy => h y (List.mem_cons_of_mem _ hy)]

theorem bowNmd_congr {a b : List (List Char)} {g : List Char → List Char} {n : PyVal}
    (hg : ∀ v ∈ a, ∀ w ∈ b, nmd (.str (g v)) (.str (g w)) n false true =
      nmd (.str v) (.str w) n false true) (hi : ∀ v ∈ a, ∀ w ∈ b, g v = g w → v = w)
    (lsa : List (List ℚ) → List (ℕ × ℕ)) (invert normalize : Bool) :
    bowNmd lsa ((a.map g).map .str) ((b.map g).map .str) n invert normalize =
      bowNmd lsa (a.map .str) (b.map .str) n invert normalize := by
  have hc : bowCosts n ((a.map g).map .str) ((b.map g).map .str) =
      bowCosts n (a.map .str) (b.map .str) := by
    unfold bowCosts
    simp only [List.mapM_map]
    apply mapM_congr_mem
    intro v hv
    apply mapM_congr_mem
    intro w hw
    simp only [Function.comp_apply]
    unfold bowCell
    rw [hg v hv w hw]
    have : (PyVal.str (g v) ≠ .str (g w)) ↔ (PyVal.str v ≠ .str w) := by
      simp only [ne_eq, PyVal.str.injEq, not_iff_not]
      exact ⟨hi v hv w hw, fun e => by rw [e]⟩
    simp only [this]
  unfold bowNmd
  rw [hc]
  simp only [List.length_map]

/-- **C177.** Renaming the characters of both texts by a map that keeps different characters
different changes no result (for all flags and any solver). -/
theorem C177_rename {a b : List (List Char)} (ha : ∀ w ∈ a, Clean w) (hb : ∀ w ∈ b, Clean w)
    {f : Char → Char} (hf : ∀ c ∈ (a ++ b).flatten, ∀ d ∈ (a ++ b).flatten, f c = f d → c = d)
    (hfa : ∀ w ∈ a, Clean (w.map f)) (hfb : ∀ w ∈ b, Clean (w.map f)) (n : PyVal)
    (lsa : List (List ℚ) → List (ℕ × ℕ)) (invert normalize : Bool) :
    bowNmd lsa ((a.map (List.map f)).map .str) ((b.map (List.map f)).map .str) n invert normalize =
      bowNmd lsa (a.map .str) (b.map .str) n invert normalize := by
  have hfl : ∀ v ∈ a, ∀ w ∈ b, ∀ c ∈ v ++ w, c ∈ (a ++ b).flatten := by
    intro v hv w hw c hc
    rw [List.mem_flatten]
    rcases List.mem_append.1 hc with h | h
    · exact ⟨v, List.mem_append_left _ hv, h⟩
    · exact ⟨w, List.mem_append_right _ hw, h⟩
  refine bowNmd_congr ?_ ?_ lsa invert normalize
  · intro v hv w hw
    exact C173_rename (ha v hv) (hb w hw)
      (fun c hc d hd => hf c (hfl v hv w hw c hc) d (hfl v hv w hw d hd)) (hfa v hv) (hfb w hw) n
      false true
  · intro v hv w hw e
    have key : ∀ {v w : List Char}, (∀ c ∈ v ++ w, ∀ d ∈ v ++ w, f c = f d → c = d) →
        v.map f = w.map f → v = w := by
      intro v
      induction v with
      | nil => intro w _ e; simpa using e.symm
      | cons x v ih =>
        intro w h e
        cases w with
        | nil => simp at e
        | cons y w =>
          simp only [List.map_cons, List.cons.injEq] at e
          rw [h x (by simp) y (by simp) e.1,
            ih (fun c hc d hd => h c (by simp at hc ⊢; tauto) d (by simp at hd ⊢; tauto)) e.2]
    exact key (fun c hc d hd => hf c (hfl v hv w hw c hc) d (hfl v hv w hw d hd)) e

example : bowNmd bruteLsa [.str "anna".toList, .str "a".toList] [.str "ann".toList] (.int 2) true true =
    bowNmd bruteLsa [.str "otto".toList, .str "o".toList] [.str "ott".toList] (.int 2) true true := by
  decide +kernel

/-- **C177.** Reading every word backwards changes no result and no exception. -/
theorem C177_reverse (a b : List (List Char)) (n : PyVal) (lsa : List (List ℚ) → List (ℕ × ℕ))
    (invert normalize : Bool) :
    bowNmd lsa ((a.map List.reverse).map .str) ((b.map List.reverse).map .str) n invert normalize =
      bowNmd lsa (a.map .str) (b.map .str) n invert normalize :=
  bowNmd_congr (fun v _ w _ => C174_reverse v w n false true)
    (fun _ _ _ _ e => List.reverse_injective e) lsa invert normalize

example : bowNmd bruteLsa [.str "abc".toList, .str "d".toList] [.str "abd".toList] (.int 3) false true =
    bowNmd bruteLsa [.str "cba".toList, .str "d".toList] [.str "dba".toList] (.int 3) false true := by
  decide +kernel

end Verif
