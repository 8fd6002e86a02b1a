import Verif.Trie.Longest
import Mathlib.Data.List.TakeWhile
import Mathlib.Algebra.BigOperators.Group.List.Basic
import Mathlib.Algebra.Order.BigOperators.Group.List
import Mathlib.Algebra.Order.Ring.Nat

/-!
# Lemmas about `findall_longest`

Helper lemmas only; the property theorem is in `Verif.Trie.LongestProps`.
-/

namespace Verif
namespace Trie

variable {τ : Type}

/-- `c` consists of matches from `P`, in order and without overlaps. -/
def IsChain (P c : List (Hit τ)) : Prop :=
  (∀ h ∈ c, h ∈ P) ∧ c.Pairwise (fun a b => a.2.1 ≤ b.1)

/-- Total length of some matches. -/
def totalLen (c : List (Hit τ)) : Nat := (c.map hitLen).sum

@[simp] theorem totalLen_nil : totalLen ([] : List (Hit τ)) = 0 := rfl
@[simp] theorem totalLen_cons (h : Hit τ) (c : List (Hit τ)) :
    totalLen (h :: c) = hitLen h + totalLen c := by simp [totalLen]
@[simp] theorem totalLen_append (a b : List (Hit τ)) :
    totalLen (a ++ b) = totalLen a + totalLen b := by simp [totalLen]
@[simp] theorem totalLen_reverse (a : List (Hit τ)) : totalLen a.reverse = totalLen a := by
  simp [totalLen]

theorem totalLen_filter (p : Hit τ → Bool) (c : List (Hit τ)) :
    totalLen c = totalLen (c.filter p) + totalLen (c.filter (fun h => !p h)) := by
  induction c with
  | nil => rfl
  | cons h c ih => cases hp : p h <;> simp [hp, ih] <;> omega

theorem IsChain.filter {P Q c : List (Hit τ)} (h : IsChain P c) (p : Hit τ → Bool)
    (hp : ∀ x ∈ P, p x = true → x ∈ Q) : IsChain Q (c.filter p) := by
  refine ⟨?_, h.2.filter p⟩
  intro x hx
  rw [List.mem_filter] at hx
  exact hp x (h.1 x hx.1) hx.2

theorem IsChain.mono {P Q c : List (Hit τ)} (h : IsChain P c) (hs : ∀ x ∈ c, x ∈ Q) :
    IsChain Q c := ⟨hs, h.2⟩

/-- Entries of `ends` and `values`. -/
abbrev Entry (τ : Type) := Nat × Nat × List (Hit τ)

structure LisInv (P : List (Hit τ)) (B : Nat) (L : List (Entry τ)) : Prop where
  sorted : L.Pairwise (fun a b => a.1 < b.1)
  zero : ∃ rest, L = (0, 0, []) :: rest
  mono : L.Pairwise (fun a b => a.2.1 ≤ b.2.1)
  le : ∀ p ∈ L, p.1 ≤ B
  chain : ∀ p ∈ L, IsChain P p.2.2.reverse ∧ totalLen p.2.2 = p.2.1 ∧ ∀ h ∈ p.2.2, h.2.1 ≤ p.1
  opt : ∀ c x, IsChain P c → (∀ h ∈ c, h.2.1 ≤ x) → ∃ p ∈ L, p.1 ≤ x ∧ totalLen c ≤ p.2.1

theorem split_le (L : List (Entry τ)) (hs : L.Pairwise (fun a b => a.1 < b.1)) (x : Nat) :
    ∃ A B, L = A ++ B ∧ (∀ a ∈ A, a.1 ≤ x) ∧ ∀ b ∈ B, x < b.1 := by
  induction L with
  | nil => exact ⟨[], [], rfl, by simp, by simp⟩
  | cons p L ih =>
    rw [List.pairwise_cons] at hs
    by_cases hp : p.1 ≤ x
    · obtain ⟨A, B, h1, h2, h3⟩ := ih hs.2
      exact ⟨p :: A, B, by rw [h1]; rfl, by simpa using ⟨hp, fun a b c => h2 (a, b, c)⟩, h3⟩
    · refine ⟨[], p :: L, rfl, by simp, ?_⟩
      intro b hb
      rcases List.mem_cons.mp hb with rfl | hb
      · omega
      · have := hs.1 b hb
        omega

theorem pyGetI_append_last {α : Type} (A : List α) (p : α) (B : List α) :
    pyGetI (A ++ p :: B) (((A.length + 1 : Nat) : Int) - 1) = .ok p := by
  have : (((A.length + 1 : Nat) : Int) - 1) = (A.length : Nat) := by push_cast; omega
  unfold pyGetI
  rw [this, pyIndex_nat (by simp)]
  exact pyGet_ok' (by simp)

theorem lookup_ends {P : List (Hit τ)} {B : Nat} {L : List (Entry τ)} (h : LisInv P B L) (x : Nat) :
    ∃ p ∈ L, p.1 ≤ x ∧ (∀ q ∈ L, q.1 ≤ x → q.2.1 ≤ p.2.1) ∧
      pyGetI (L.map Prod.snd) ((bisectRight (L.map Prod.fst) x : Int) - 1) = .ok p.2 := by
  obtain ⟨A, C, hL, hA, hC⟩ := split_le L h.sorted x
  have hcount : bisectRight (L.map Prod.fst) x = A.length := by
    unfold bisectRight
    rw [hL, List.map_append, List.countP_append]
    have h1 : (A.map Prod.fst).countP (fun a => decide (a ≤ x)) = A.length := by
      rw [List.countP_eq_length.mpr]
      · simp
      · intro a ha
        obtain ⟨q, hq, rfl⟩ := List.mem_map.mp ha
        simpa using hA q hq
    have h2 : (C.map Prod.fst).countP (fun a => decide (a ≤ x)) = 0 := by
      rw [List.countP_eq_zero]
      intro a ha
      obtain ⟨q, hq, rfl⟩ := List.mem_map.mp ha
      simpa using hC q hq
    rw [h1, h2]
    rfl
  have hne : A ≠ [] := by
    rintro rfl
    obtain ⟨rest, hr⟩ := h.zero
    have := hC (0, 0, []) (by
      have : (0, 0, []) ∈ L := by rw [hr]; simp
      rw [hL] at this; simpa using this)
    simp at this
  obtain ⟨A', p, rfl⟩ : ∃ A' p, A = A' ++ [p] :=
    ⟨A.dropLast, A.getLast hne, (List.dropLast_append_getLast hne).symm⟩
  refine ⟨p, by rw [hL]; simp, hA p (by simp), ?_, ?_⟩
  · intro q hq hqx
    rw [hL, List.append_assoc, List.mem_append] at hq
    have hm := h.mono
    rw [hL, List.append_assoc, List.pairwise_append] at hm
    rcases hq with hq | hq
    · exact hm.2.2 q hq p (by simp)
    · rw [List.singleton_append, List.mem_cons] at hq
      rcases hq with rfl | hq
      · exact le_refl _
      · have := hC q hq
        omega
  · rw [hcount, hL, List.append_assoc, List.map_append, List.singleton_append, List.map_cons]
    have := pyGetI_append_last (A'.map Prod.snd) p.2 (C.map Prod.snd)
    rw [List.length_map] at this
    rw [List.length_append, List.length_singleton]
    exact this

theorem bestMatch_ok {P : List (Hit τ)} {B : Nat} {L : List (Entry τ)} (h : LisInv P B L)
    (G : List (Hit τ)) (bv : Nat × Int) (bm : Option (List (Hit τ))) :
    ∃ bv' bm', bestMatch (L.map Prod.fst) (L.map Prod.snd) G bv bm = .ok (bv', bm') ∧
      bv.1 ≤ bv'.1 ∧
      (∀ g ∈ G, ∀ p ∈ L, p.1 ≤ g.1 → p.2.1 + hitLen g ≤ bv'.1) ∧
      ((bv' = bv ∧ bm' = bm) ∨
        ∃ g ∈ G, ∃ p ∈ L, p.1 ≤ g.1 ∧ bm' = some (g :: p.2.2) ∧ bv'.1 = p.2.1 + hitLen g) := by
  induction G generalizing bv bm with
  | nil => exact ⟨bv, bm, rfl, le_refl _, by simp, .inl ⟨rfl, rfl⟩⟩
  | cons m G ih =>
    obtain ⟨p, hp, hpx, hmax, hget⟩ := lookup_ends h m.1
    rw [bestMatch, hget]
    simp only
    by_cases hc : bv.1 < p.2.1 + hitLen m ∨ (bv.1 = p.2.1 + hitLen m ∧ bv.2 < -(m.1 : Int))
    · rw [if_pos hc]
      obtain ⟨bv', bm', h1, h2, h3, h4⟩ := ih (p.2.1 + hitLen m, -(m.1 : Int)) (some (m :: p.2.2))
      simp only at h2
      refine ⟨bv', bm', h1, by omega, ?_, ?_⟩
      · intro g hg q hq hqx
        rcases List.mem_cons.mp hg with rfl | hg
        · have := hmax q hq hqx
          omega
        · exact h3 g hg q hq hqx
      · rcases h4 with ⟨rfl, rfl⟩ | ⟨g, hg, q, hq, h5⟩
        · exact .inr ⟨m, by simp, p, hp, hpx, rfl, rfl⟩
        · exact .inr ⟨g, by simp [hg], q, hq, h5⟩
    · rw [if_neg hc]
      obtain ⟨bv', bm', h1, h2, h3, h4⟩ := ih bv bm
      refine ⟨bv', bm', h1, h2, ?_, ?_⟩
      · intro g hg q hq hqx
        rcases List.mem_cons.mp hg with rfl | hg
        · have := hmax q hq hqx
          omega
        · exact h3 g hg q hq hqx
      · rcases h4 with h4 | ⟨g, hg, q, hq, h5⟩
        · exact .inl h4
        · exact .inr ⟨g, by simp [hg], q, hq, h5⟩

/-- A chain that uses a match of the group with the largest end uses it last. -/
theorem chain_group {P G c : List (Hit τ)} {B e : Nat} (hP : ∀ h ∈ P, h.1 < h.2.1 ∧ h.2.1 ≤ B)
    (hG : ∀ g ∈ G, g.1 < g.2.1 ∧ g.2.1 = e) (hBe : B < e) (hc : IsChain (P ++ G) c) :
    IsChain P c ∨ ∃ c' g, c = c' ++ [g] ∧ g ∈ G ∧ IsChain P c' ∧ ∀ h ∈ c', h.2.1 ≤ g.1 := by
  rcases List.eq_nil_or_concat c with rfl | ⟨c', g, rfl⟩
  · exact .inl ⟨by simp, List.Pairwise.nil⟩
  · obtain ⟨h1, h2⟩ := hc
    rw [List.concat_eq_append, List.pairwise_append] at h2
    rw [List.concat_eq_append] at h1 ⊢
    have hlast : ∀ h ∈ c', h.2.1 ≤ g.1 := fun h hh => h2.2.2 h hh g (by simp)
    have hg : g ∈ P ∨ g ∈ G := List.mem_append.mp (h1 g (by simp))
    have hgle : g.1 < g.2.1 ∧ g.2.1 ≤ e := by
      rcases hg with hg | hg
      · exact ⟨(hP g hg).1, by have := (hP g hg).2; omega⟩
      · exact ⟨(hG g hg).1, (hG g hg).2.le⟩
    have hc' : ∀ h ∈ c', h ∈ P := by
      intro h hh
      rcases List.mem_append.mp (h1 h (by simp [hh])) with hp | hp
      · exact hp
      · have := (hG h hp).2
        have := hlast h hh
        omega
    rcases hg with hg | hg
    · left
      refine ⟨?_, ?_⟩
      · intro h hh
        rcases List.mem_append.mp hh with hh | hh
        · exact hc' h hh
        · rw [List.mem_singleton] at hh
          exact hh ▸ hg
      · rw [List.pairwise_append]
        exact h2
    · exact .inr ⟨c', g, rfl, hg, ⟨hc', h2.1⟩, hlast⟩

theorem getLast_mono {L : List (Entry τ)} {A : List (Entry τ)} {p : Entry τ} (hL : L = A ++ [p])
    (hm : L.Pairwise (fun a b => a.2.1 ≤ b.2.1)) : ∀ q ∈ L, q.2.1 ≤ p.2.1 := by
  intro q hq
  rw [hL] at hm hq
  rw [List.pairwise_append] at hm
  rcases List.mem_append.mp hq with hq | hq
  · exact hm.2.2 q hq p (by simp)
  · rw [List.mem_singleton] at hq
    exact hq ▸ le_refl _

theorem pyGetI_snoc {α : Type} (A : List α) (p : α) : pyGetI (A ++ [p]) (-1) = .ok p := by
  unfold pyGetI
  have : pyIndex (A ++ [p]).length (-1) = some A.length := by
    simp [pyIndex]
  rw [this]
  exact pyGet_ok' (by simp)

/-- The loop handles the next group. -/
theorem lis_group {P G : List (Hit τ)} {B e : Nat} {L : List (Entry τ)} (h : LisInv P B L)
    (hP : ∀ h ∈ P, h.1 < h.2.1 ∧ h.2.1 ≤ B) (hG : ∀ g ∈ G, g.1 < g.2.1 ∧ g.2.1 = e) (hne : G ≠ [])
    (hBe : B < e) :
    ∃ A last V bm, L = A ++ [last] ∧ last.1 < e ∧
      (∃ i, bestMatch (L.map Prod.fst) (L.map Prod.snd) G (0, -(e : Int)) none
        = .ok ((V, i), some bm)) ∧
      LisInv (P ++ G) e (if last.2.1 < V then L ++ [(e, V, bm)] else L) := by
  have hLne : L ≠ [] := by
    obtain ⟨rest, hr⟩ := h.zero
    rw [hr]; simp
  obtain ⟨A, last, hL⟩ : ∃ A p, L = A ++ [p] :=
    ⟨L.dropLast, L.getLast hLne, (List.dropLast_append_getLast hLne).symm⟩
  have hlast : last ∈ L := by rw [hL]; simp
  have hmaxlast := getLast_mono hL h.mono
  obtain ⟨⟨V, i⟩, bm', h1, -, h3, h4⟩ := bestMatch_ok h G (0, -(e : Int)) none
  simp only at h3 h4
  obtain ⟨g0, hg0⟩ := List.exists_mem_of_ne_nil G hne
  obtain ⟨rest0, hr0⟩ := h.zero
  have hVpos : 0 < V := by
    have := h3 g0 hg0 (0, 0, []) (by rw [hr0]; simp) (by simp)
    have h5 := (hG g0 hg0).1
    unfold hitLen at this
    omega
  rcases h4 with ⟨h4, -⟩ | ⟨g, hg, p, hp, hpg, rfl, hV⟩
  · simp only [Prod.mk.injEq] at h4
    omega
  refine ⟨A, last, V, g :: p.2.2, hL, by have := h.le last hlast; omega, ⟨i, h1⟩, ?_⟩
  have hchainP := h.chain
  -- every chain through the group is worth at most `V`
  have hgroup : ∀ c' g', g' ∈ G → IsChain P c' → (∀ x ∈ c', x.2.1 ≤ g'.1) →
      totalLen (c' ++ [g']) ≤ V := by
    intro c' g' hg' hc' hle
    obtain ⟨q, hq, hqx, hqt⟩ := h.opt c' g'.1 hc' hle
    have := h3 g' hg' q hq hqx
    simp
    omega
  have hsub : ∀ c, IsChain P c → IsChain (P ++ G) c :=
    fun c hc => hc.mono (fun x hx => List.mem_append_left _ (hc.1 x hx))
  have hnew : IsChain (P ++ G) (g :: p.2.2).reverse ∧ totalLen (g :: p.2.2) = V ∧
      ∀ x ∈ g :: p.2.2, x.2.1 ≤ e := by
    obtain ⟨c1, c2, c3⟩ := hchainP p hp
    refine ⟨⟨?_, ?_⟩, by simp [c2]; omega, ?_⟩
    · intro x hx
      rw [List.mem_reverse, List.mem_cons] at hx
      rcases hx with rfl | hx
      · exact List.mem_append_right _ hg
      · exact List.mem_append_left _ (c1.1 x (List.mem_reverse.mpr hx))
    · rw [List.reverse_cons, List.pairwise_append]
      refine ⟨c1.2, List.pairwise_singleton _ _, ?_⟩
      intro a ha b hb
      rw [List.mem_singleton] at hb
      subst hb
      have := c3 a (List.mem_reverse.mp ha)
      omega
    · intro x hx
      rcases List.mem_cons.mp hx with rfl | hx
      · exact (hG _ hg).2.le
      · have := c3 x hx
        have := h.le p hp
        omega
  split
  · rename_i hlt
    refine ⟨?_, ?_, ?_, ?_, ?_, ?_⟩
    · rw [List.pairwise_append]
      refine ⟨h.sorted, List.pairwise_singleton _ _, ?_⟩
      intro a ha b hb
      rw [List.mem_singleton] at hb
      subst hb
      have := h.le a ha
      simp only
      omega
    · exact ⟨rest0 ++ [(e, V, g :: p.2.2)], by rw [hr0]; rfl⟩
    · rw [List.pairwise_append]
      refine ⟨h.mono, List.pairwise_singleton _ _, ?_⟩
      intro a ha b hb
      rw [List.mem_singleton] at hb
      subst hb
      have := hmaxlast a ha
      simp only
      omega
    · intro q hq
      rcases List.mem_append.mp hq with hq | hq
      · have := h.le q hq
        omega
      · rw [List.mem_singleton] at hq
        subst hq
        exact le_refl _
    · intro q hq
      rcases List.mem_append.mp hq with hq | hq
      · obtain ⟨c1, c2⟩ := hchainP q hq
        exact ⟨hsub _ c1, c2⟩
      · rw [List.mem_singleton] at hq
        subst hq
        exact hnew
    · intro c x hc hx
      rcases chain_group hP hG hBe hc with hc | ⟨c', g', rfl, hg', hc', hle⟩
      · obtain ⟨q, hq, hqx⟩ := h.opt c x hc hx
        exact ⟨q, List.mem_append_left _ hq, hqx⟩
      · refine ⟨(e, V, g :: p.2.2), by simp, ?_, hgroup c' g' hg' hc' hle⟩
        have := hx g' (by simp)
        have := (hG g' hg').2
        simp only
        omega
  · rename_i hlt
    refine ⟨h.sorted, h.zero, h.mono, ?_, ?_, ?_⟩
    · intro q hq
      have := h.le q hq
      omega
    · intro q hq
      obtain ⟨c1, c2⟩ := hchainP q hq
      exact ⟨hsub _ c1, c2⟩
    · intro c x hc hx
      rcases chain_group hP hG hBe hc with hc | ⟨c', g', rfl, hg', hc', hle⟩
      · exact h.opt c x hc hx
      · refine ⟨last, hlast, ?_, ?_⟩
        · have := hx g' (by simp)
          have := (hG g' hg').2
          have := h.le last hlast
          omega
        · have := hgroup c' g' hg' hc' hle
          omega

theorem lisLoop_ok (fuel : Nat) (pending : List (Hit τ)) {P : List (Hit τ)} {B : Nat}
    {L : List (Entry τ)} (hf : pending.length ≤ fuel) (h : LisInv P B L)
    (hP : ∀ h ∈ P, h.1 < h.2.1 ∧ h.2.1 ≤ B) (hB : ∀ h ∈ pending, h.1 < h.2.1 ∧ B < h.2.1)
    (hs : pending.Pairwise (fun a b => a.2.1 ≤ b.2.1)) :
    ∃ L' B', lisLoop fuel pending (L.map Prod.fst) (L.map Prod.snd) = .ok (L'.map Prod.snd) ∧
      LisInv (P ++ pending) B' L' := by
  induction fuel generalizing pending P B L with
  | zero =>
    have : pending = [] := List.eq_nil_of_length_eq_zero (by omega)
    subst this
    exact ⟨L, B, rfl, by simpa using h⟩
  | succ fuel ih =>
    cases pending with
    | nil => exact ⟨L, B, rfl, by simpa using h⟩
    | cons m rest =>
      rw [List.pairwise_cons] at hs
      have hsplit := List.takeWhile_append_dropWhile (p := fun h : Hit τ => decide (h.2.1 = m.2.1))
        (l := rest)
      generalize hT : rest.takeWhile (fun h : Hit τ => decide (h.2.1 = m.2.1)) = T at hsplit
      generalize hD : rest.dropWhile (fun h : Hit τ => decide (h.2.1 = m.2.1)) = D at hsplit
      have hmemT : ∀ g ∈ T, g.2.1 = m.2.1 := by
        intro g hg
        rw [← hT] at hg
        simpa using List.mem_takeWhile_imp hg
      have hmemD : ∀ g ∈ D, m.2.1 < g.2.1 := by
        intro g hg
        have hDs : D.Pairwise (fun a b => a.2.1 ≤ b.2.1) := by
          have := hs.2
          rw [← hsplit, List.pairwise_append] at this
          exact this.2.1
        cases D with
        | nil => simp at hg
        | cons d D =>
          have hd : m.2.1 < d.2.1 := by
            have hd1 : ¬ (d.2.1 = m.2.1) := by
              have := List.head_dropWhile_not (fun h : Hit τ => decide (h.2.1 = m.2.1)) (l := rest)
                (by rw [hD]; simp)
              simp only [hD, List.head_cons] at this
              simpa using this
            have := hs.1 d (by rw [← hsplit]; simp)
            omega
          rcases List.mem_cons.mp hg with rfl | hg
          · exact hd
          · have := (List.pairwise_cons.mp hDs).1 g hg
            omega
      have hG : ∀ g ∈ m :: T, g.1 < g.2.1 ∧ g.2.1 = m.2.1 := by
        intro g hg
        rcases List.mem_cons.mp hg with rfl | hg'
        · exact ⟨(hB _ (by simp)).1, rfl⟩
        · exact ⟨(hB g (by rw [← hsplit]; simp [hg'])).1, hmemT g hg'⟩
      obtain ⟨A, last, V, bm, hL, hlt, ⟨i, hbest⟩, hinv⟩ :=
        lis_group h hP hG (by simp) (hB m (by simp)).2
      have e1 : pyGetI (L.map Prod.fst) (-1) = .ok last.1 := by
        rw [hL, List.map_append, List.map_singleton, pyGetI_snoc]
      have e2 : pyGetI (L.map Prod.snd) (-1) = .ok last.2 := by
        rw [hL, List.map_append, List.map_singleton, pyGetI_snoc]
      rw [lisLoop, e1]
      simp only
      rw [if_neg (by simpa using hlt), hT, hbest]
      simp only
      rw [e2, hD]
      simp only
      have hP' : ∀ h ∈ P ++ m :: T, h.1 < h.2.1 ∧ h.2.1 ≤ m.2.1 := by
        intro x hx
        rcases List.mem_append.mp hx with hx | hx
        · have := hP x hx
          have := (hB m (by simp)).2
          omega
        · exact ⟨(hG x hx).1, (hG x hx).2.le⟩
      have hB' : ∀ h ∈ D, h.1 < h.2.1 ∧ m.2.1 < h.2.1 := fun x hx =>
        ⟨(hB x (by rw [← hsplit]; simp [hx])).1, hmemD x hx⟩
      have hDs : D.Pairwise (fun a b => a.2.1 ≤ b.2.1) := by
        have := hs.2
        rw [← hsplit, List.pairwise_append] at this
        exact this.2.1
      have hf' : D.length ≤ fuel := by
        have : (T ++ D).length = rest.length := by rw [hsplit]
        simp only [List.length_append, List.length_cons] at this hf
        omega
      have hPeq : P ++ m :: rest = (P ++ m :: T) ++ D := by
        rw [← hsplit]; simp
      rw [hPeq]
      split
      · rename_i hc
        rw [if_pos hc] at hinv
        have := ih D hf' hinv hP' hB' hDs
        rwa [List.map_append, List.map_append] at this
      · rename_i hc
        rw [if_neg hc] at hinv
        exact ih D hf' hinv hP' hB' hDs

theorem lisInv_nil : LisInv ([] : List (Hit τ)) 0 [(0, 0, [])] := by
  refine ⟨List.pairwise_singleton _ _, ⟨[], rfl⟩, List.pairwise_singleton _ _, by simp, ?_, ?_⟩
  · intro p hp
    rw [List.mem_singleton] at hp
    subst hp
    exact ⟨⟨by simp, List.Pairwise.nil⟩, rfl, by simp⟩
  · intro c x hc _
    have : c = [] := List.eq_nil_iff_forall_not_mem.mpr (fun a ha => by simpa using hc.1 a ha)
    subst this
    exact ⟨(0, 0, []), by simp, by simp, by simp⟩

theorem longestSubsequence_ok (ms : List (Hit τ)) (hms : ∀ h ∈ ms, h.1 < h.2.1) :
    ∃ l, longestSubsequence ms = .ok l ∧ IsChain ms l ∧
      ∀ c, IsChain ms c → totalLen c ≤ totalLen l := by
  cases hm : ms with
  | nil =>
    refine ⟨[], rfl, ⟨by simp, List.Pairwise.nil⟩, ?_⟩
    intro c hc
    have : c = [] := List.eq_nil_iff_forall_not_mem.mpr (fun a ha => by simpa using hc.1 a ha)
    simp [this]
  | cons m ms' =>
    rw [← hm]
    have hunf : longestSubsequence ms = (match lisLoop
        (sortDesc (fun h : Hit τ => toLex (h.2.1, h.1)) ms).length
        (sortDesc (fun h : Hit τ => toLex (h.2.1, h.1)) ms).reverse [0] [(0, [])] with
      | .error e => .error e
      | .ok values =>
        match pyGetI values (-1) with
        | .error e => .error e
        | .ok (_, bm) => .ok bm.reverse) := by
      rw [hm]; rfl
    rw [hunf]
    generalize hS : sortDesc (fun h : Hit τ => toLex (h.2.1, h.1)) ms = S
    have hmem : ∀ x, x ∈ S.reverse ↔ x ∈ ms := by
      intro x
      rw [List.mem_reverse, ← hS, mem_sortDesc]
    have hsort : S.reverse.Pairwise (fun a b => a.2.1 ≤ b.2.1) := by
      rw [List.pairwise_reverse, ← hS]
      refine (sortDesc_pairwise _ _).imp ?_
      intro a b hab
      rw [Prod.Lex.toLex_le_toLex] at hab
      rcases hab with h | h
      · exact h.le
      · exact h.1.le
    obtain ⟨L', B', h1, h2⟩ := lisLoop_ok S.length S.reverse (by simp) lisInv_nil (by simp)
      (fun x hx => by have := hms x ((hmem x).mp hx); omega) hsort
    simp only [List.map_cons, List.map_nil, List.nil_append] at h1 h2
    rw [h1]
    simp only
    have hLne : L' ≠ [] := by
      obtain ⟨rest, hr⟩ := h2.zero
      rw [hr]; simp
    obtain ⟨A, last, hL⟩ : ∃ A p, L' = A ++ [p] :=
      ⟨L'.dropLast, L'.getLast hLne, (List.dropLast_append_getLast hLne).symm⟩
    have e2 : pyGetI (L'.map Prod.snd) (-1) = .ok last.2 := by
      rw [hL, List.map_append, List.map_singleton, pyGetI_snoc]
    rw [e2]
    obtain ⟨c1, c2, -⟩ := h2.chain last (by rw [hL]; simp)
    refine ⟨_, rfl, c1.mono (fun x hx => (hmem x).mp (c1.1 x hx)), ?_⟩
    intro c hc
    obtain ⟨q, hq, -, hqt⟩ := h2.opt c (c.map (fun h => h.2.1)).sum
      (hc.mono (fun x hx => (hmem x).mpr (hc.1 x hx)))
      (fun x hx => List.single_le_sum (by simp) _ (List.mem_map_of_mem hx))
    have := getLast_mono hL h2.mono q hq
    rw [totalLen_reverse, c2]
    omega

/-- Closing a cluster. -/
theorem close_cluster [DecidableEq τ] {D out cluster l : List (Hit τ)} (hout : IsChain D out)
    (hopt : ∀ c, IsChain D c → totalLen c ≤ totalLen out)
    (hD : ∀ d ∈ D, ∀ h ∈ cluster, d.2.1 ≤ h.1) (h2 : IsChain cluster l)
    (h3 : ∀ c, IsChain cluster c → totalLen c ≤ totalLen l) :
    IsChain (D ++ cluster) (out ++ l) ∧
      ∀ c, IsChain (D ++ cluster) c → totalLen c ≤ totalLen (out ++ l) := by
  refine ⟨⟨?_, ?_⟩, ?_⟩
  · intro x hx
    rcases List.mem_append.mp hx with hx | hx
    · exact List.mem_append_left _ (hout.1 x hx)
    · exact List.mem_append_right _ (h2.1 x hx)
  · rw [List.pairwise_append]
    refine ⟨hout.2, h2.2, ?_⟩
    intro a ha b hb
    exact hD a (hout.1 a ha) b (h2.1 b hb)
  · intro c hc
    rw [totalLen_filter (fun h => decide (h ∈ D)) c, totalLen_append]
    have k1 := hopt _ (hc.filter (Q := D) (fun h => decide (h ∈ D)) (by simp))
    have k2 := h3 _ (hc.filter (Q := cluster) (fun h => !decide (h ∈ D)) (by
      intro x hx hx'
      rcases List.mem_append.mp hx with hx | hx
      · simp [hx] at hx'
      · exact hx))
    omega

theorem clusterLoop_ok [DecidableEq τ] (ms : List (Hit τ)) {D out cluster : List (Hit τ)} {ce : Nat}
    (hms : ∀ h ∈ cluster ++ ms, h.1 < h.2.1) (hsort : ms.Pairwise (fun a b => a.1 ≤ b.1))
    (hout : IsChain D out) (hopt : ∀ c, IsChain D c → totalLen c ≤ totalLen out)
    (hD : ∀ d ∈ D, ∀ h ∈ cluster ++ ms, d.2.1 ≤ h.1) (hce : ∀ d ∈ D ++ cluster, d.2.1 ≤ ce) :
    ∃ l, clusterLoop ms out cluster ce = .ok l ∧ IsChain (D ++ cluster ++ ms) l ∧
      ∀ c, IsChain (D ++ cluster ++ ms) c → totalLen c ≤ totalLen l := by
  induction ms generalizing D out cluster ce with
  | nil =>
    obtain ⟨l, h1, h2, h3⟩ := longestSubsequence_ok cluster (fun h hh => hms h (by simp [hh]))
    rw [clusterLoop, h1]
    obtain ⟨k1, k2⟩ := close_cluster hout hopt (fun d hd h hh => hD d hd h (by simp [hh])) h2 h3
    exact ⟨_, rfl, by simpa using k1, by simpa using k2⟩
  | cons m ms ih =>
    rw [List.pairwise_cons] at hsort
    rw [clusterLoop]
    by_cases hc : cluster = [] ∨ m.1 < ce
    · rw [if_pos hc]
      have hass : D ++ cluster ++ m :: ms = D ++ (cluster ++ [m]) ++ ms := by simp
      rw [hass]
      refine ih (fun h hh => hms h (by simpa using hh)) hsort.2 hout hopt
        (fun d hd h hh => hD d hd h (by simpa using hh)) ?_
      intro d hd
      rw [← List.append_assoc, List.mem_append, List.mem_singleton] at hd
      rcases hd with hd | rfl
      · exact (hce d hd).trans (le_max_left _ _)
      · exact le_max_right _ _
    · rw [if_neg hc]
      rw [not_or, not_lt] at hc
      obtain ⟨l, h1, h2, h3⟩ := longestSubsequence_ok cluster (fun h hh => hms h (by simp [hh]))
      rw [h1]
      simp only
      obtain ⟨k1, k2⟩ := close_cluster hout hopt (fun d hd h hh => hD d hd h (by simp [hh])) h2 h3
      have hass : D ++ cluster ++ m :: ms = (D ++ cluster) ++ [m] ++ ms := by simp
      rw [hass]
      refine ih (fun h hh => hms h (by
        rw [List.singleton_append] at hh
        exact List.mem_append_right _ hh)) hsort.2 k1 k2 ?_ ?_
      · intro d hd h hh
        have h4 := hce d hd
        rw [List.singleton_append, List.mem_cons] at hh
        rcases hh with rfl | hh
        · omega
        · have := hsort.1 h hh
          omega
      · intro d hd
        rw [List.mem_append, List.mem_singleton] at hd
        rcases hd with hd | rfl
        · exact (hce d hd).trans (le_max_left _ _)
        · exact le_max_right _ _

end Trie
end Verif
