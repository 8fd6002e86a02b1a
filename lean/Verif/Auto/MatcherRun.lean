import Verif.Auto.MatcherLemmas
import Verif.Auto.Props

/-!
# One search and several searches with a `Matcher` that keeps its state
-/

namespace Verif
namespace Auto

open AutoSpec EditSpec Edit

/-- `find_all_matches` may yield `w`: `w` is not empty and within `k` edits of `word`. -/
def Within (word : List ℕ) (k : ℤ) (w : List ℕ) : Prop :=
  w ≠ [] ∧ ∃ n : ℕ, (n : ℤ) ≤ k ∧ Steps OneEdit n word w

theorem within_le {word : List ℕ} {k : ℤ} {w : List ℕ} (h : Within word k w) : [0] ≤ w := by
  have : ([] : List ℕ) ++ [0] ≤ w := snoc_zero_le (by
    cases w with
    | nil => exact absurd rfl h.1
    | cons c w => exact List.nil_lt_cons _ _)
  exact this

/-- One search. -/
theorem findAll_step {pick : Finset State → State} (hp : PickOk pick)
    {order : Finset Sym → List Sym} (ho : OrderOk order) (word : List ℕ) (k : ℤ)
    (m : Matcher) (hs : m.entries.Pairwise (· ≤ ·))
    (hch : ∀ u ∈ m.entries, ∀ c ∈ u, c < 0x10FFFF) (hprev : m.prev ≤ m.entries.length) :
    ∃ m' out, (∃ N, ∀ fuel, N ≤ fuel → m.findAll pick order fuel word k = some (.ok (m', out))) ∧
      m'.entries = m.entries ∧ m.prev ≤ m'.prev ∧ m'.prev ≤ m.entries.length ∧
      out.Pairwise (· < ·) ∧
      (∀ w, w ∈ out ↔ w ∈ m.entries.drop m.prev ∧ Within word k w) ∧
      (∀ u ∈ m.entries.drop m'.prev, (∀ w ∈ out, w ≤ u) ∧ (Within word k u → out.getLast? = some u)) ∧
      (∀ i (h : i < m.entries.length), m.prev ≤ i → (∀ v, Within word k v → v ≤ m.entries[i]) →
        m'.prev ≤ i) ∧
      m.probes ≤ m'.probes ∧
      m'.probes + m.prev ≤ m.probes + m'.prev + out.length + 1 := by
  obtain ⟨h1, h2⟩ := lev_searchable hp ho word k
  have hacc : ∀ w, ((levenshteinAutomaton word k).toDFA pick order).acc 0 w ↔ Within word k w := by
    intro w
    have := C77_levenshtein_automaton hp ho word k w
    simp only [h1.start] at this
    exact this
  unfold Matcher.findAll
  generalize (levenshteinAutomaton word k).toDFA pick order = d at h1 h2 hacc
  simp only
  obtain ⟨entries, hE⟩ : ∃ e, e = m.entries := ⟨_, rfl⟩
  have he := hE.symm
  simp only [he] at hs hch hprev ⊢
  have hnil : ¬ d.acc 0 [] := fun h => ((hacc []).mp h).1 rfl
  obtain ⟨N, hN⟩ := next_uniform h1 ([0] :: (entries ++ entries.map (· ++ [0]))) (by
    intro u hu c hc
    simp only [List.mem_cons, List.mem_append, List.mem_map] at hu
    rcases hu with rfl | hu | ⟨v, hv, rfl⟩
    · simp at hc; omega
    · exact hch u hu c hc
    · rcases List.mem_append.mp hc with h | h
      · exact hch v hv c h
      · simp at h; omega)
  have huniq : ∀ u ∈ [0] :: (entries ++ entries.map (· ++ [0])), ∀ f f', N ≤ f → N ≤ f' →
      d.nextValidString f u = d.nextValidString f' u := by
    intro u hu f f' hf hf'
    obtain ⟨r, hr, e⟩ := hN u hu f hf
    obtain ⟨r', hr', e'⟩ := hN u hu f' hf'
    rw [e, e']
    rcases hr with ⟨w, hw, rfl⟩ | ⟨hno, rfl⟩ <;> rcases hr' with ⟨w', hw', rfl⟩ | ⟨hno', rfl⟩
    · rw [hw.unique hw']
    · exact absurd hw.1.1 (hno' _ hw.1.2)
    · exact absurd hw'.1.1 (hno _ hw'.1.2)
    · rfl
  set F := N + (2 * entries.length + 3) with hF
  obtain ⟨r, hr, hrv⟩ := hN [0] (by simp) F (by omega)
  have hNF : ∀ u ∈ entries ++ entries.map (· ++ [0]), ∃ r, Next d u r ∧
      d.nextValidString F u = some (.ok r) :=
    fun u hu => hN u (List.mem_cons_of_mem _ hu) F (by omega)
  have hsub : ∀ u ∈ entries.drop m.prev ++ (entries.drop m.prev).map (· ++ [0]),
      u ∈ entries ++ entries.map (· ++ [0]) := by
    intro u hu
    rcases List.mem_append.mp hu with hu | hu
    · exact List.mem_append_left _ (List.mem_of_mem_drop hu)
    · obtain ⟨v, hv, rfl⟩ := List.mem_map.mp hu
      exact List.mem_append_right _ (List.mem_map_of_mem (List.mem_of_mem_drop hv))
  obtain ⟨out, ho1, ho2, ho3⟩ := matchLoop_spec (d := d) (entries := entries.drop m.prev)
    hs.drop (N := N) (fuel := F)
    (fun u hu => hN u (List.mem_cons_of_mem _ (hsub u hu))) (by omega) hnil F 0 r (by
      rintro w rfl
      rcases hr with ⟨w', hw', h⟩ | ⟨-, h⟩
      · cases h
        refine ⟨hw'.1.1, Nat.zero_le _, fun i _ h => by omega, ?_⟩
        have := List.length_filter_le (fun u => decide (w ≤ u)) (entries.drop m.prev)
        rw [List.length_drop] at this
        split <;> omega
      · cases h) (by omega)
  obtain ⟨m', hm'⟩ := searchLoop_drop hs (base := m.prev) hNF F m r he (le_refl _) hprev
    (fun _ _ i _ h1 h2 => by omega) out (by rw [Nat.sub_self]; exact ho1)
  have hracc : ∀ w, r = some w → d.acc 0 w := by
    rintro w rfl
    rcases hr with ⟨w', hw', h⟩ | ⟨-, h⟩
    · cases h; exact hw'.1.1
    · cases h
  obtain ⟨g1, g2, g3, g4, g5, g7, g6⟩ := searchLoop_state hs (base := m.prev) hNF hnil F m r he
    (le_refl _) hprev (fun w hw => ⟨hracc w hw, fun i _ h1 h2 => by omega⟩) m' out hm'
  refine ⟨m', out, ⟨F, fun fuel hf => ?_⟩, by rw [g1], g2, g3, ho2, ?_, ?_, ?_, g4, ?_⟩
  · rw [huniq [0] (by simp) fuel F (by omega) (by omega), hrv]
    exact searchLoop_mono F fuel m r _ (fun u hu => huniq u
      (List.mem_cons_of_mem _ (by rw [← he]; exact hu)) fuel F (by omega) (by omega)) hm' hf
  · intro w
    rw [ho3, hacc]
    refine and_congr_right (fun _ => ⟨fun h => h.1, fun h => ⟨h, ?_⟩⟩)
    rcases hr with ⟨v, hv, rfl⟩ | ⟨hno, -⟩
    · exact ⟨v, rfl, hv.2 ⟨(hacc w).mpr h, within_le h⟩⟩
    · exact absurd ((hacc w).mpr h) (hno w (within_le h))
  · intro u hu
    obtain ⟨i, hi, rfl⟩ := List.mem_iff_getElem.mp hu
    rw [List.length_drop] at hi
    rw [List.getElem_drop]
    cases r with
    | none =>
      obtain ⟨rfl, rfl⟩ := g5 rfl
      refine ⟨by simp, fun h => ?_⟩
      rcases hr with ⟨v, hv, e⟩ | ⟨hno, -⟩
      · cases e
      · exact absurd ((hacc _).mpr h) (hno _ (within_le h))
    | some v =>
      obtain ⟨-, k1, k2⟩ := (g6 v rfl).1 (m'.prev + i) (by omega) (by omega)
      exact ⟨k1, fun h => k2 ((hacc _).mpr h)⟩
  · intro i hi hpi hall
    exact g7 i hi hpi (fun v hv => hall v ((hacc v).mp hv))
  · cases r with
    | none =>
      obtain ⟨rfl, rfl⟩ := g5 rfl
      simp
    | some v =>
      obtain ⟨-, pos, k1, k2, k3⟩ := g6 v rfl
      obtain ⟨q, q1, q2, -⟩ := bisectLeft_from hs v (base := m.prev) (le_refl _) hprev
        (fun i _ h1 h2 => by omega)
      rw [k1] at q1
      cases q1
      split at k3 <;> omega

end Auto
end Verif
