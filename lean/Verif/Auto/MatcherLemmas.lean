import Verif.Auto.MatcherModel
import Verif.Auto.MatchLemmas

/-!
# Lemmas about a `Matcher` that keeps its state
-/

namespace Verif
namespace Auto

open AutoSpec EditSpec Edit

/-- `bisect_left` from `lo` on separates the smaller entries from the others, whatever the entries
before `base` are. -/
theorem bisectLeftLoop_from {a : List (List ℕ)} (hs : a.Pairwise (· ≤ ·)) (x : List ℕ) (base : ℕ) :
    ∀ (fuel lo hi : ℕ), hi ≤ lo + fuel → lo ≤ hi → hi ≤ a.length → base ≤ lo →
      (∀ i (h : i < a.length), base ≤ i → i < lo → a[i] < x) →
      (∀ i (h : i < a.length), hi ≤ i → x ≤ a[i]) →
      ∃ pos, bisectLeftLoop a x fuel lo hi = .ok pos ∧ lo ≤ pos ∧ pos ≤ a.length ∧
        (∀ i (h : i < a.length), base ≤ i → i < pos → a[i] < x) ∧
        (∀ i (h : i < a.length), pos ≤ i → x ≤ a[i]) := by
  have mono : ∀ i j (hi : i < a.length) (hj : j < a.length), i ≤ j → a[i] ≤ a[j] := by
    intro i j hi hj hij
    rcases Nat.lt_or_eq_of_le hij with h | h
    · exact List.pairwise_iff_getElem.mp hs i j hi hj h
    · subst h; exact le_refl _
  intro fuel
  induction fuel with
  | zero =>
    intro lo hi h1 h2 h3 hb h4 h5
    have : lo = hi := by omega
    subst this
    exact ⟨lo, rfl, le_refl _, h3, h4, h5⟩
  | succ fuel ih =>
    intro lo hi h1 h2 h3 hb h4 h5
    unfold bisectLeftLoop
    by_cases hlt : lo < hi
    · rw [if_pos hlt]
      have hmid : (lo + hi) / 2 < a.length := by omega
      simp only [pyGet_ok hmid]
      by_cases hc : a[(lo + hi) / 2] < x
      · rw [if_pos hc]
        obtain ⟨pos, e1, e2, e3⟩ := ih ((lo + hi) / 2 + 1) hi (by omega) (by omega) h3 (by omega)
          (fun i hi' _ hlt' => lt_of_le_of_lt (mono i _ hi' hmid (by omega)) hc) h5
        exact ⟨pos, e1, by omega, e3⟩
      · rw [if_neg hc]
        exact ih lo ((lo + hi) / 2) (by omega) (by omega) (by omega) hb h4
          (fun i hi' hge => le_trans (not_lt.mp hc) (mono _ i hmid hi' hge))
    · rw [if_neg hlt]
      have : lo = hi := by omega
      subst this
      exact ⟨lo, rfl, le_refl _, h3, h4, h5⟩

theorem bisectLeft_from {a : List (List ℕ)} (hs : a.Pairwise (· ≤ ·)) (x : List ℕ) {base lo : ℕ}
    (hb : base ≤ lo) (hlo : lo ≤ a.length)
    (hlow : ∀ i (h : i < a.length), base ≤ i → i < lo → a[i] < x) :
    ∃ pos, bisectLeft a x lo = .ok pos ∧ lo ≤ pos ∧ pos ≤ a.length ∧
      (∀ i (h : i < a.length), base ≤ i → i < pos → a[i] < x) ∧
      (∀ i (h : i < a.length), pos ≤ i → x ≤ a[i]) :=
  bisectLeftLoop_from hs x base a.length lo a.length (by omega) hlo (le_refl _) hb hlow
    (fun i h h' => by omega)

/-- Searching from `base` on is searching the list of the entries from `base` on. -/
theorem bisectLeft_drop {a : List (List ℕ)} (hs : a.Pairwise (· ≤ ·)) (x : List ℕ) {base lo : ℕ}
    (hb : base ≤ lo) (hlo : lo ≤ a.length)
    (hlow : ∀ i (h : i < a.length), base ≤ i → i < lo → a[i] < x) {pos : ℕ}
    (hpos : bisectLeft a x lo = .ok pos) :
    bisectLeft (a.drop base) x (lo - base) = .ok (pos - base) := by
  obtain ⟨p, e1, e2, e3, e4, e5⟩ := bisectLeft_from hs x hb hlo hlow
  rw [hpos] at e1
  cases e1
  have hs' : (a.drop base).Pairwise (· ≤ ·) := hs.drop
  have hlen : (a.drop base).length = a.length - base := List.length_drop
  obtain ⟨q, f1, f2, f3, f4, f5⟩ := bisectLeft_from (base := 0) hs' x (Nat.zero_le (lo - base))
    (by omega) (fun i h _ h' => by
      rw [List.getElem_drop]
      exact hlow (base + i) (by omega) (by omega) (by omega))
  rw [f1]
  have key : q = pos - base := by
    rcases lt_trichotomy q (pos - base) with h | h | h
    · have h1 := f5 q (by omega) (le_refl _)
      rw [List.getElem_drop] at h1
      exact absurd (e4 (base + q) (by omega) (by omega) (by omega)) (not_lt.mpr h1)
    · exact h
    · have h1 := f4 (pos - base) (by omega) (Nat.zero_le _) h
      rw [List.getElem_drop] at h1
      exact absurd (e5 (base + (pos - base)) (by omega) (by omega)) (not_le.mpr h1)
  rw [key]

/-- The yielded words of the loop are those of the loop over the entries from `base` on. -/
theorem searchLoop_drop {d : DFA} {entries : List (List ℕ)} (hs : entries.Pairwise (· ≤ ·))
    {fuel base : ℕ}
    (hN : ∀ u ∈ entries ++ entries.map (· ++ [0]), ∃ r, Next d u r ∧
      d.nextValidString fuel u = some (.ok r)) :
    ∀ (rounds : ℕ) (m : Matcher) (word : Option (List ℕ)), m.entries = entries → base ≤ m.prev →
      m.prev ≤ entries.length →
      (∀ w, word = some w → ∀ i (h : i < entries.length), base ≤ i → i < m.prev → entries[i] < w) →
      ∀ out, matchLoop d fuel (entries.drop base) rounds (m.prev - base) word = some (.ok out) →
      ∃ m', searchLoop d fuel rounds m word = some (.ok (m', out)) := by
  intro rounds
  induction rounds with
  | zero => intro m word _ _ _ _ out h; simp [matchLoop] at h
  | succ rounds ih =>
    intro m word he hb hlen hlow out h
    cases word with
    | none => simp only [matchLoop, Option.some.injEq, Except.ok.injEq] at h; subst h; exact ⟨m, rfl⟩
    | some w =>
      cases w with
      | nil => simp only [matchLoop, Option.some.injEq, Except.ok.injEq] at h; subst h; exact ⟨m, rfl⟩
      | cons c cs =>
        obtain ⟨pos, hpos, hle, hple, hp1, hp2⟩ := bisectLeft_from hs (c :: cs) hb hlen (hlow _ rfl)
        have hpos' := bisectLeft_drop hs (c :: cs) hb hlen (hlow _ rfl) hpos
        unfold matchLoop at h
        unfold searchLoop
        simp only [matcherCall, hpos'] at h
        simp only [Matcher.call, he, hpos]
        have hget : (entries.drop base)[pos - base]? = entries[pos]? := by
          rw [List.getElem?_drop]; congr 1; omega
        rw [hget] at h
        by_cases hl : pos < entries.length
        · rw [List.getElem?_eq_getElem hl] at h ⊢
          have hge : c :: cs ≤ entries[pos] := hp2 pos hl (le_refl _)
          have hmem : entries[pos] ∈ entries := List.getElem_mem hl
          generalize hx : entries[pos] = x at h hge hmem ⊢
          cases x with
          | nil => exact absurd hge (not_le.mpr (List.nil_lt_cons _ _))
          | cons a as =>
            simp only at h ⊢
            generalize hy : (if c :: cs = a :: as then (a :: as) ++ [0] else a :: as) = y at h ⊢
            have hyle : c :: cs ≤ y := by
              rw [← hy]
              split
              · exact le_trans hge (le_of_lt (lt_snoc_zero _))
              · exact hge
            have hymem : y ∈ entries ++ entries.map (· ++ [0]) := by
              rw [← hy]
              split
              · exact List.mem_append_right _ (List.mem_map_of_mem hmem)
              · exact List.mem_append_left _ hmem
            obtain ⟨r, hr, hrv⟩ := hN y hymem
            rw [hrv] at h ⊢
            simp only at h ⊢
            cases hrec : matchLoop d fuel (entries.drop base) rounds (pos - base) r with
            | none => rw [hrec] at h; cases h
            | some o =>
              cases o with
              | error e => rw [hrec] at h; cases h
              | ok o =>
                rw [hrec] at h
                simp only [Option.some.injEq, Except.ok.injEq] at h
                obtain ⟨m', hm'⟩ := ih { m with probes := m.probes + 1, prev := pos } r he
                  (le_trans hb hle) hple (by
                    rintro v rfl i hi h1 h2
                    rcases hr with ⟨v', hv', e⟩ | ⟨-, e⟩
                    · cases e
                      exact lt_of_lt_of_le (hp1 i hi h1 h2) (le_trans hyle hv'.1.2)
                    · cases e) o hrec
                refine ⟨m', ?_⟩
                simp only [he] at hm'
                rw [hm', ← h]
        · rw [List.getElem?_eq_none (by omega)] at h ⊢
          simp only [Option.some.injEq, Except.ok.injEq] at h
          subst h
          exact ⟨_, rfl⟩

/-- The state after the loop. -/
theorem searchLoop_state {d : DFA} {entries : List (List ℕ)} (hs : entries.Pairwise (· ≤ ·))
    {fuel base : ℕ}
    (hN : ∀ u ∈ entries ++ entries.map (· ++ [0]), ∃ r, Next d u r ∧
      d.nextValidString fuel u = some (.ok r)) (hnil : ¬ d.acc 0 []) :
    ∀ (rounds : ℕ) (m : Matcher) (word : Option (List ℕ)), m.entries = entries → base ≤ m.prev →
      m.prev ≤ entries.length →
      (∀ w, word = some w → d.acc 0 w ∧
        ∀ i (h : i < entries.length), base ≤ i → i < m.prev → entries[i] < w) →
      ∀ m' out, searchLoop d fuel rounds m word = some (.ok (m', out)) →
        m'.entries = entries ∧ m.prev ≤ m'.prev ∧ m'.prev ≤ entries.length ∧ m.probes ≤ m'.probes ∧
        (word = none → m' = m ∧ out = []) ∧
        (∀ i (h : i < entries.length), m.prev ≤ i → (∀ v, d.acc 0 v → v ≤ entries[i]) →
          m'.prev ≤ i) ∧
        (∀ v, word = some v →
          (∀ i (h : i < entries.length), m'.prev ≤ i → v ≤ entries[i] ∧
            (∀ w ∈ out, w ≤ entries[i]) ∧ (d.acc 0 entries[i] → out.getLast? = some entries[i])) ∧
          ∃ pos, bisectLeft entries v m.prev = .ok pos ∧ pos ≤ m'.prev ∧
            m'.probes + pos ≤ m.probes + m'.prev + out.length +
              (if entries[pos]? = some v then 0 else 1)) := by
  intro rounds
  induction rounds with
  | zero => intro m word _ _ _ _ m' out h; simp [searchLoop] at h
  | succ rounds ih =>
    intro m word he hb hlen hw m' out h
    cases word with
    | none =>
      simp only [searchLoop, Option.some.injEq, Except.ok.injEq, Prod.mk.injEq] at h
      obtain ⟨rfl, rfl⟩ := h
      exact ⟨he, le_refl _, hlen, le_refl _, fun _ => ⟨rfl, rfl⟩, fun _ _ h _ => h,
        fun v hv => by cases hv⟩
    | some w =>
      obtain ⟨hacc, hlow⟩ := hw w rfl
      cases w with
      | nil => exact absurd hacc hnil
      | cons c cs =>
        obtain ⟨pos, hpos, hle, hple, hp1, hp2⟩ := bisectLeft_from hs (c :: cs) hb hlen hlow
        have hstop : ∀ i (h : i < entries.length), m.prev ≤ i → (∀ v, d.acc 0 v → v ≤ entries[i]) →
            pos ≤ i := by
          intro i hi hpi hall
          by_contra hcon
          exact absurd (hp1 i hi (le_trans hb hpi) (by omega)) (not_lt.mpr (hall _ hacc))
        unfold searchLoop at h
        simp only [Matcher.call, he, hpos] at h
        by_cases hl : pos < entries.length
        · rw [List.getElem?_eq_getElem hl] at h
          have hge : c :: cs ≤ entries[pos] := hp2 pos hl (le_refl _)
          have hmem : entries[pos] ∈ entries := List.getElem_mem hl
          have hmono : ∀ i (hi : i < entries.length), pos ≤ i → entries[pos] ≤ entries[i] := by
            intro i hi hpi
            rcases Nat.lt_or_eq_of_le hpi with h | h
            · exact List.pairwise_iff_getElem.mp hs pos i hl hi h
            · subst h; exact le_refl _
          have hsome : entries[pos]? = some entries[pos] := List.getElem?_eq_getElem hl
          generalize hx : entries[pos] = x at h hge hmem hmono hsome
          cases x with
          | nil => exact absurd hge (not_le.mpr (List.nil_lt_cons _ _))
          | cons a as =>
            simp only at h
            generalize hy : (if c :: cs = a :: as then (a :: as) ++ [0] else a :: as) = y at h
            have hyle : c :: cs ≤ y := by
              rw [← hy]
              split
              · exact le_trans hge (le_of_lt (lt_snoc_zero _))
              · exact hge
            have hymem : y ∈ entries ++ entries.map (· ++ [0]) := by
              rw [← hy]
              split
              · exact List.mem_append_right _ (List.mem_map_of_mem hmem)
              · exact List.mem_append_left _ hmem
            obtain ⟨r, hr, hrv⟩ := hN y hymem
            rw [hrv] at h
            simp only at h
            cases hrec : searchLoop d fuel rounds
                { entries := entries, probes := m.probes + 1, prev := pos } r with
            | none => rw [hrec] at h; cases h
            | some o =>
              cases o with
              | error e => rw [hrec] at h; cases h
              | ok o =>
                obtain ⟨m1, o⟩ := o
                rw [hrec] at h
                simp only [Option.some.injEq, Except.ok.injEq, Prod.mk.injEq] at h
                obtain ⟨rfl, hout⟩ := h
                have hr' : ∀ v, r = some v → d.acc 0 v ∧ y ≤ v := by
                  rintro v rfl
                  rcases hr with ⟨v', hv', e⟩ | ⟨-, e⟩
                  · cases e; exact hv'.1
                  · cases e
                obtain ⟨g1, g2, g3, g4, g5, g7, g6⟩ := ih
                  { entries := entries, probes := m.probes + 1, prev := pos } r rfl
                  (le_trans hb hle) hple (fun v hv => ⟨(hr' v hv).1, fun i hi h1 h2 =>
                    lt_of_lt_of_le (hp1 i hi h1 h2) (le_trans hyle (hr' v hv).2)⟩) m1 o hrec
                simp only at g2 g4 g5 g6 g7
                refine ⟨g1, le_trans hle g2, g3, by omega, (fun h => by cases h),
                  fun i hi hpi hall => g7 i hi (hstop i hi hpi hall) hall, ?_⟩
                intro v hv
                simp only [Option.some.injEq] at hv
                subst hv
                cases r with
                | none =>
                  obtain ⟨rfl, rfl⟩ := g5 rfl
                  have hno : ∀ w, y ≤ w → ¬ d.acc 0 w := by
                    rcases hr with ⟨_, _, e⟩ | ⟨e, _⟩
                    · cases e
                    · exact e
                  refine ⟨fun i hi hpi => ⟨hp2 i hi hpi, ?_, ?_⟩, pos, hpos, le_refl _, ?_⟩
                  · intro w hwo
                    rw [← hout] at hwo
                    split at hwo
                    · rw [List.mem_singleton] at hwo
                      rw [hwo]; exact hp2 i hi hpi
                    · simp at hwo
                  · intro hai
                    by_cases hhit : c :: cs = a :: as
                    · rw [if_pos hhit] at hy hout
                      rcases eq_or_lt_of_le (hmono i hi hpi) with e | e
                      · rw [← hout, ← e, hhit]; rfl
                      · exact absurd hai (hno _ (by rw [← hy]; exact snoc_zero_le e))
                    · rw [if_neg hhit] at hy
                      exact absurd hai (hno _ (by rw [← hy]; exact hmono i hi hpi))
                  · simp only [hsome, Option.some.injEq, ← hout]
                    by_cases hhit : c :: cs = a :: as
                    · rw [if_pos hhit, if_pos hhit.symm, List.length_singleton]; omega
                    · rw [if_neg hhit, if_neg (fun e => hhit e.symm)]; simp; omega
                | some v =>
                  obtain ⟨k1, p2, k2, k3, k4⟩ := g6 v rfl
                  have hyv : y ≤ v := (hr' v rfl).2
                  obtain ⟨q, q1, q2, q3, q4, q5⟩ := bisectLeft_from hs v (base := base) (lo := pos)
                    (le_trans hb hle) hple (fun i hi h1 h2 =>
                      lt_of_lt_of_le (hp1 i hi h1 h2) (le_trans hyle hyv))
                  rw [k2] at q1
                  cases q1
                  refine ⟨fun i hi hpi => ⟨hp2 i hi (le_trans g2 hpi), ?_, ?_⟩, pos, hpos, g2, ?_⟩
                  · intro w hwo
                    rw [← hout] at hwo
                    split at hwo
                    · rcases List.mem_cons.mp hwo with rfl | hwo
                      · exact hp2 i hi (le_trans g2 hpi)
                      · exact (k1 i hi hpi).2.1 w hwo
                    · exact (k1 i hi hpi).2.1 w hwo
                  · intro hai
                    have hlast := (k1 i hi hpi).2.2 hai
                    rw [← hout]
                    split
                    · rw [List.getLast?_cons, hlast]; rfl
                    · exact hlast
                  · have hpass : a :: as < v → pos < p2 := by
                      intro hlt
                      by_contra hcon
                      have : p2 = pos := by omega
                      subst this
                      have h1 := q5 p2 hl (le_refl _)
                      rw [hx] at h1
                      exact absurd hlt (not_lt.mpr h1)
                    simp only [hsome, Option.some.injEq, ← hout]
                    by_cases hhit : c :: cs = a :: as
                    · rw [if_pos hhit] at hy
                      have := hpass (lt_of_lt_of_le (lt_snoc_zero _) (hy ▸ hyv))
                      rw [if_pos hhit, if_pos hhit.symm, List.length_cons]
                      split at k4 <;> omega
                    · rw [if_neg hhit] at hy
                      rw [if_neg hhit, if_neg (fun e => hhit e.symm)]
                      rcases eq_or_lt_of_le (hy ▸ hyv : a :: as ≤ v) with e | e
                      · by_cases hp : p2 = pos
                        · subst hp
                          rw [if_pos (by rw [hsome, e])] at k4
                          omega
                        · split at k4 <;> omega
                      · have := hpass e
                        split at k4 <;> omega
        · rw [List.getElem?_eq_none (by omega)] at h
          simp only [Option.some.injEq, Except.ok.injEq, Prod.mk.injEq] at h
          obtain ⟨rfl, rfl⟩ := h
          have : pos = entries.length := by omega
          subst this
          refine ⟨rfl, hle, le_refl _, by simp, (fun h => by cases h), hstop, ?_⟩
          intro v hv
          simp only [Option.some.injEq] at hv
          subst hv
          refine ⟨fun i hi hpi => absurd hi (not_lt.mpr hpi), entries.length, hpos, le_refl _, ?_⟩
          simp
          omega

/-- More fuel does not change the result. -/
theorem searchLoop_mono {d : DFA} {fuel fuel' : ℕ} :
    ∀ (rounds rounds' : ℕ) (m : Matcher) (word : Option (List ℕ))
      (r : Except PyErr (Matcher × List (List ℕ))),
      (∀ u ∈ m.entries ++ m.entries.map (· ++ [0]),
        d.nextValidString fuel' u = d.nextValidString fuel u) →
      searchLoop d fuel rounds m word = some r → rounds ≤ rounds' →
      searchLoop d fuel' rounds' m word = some r := by
  intro rounds
  induction rounds with
  | zero => intro rounds' m word r _ h; simp [searchLoop] at h
  | succ rounds ih =>
    intro rounds' m word r hN h hle
    obtain ⟨k, rfl⟩ : ∃ k, rounds' = k + 1 := ⟨rounds' - 1, by omega⟩
    cases word with
    | none => exact h
    | some w =>
      cases w with
      | nil => exact h
      | cons c cs =>
        unfold searchLoop at h ⊢
        simp only [Matcher.call] at h ⊢
        cases hb : bisectLeft m.entries (c :: cs) m.prev with
        | error e => rw [hb] at h; exact h
        | ok pos =>
          rw [hb] at h
          simp only at h ⊢
          cases hg : m.entries[pos]? with
          | none => rw [hg] at h; exact h
          | some x =>
            rw [hg] at h
            cases x with
            | nil => exact h
            | cons a as =>
              simp only at h ⊢
              have hmem : a :: as ∈ m.entries := List.mem_of_getElem? hg
              generalize hy : (if c :: cs = a :: as then (a :: as) ++ [0] else a :: as) = y at h ⊢
              have hymem : y ∈ m.entries ++ m.entries.map (· ++ [0]) := by
                rw [← hy]
                split
                · exact List.mem_append_right _ (List.mem_map_of_mem hmem)
                · exact List.mem_append_left _ hmem
              rw [hN y hymem]
              cases hn : d.nextValidString fuel y with
              | none => rw [hn] at h; cases h
              | some s =>
                rw [hn] at h
                cases s with
                | error e => exact h
                | ok s =>
                  simp only at h ⊢
                  cases hr : searchLoop d fuel rounds { m with probes := m.probes + 1, prev := pos } s with
                  | none => rw [hr] at h; cases h
                  | some t =>
                    rw [hr] at h
                    rw [ih k { m with probes := m.probes + 1, prev := pos } s t hN hr (by omega)]
                    exact h

end Auto
end Verif
