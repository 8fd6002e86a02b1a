import Verif.Auto.MatcherRun

/-!
# C237–C238: searches with one `Matcher` (experiments/automata.py:241–295)

`Within word k w`: `w` is not empty and at most `k` single-character edits away from `word`.
-/

namespace Verif
namespace Auto

open AutoSpec EditSpec Edit

/-- Several searches, from any state of the `Matcher`. -/
theorem findEach_run {pick : Finset State → State} (hp : PickOk pick)
    {order : Finset Sym → List Sym} (ho : OrderOk order) (entries : List (List ℕ))
    (hs : entries.Pairwise (· ≤ ·)) (hch : ∀ u ∈ entries, ∀ c ∈ u, c < 0x10FFFF) :
    ∀ (queries : List (List ℕ × ℤ)) (m : Matcher), m.entries = entries → m.prev ≤ entries.length →
      ∃ m' outs, (∃ N, ∀ fuel, N ≤ fuel →
        m.findEach pick order fuel queries = some (.ok (m', outs))) ∧
        m.prev ≤ m'.prev ∧ m'.prev ≤ entries.length ∧
        List.Forall₂ (fun q out => out.Pairwise (· < ·) ∧ ∃ p, m.prev ≤ p ∧ p ≤ entries.length ∧
          ∀ w, w ∈ out ↔ w ∈ entries.drop p ∧ Within q.1 q.2 w) queries outs ∧
        outs.flatten.Pairwise (· ≤ ·) ∧ (∀ u ∈ outs.flatten, u ∈ entries.drop m.prev) ∧
        m'.probes + m.prev ≤ m.probes + m'.prev + outs.flatten.length + queries.length := by
  intro queries
  induction queries with
  | nil =>
    intro m _ hprev
    exact ⟨m, [], ⟨0, fun _ _ => rfl⟩, le_refl _, hprev, .nil, by simp, by simp, by simp⟩
  | cons q queries ih =>
    obtain ⟨word, k⟩ := q
    intro m he hprev
    subst he
    obtain ⟨m1, out, ⟨N1, h1⟩, e1, e2, e3, e4, e5, e6, -, e7, e8⟩ :=
      findAll_step hp ho word k m hs hch hprev
    obtain ⟨m2, outs, ⟨N2, h2⟩, f1, f2, f3, f4, f5, f6⟩ := ih m1 e1 e3
    refine ⟨m2, out :: outs, ⟨max N1 N2, fun fuel hf => ?_⟩, le_trans e2 f1, f2, ?_, ?_, ?_, ?_⟩
    · unfold Matcher.findEach
      rw [h1 fuel (by omega)]
      simp only [h2 fuel (by omega)]
    · refine .cons ⟨e4, m.prev, le_refl _, hprev, e5⟩ (f3.imp ?_)
      rintro q o ⟨g1, p, g2, g3, g4⟩
      exact ⟨g1, p, le_trans e2 g2, g3, g4⟩
    · rw [List.flatten_cons, List.pairwise_append]
      exact ⟨e4.imp (fun h => le_of_lt h), f4, fun w hw u hu => (e6 u (f5 u hu)).1 w hw⟩
    · intro u hu
      rw [List.flatten_cons, List.mem_append] at hu
      rcases hu with hu | hu
      · exact ((e5 u).mp hu).1
      · have := f5 u hu
        rw [← Nat.sub_add_cancel e2, Nat.add_comm, ← List.drop_drop] at this
        exact List.mem_of_mem_drop this
    · simp only [List.flatten_cons, List.length_append, List.length_cons]
      omega

/-- **C237.** Searches one after the other with the same `Matcher` over a sorted list of words without
U+10FFFF: no search raises an exception; each search yields, in strictly increasing order, exactly the
entries from some position on which are not empty and within `k` edits of its word; and the yielded
words never go back: all of them together, in the order in which they are yielded, are sorted. -/
theorem C237_reused_matcher {pick : Finset State → State} (hp : PickOk pick)
    {order : Finset Sym → List Sym} (ho : OrderOk order) (entries : List (List ℕ))
    (hs : entries.Pairwise (· ≤ ·)) (hch : ∀ u ∈ entries, ∀ c ∈ u, c < 0x10FFFF)
    (queries : List (List ℕ × ℤ)) :
    ∃ m' outs, (∃ N, ∀ fuel, N ≤ fuel →
      (Matcher.new entries).findEach pick order fuel queries = some (.ok (m', outs))) ∧
      List.Forall₂ (fun q out => out.Pairwise (· < ·) ∧ ∃ p, ∀ w, w ∈ out ↔
        w ∈ entries.drop p ∧ w ≠ [] ∧ ∃ n : ℕ, (n : ℤ) ≤ q.2 ∧ Steps OneEdit n q.1 w) queries outs ∧
      outs.flatten.Pairwise (· ≤ ·) := by
  obtain ⟨m', outs, h, -, -, h3, h4, -⟩ := findEach_run hp ho entries hs hch queries
    (Matcher.new entries) rfl (Nat.zero_le _)
  exact ⟨m', outs, h, h3.imp (fun _ _ ⟨g1, p, _, _, g4⟩ => ⟨g1, p, g4⟩), h4⟩

/-- **C237.** The first of two searches yields every match. Repeating a search with the same `Matcher`
yields nothing or only the last word of the first search. -/
theorem C237_repeated_search {pick : Finset State → State} (hp : PickOk pick)
    {order : Finset Sym → List Sym} (ho : OrderOk order) (entries : List (List ℕ))
    (hs : entries.Pairwise (· ≤ ·)) (hch : ∀ u ∈ entries, ∀ c ∈ u, c < 0x10FFFF)
    (word : List ℕ) (k : ℤ) :
    ∃ m' out₁ out₂, (∃ N, ∀ fuel, N ≤ fuel →
      (Matcher.new entries).findEach pick order fuel [(word, k), (word, k)] =
        some (.ok (m', [out₁, out₂]))) ∧
      (∀ w, w ∈ out₁ ↔
        w ∈ entries ∧ w ≠ [] ∧ ∃ n : ℕ, (n : ℤ) ≤ k ∧ Steps OneEdit n word w) ∧
      (out₂ = [] ∨ ∃ w, out₁.getLast? = some w ∧ out₂ = [w]) := by
  obtain ⟨m1, out₁, ⟨N1, h1⟩, e1, e2, e3, e4, e5, e6, -, e7, e8⟩ :=
    findAll_step hp ho word k (Matcher.new entries) hs hch (Nat.zero_le _)
  obtain ⟨m2, out₂, ⟨N2, h2⟩, f1, f2, f3, f4, f5, f6, -, f7, f8⟩ :=
    findAll_step hp ho word k m1 (by rw [e1]; exact hs) (by rw [e1]; exact hch) (by rw [e1]; exact e3)
  refine ⟨m2, out₁, out₂, ⟨max N1 N2, fun fuel hf => ?_⟩, fun w => ?_, ?_⟩
  · simp only [Matcher.findEach, h1 fuel (by omega), h2 fuel (by omega)]
  · rw [e5]
    exact Iff.rfl
  · have hlast : ∀ w ∈ out₂, out₁.getLast? = some w := by
      intro w hw
      obtain ⟨g1, g2⟩ := (f5 w).mp hw
      rw [e1] at g1
      exact (e6 w g1).2 g2
    cases out₂ with
    | nil => exact Or.inl rfl
    | cons w ws =>
      refine Or.inr ⟨w, hlast w (by simp), ?_⟩
      cases ws with
      | nil => rfl
      | cons v vs =>
        have h1 := hlast w (by simp)
        rw [hlast v (by simp)] at h1
        cases h1
        exact absurd ((List.pairwise_cons.mp f4).1 w (by simp)) (lt_irrefl _)

theorem steps_zero {a b : List ℕ} : (∃ n : ℕ, (n : ℤ) ≤ 0 ∧ Steps OneEdit n a b) ↔ a = b := by
  constructor
  · rintro ⟨n, hn, h⟩
    have : n = 0 := by omega
    subst this
    cases h
    rfl
  · rintro rfl
    exact ⟨0, le_refl _, .zero _⟩

theorem eq_singleton_of_mem_iff {l : List (List ℕ)} (hl : l.Pairwise (· < ·)) {x : List ℕ}
    (h : ∀ w, w ∈ l ↔ w = x) : l = [x] := by
  cases l with
  | nil => exact absurd ((h x).mpr rfl) (by simp)
  | cons y ys =>
    have hy : y = x := (h y).mp (by simp)
    subst hy
    cases ys with
    | nil => rfl
    | cons z zs =>
      have hz : z = y := (h z).mp (by simp)
      subst hz
      exact absurd ((List.pairwise_cons.mp hl).1 z (by simp)) (lt_irrefl _)

/-- **C237 (limit).** A search loses words which the list contains: for any two entries `a < b` which
are not empty, looking up exactly `b` and then exactly `a` with the same `Matcher` finds `b` and does
not find `a`, although a new `Matcher` finds it. -/
theorem C237_earlier_word_lost {pick : Finset State → State} (hp : PickOk pick)
    {order : Finset Sym → List Sym} (ho : OrderOk order) (entries : List (List ℕ))
    (hs : entries.Pairwise (· ≤ ·)) (hch : ∀ u ∈ entries, ∀ c ∈ u, c < 0x10FFFF)
    {a b : List ℕ} (ha : a ∈ entries) (hb : b ∈ entries) (hne : a ≠ []) (hab : a < b) :
    (∃ m' N, ∀ fuel, N ≤ fuel →
      (Matcher.new entries).findEach pick order fuel [(b, 0), (a, 0)] = some (.ok (m', [[b], []]))) ∧
    ∃ m' N, ∀ fuel, N ≤ fuel →
      (Matcher.new entries).findEach pick order fuel [(a, 0)] = some (.ok (m', [[a]])) := by
  have hbne : b ≠ [] := by
    rintro rfl
    simp at hab
  obtain ⟨m1, out₁, ⟨N1, h1⟩, e1, e2, e3, e4, e5, e6, -⟩ :=
    findAll_step hp ho b 0 (Matcher.new entries) hs hch (Nat.zero_le _)
  obtain ⟨m2, out₂, ⟨N2, h2⟩, f1, f2, f3, f4, f5, f6, -⟩ :=
    findAll_step hp ho a 0 m1 (by rw [e1]; exact hs) (by rw [e1]; exact hch) (by rw [e1]; exact e3)
  obtain ⟨m3, out₃, ⟨N3, h3⟩, g1, g2, g3, g4, g5, g6, -⟩ :=
    findAll_step hp ho a 0 (Matcher.new entries) hs hch (Nat.zero_le _)
  have ho1 : out₁ = [b] := eq_singleton_of_mem_iff e4 (fun w => by
    rw [e5]
    constructor
    · rintro ⟨-, -, h⟩
      exact (steps_zero.mp h).symm
    · rintro rfl
      exact ⟨hb, hbne, steps_zero.mpr rfl⟩)
  have ho3 : out₃ = [a] := eq_singleton_of_mem_iff g4 (fun w => by
    rw [g5]
    constructor
    · rintro ⟨-, -, h⟩
      exact (steps_zero.mp h).symm
    · rintro rfl
      exact ⟨ha, hne, steps_zero.mpr rfl⟩)
  have ho2 : out₂ = [] := by
    rw [List.eq_nil_iff_forall_not_mem]
    intro w hw
    obtain ⟨k1, -, k2⟩ := (f5 w).mp hw
    have := steps_zero.mp k2
    subst this
    rw [e1] at k1
    exact absurd ((e6 _ k1).1 b (by rw [ho1]; simp)) (not_le.mpr hab)
  subst ho1 ho2 ho3
  refine ⟨⟨m2, max N1 N2, fun fuel hf => ?_⟩, m3, N3, fun fuel hf => ?_⟩
  · simp only [Matcher.findEach, h1 fuel (by omega), h2 fuel (by omega)]
  · simp only [Matcher.findEach, h3 fuel hf]

/-- Exact lookups in increasing order, from a state in which no entry before `prev` is wanted. -/
theorem findEach_sorted {pick : Finset State → State} (hp : PickOk pick)
    {order : Finset Sym → List Sym} (ho : OrderOk order) (entries : List (List ℕ))
    (hs : entries.Pairwise (· ≤ ·)) (hch : ∀ u ∈ entries, ∀ c ∈ u, c < 0x10FFFF) :
    ∀ (ws : List (List ℕ)) (m : Matcher), ws.Pairwise (· ≤ ·) → m.entries = entries →
      m.prev ≤ entries.length →
      (∀ w ∈ ws, ∀ i (h : i < entries.length), i < m.prev → entries[i] < w) →
      ∃ m' N, ∀ fuel, N ≤ fuel → m.findEach pick order fuel (ws.map (fun w => (w, 0))) =
        some (.ok (m', ws.map (fun w => if w ≠ [] ∧ w ∈ entries then [w] else []))) := by
  intro ws
  induction ws with
  | nil => intro m _ _ _ _; exact ⟨m, 0, fun _ _ => rfl⟩
  | cons w ws ih =>
    intro m hws he hprev hlow
    subst he
    obtain ⟨m1, out, ⟨N1, h1⟩, e1, e2, e3, e4, e5, e6, e7, -⟩ :=
      findAll_step hp ho w 0 m hs hch hprev
    have hw : ∀ v, Within w 0 v ↔ v ≠ [] ∧ v = w := by
      intro v
      rw [Within, steps_zero, eq_comm (a := w)]
    obtain ⟨m2, N2, h2⟩ := ih m1 (List.pairwise_cons.mp hws).2 e1 e3 (by
      intro v hv i hi hlt
      by_cases hi' : i < m.prev
      · exact hlow v (List.mem_cons_of_mem _ hv) i hi hi'
      · refine lt_of_lt_of_le ?_ ((List.pairwise_cons.mp hws).1 v hv)
        by_contra hcon
        have := e7 i hi (by omega) (fun u hu => by rw [((hw u).mp hu).2]; exact not_lt.mp hcon)
        omega)
    have hout : out = if w ≠ [] ∧ w ∈ m.entries then [w] else [] := by
      split
      · rename_i hc
        refine eq_singleton_of_mem_iff e4 (fun v => ?_)
        rw [e5, hw]
        refine ⟨fun h => h.2.2, ?_⟩
        rintro rfl
        refine ⟨?_, hc.1, rfl⟩
        obtain ⟨i, hi, hiv⟩ := List.mem_iff_getElem.mp hc.2
        have hge : m.prev ≤ i := by
          by_contra hcon
          have := hlow v (by simp) i hi (by omega)
          rw [hiv] at this
          exact absurd this (lt_irrefl _)
        rw [List.mem_iff_getElem]
        refine ⟨i - m.prev, by rw [List.length_drop]; omega, ?_⟩
        rw [List.getElem_drop, ← hiv]
        congr 1
        omega
      · rename_i hc
        rw [List.eq_nil_iff_forall_not_mem]
        intro v hv
        obtain ⟨g1, g2⟩ := (e5 v).mp hv
        obtain ⟨g3, rfl⟩ := (hw v).mp g2
        exact hc ⟨g3, List.mem_of_mem_drop g1⟩
    refine ⟨m2, max N1 N2, fun fuel hf => ?_⟩
    rw [List.map_cons, Matcher.findEach, h1 fuel (by omega)]
    simp only [h2 fuel (by omega), List.map_cons, hout]

/-- **C237.** Looking up exact words in increasing order with one `Matcher` loses nothing: each search
yields its word if the word is an entry and not empty, and nothing otherwise. -/
theorem C237_sorted_lookups {pick : Finset State → State} (hp : PickOk pick)
    {order : Finset Sym → List Sym} (ho : OrderOk order) (entries : List (List ℕ))
    (hs : entries.Pairwise (· ≤ ·)) (hch : ∀ u ∈ entries, ∀ c ∈ u, c < 0x10FFFF)
    (ws : List (List ℕ)) (hws : ws.Pairwise (· ≤ ·)) :
    ∃ m' N, ∀ fuel, N ≤ fuel →
      (Matcher.new entries).findEach pick order fuel (ws.map (fun w => (w, 0))) =
        some (.ok (m', ws.map (fun w => if w ≠ [] ∧ w ∈ entries then [w] else []))) :=
  findEach_sorted hp ho entries hs hch ws (Matcher.new entries) hws rfl (Nat.zero_le _)
    (fun _ _ i _ h => absurd h (Nat.not_lt_zero i))

/-- "a", "ab", "b", "b" among "a" and "b". -/
example {pick : Finset State → State} (hp : PickOk pick)
    {order : Finset Sym → List Sym} (ho : OrderOk order) : ∃ m' N, ∀ fuel, N ≤ fuel →
      (Matcher.new [[97], [98]]).findEach pick order fuel
        [([97], 0), ([97, 98], 0), ([98], 0), ([98], 0)] =
        some (.ok (m', [[[97]], [], [[98]], [[98]]])) :=
  C237_sorted_lookups hp ho [[97], [98]] (by decide) (by decide) [[97], [97, 98], [98], [98]] (by decide)

/-- "a" and "b": after "b", "a" is not found. -/
example {pick : Finset State → State} (hp : PickOk pick)
    {order : Finset Sym → List Sym} (ho : OrderOk order) : ∃ m' N, ∀ fuel, N ≤ fuel →
      (Matcher.new [[97], [98]]).findEach pick order fuel [([98], 0), ([97], 0)] =
        some (.ok (m', [[[98]], []])) :=
  (C237_earlier_word_lost hp ho [[97], [98]] (by decide) (by decide) (a := [97]) (b := [98])
    (by decide) (by decide) (by decide) (by decide)).1

/-- **C238.** `Matcher.probes` after searches with one `Matcher` over a sorted list of words without
U+10FFFF: at most the number of entries plus the number of yielded words plus the number of
searches. -/
theorem C238_probes {pick : Finset State → State} (hp : PickOk pick)
    {order : Finset Sym → List Sym} (ho : OrderOk order) (entries : List (List ℕ))
    (hs : entries.Pairwise (· ≤ ·)) (hch : ∀ u ∈ entries, ∀ c ∈ u, c < 0x10FFFF)
    (queries : List (List ℕ × ℤ)) :
    ∃ m' outs, (∃ N, ∀ fuel, N ≤ fuel →
      (Matcher.new entries).findEach pick order fuel queries = some (.ok (m', outs))) ∧
      m'.probes ≤ entries.length + outs.flatten.length + queries.length := by
  obtain ⟨m', outs, h, -, h2, -, -, -, h5⟩ := findEach_run hp ho entries hs hch queries
    (Matcher.new entries) rfl (Nat.zero_le _)
  refine ⟨m', outs, h, ?_⟩
  simp only [Matcher.new] at h5
  omega

/-- One search for "ab" within one edit among four words: at most `4 + 4 + 1` probes. -/
example {pick : Finset State → State} (hp : PickOk pick)
    {order : Finset Sym → List Sym} (ho : OrderOk order) : ∃ m' outs, (∃ N, ∀ fuel, N ≤ fuel →
      (Matcher.new [[97], [97, 98, 99], [98], [98, 99, 100]]).findEach pick order fuel
        [([97, 98], 1)] = some (.ok (m', outs))) ∧ m'.probes ≤ 4 + outs.flatten.length + 1 :=
  C238_probes hp ho [[97], [97, 98, 99], [98], [98, 99, 100]] (by decide) (by decide) [([97, 98], 1)]

/-- **C238.** Every probe counts: a call of a `Matcher` over a sorted list adds one to `probes`, and
returns the least entry from the current position on which is not smaller than the word, or `None`. -/
theorem C238_call (m : Matcher) (hs : m.entries.Pairwise (· ≤ ·)) (hprev : m.prev ≤ m.entries.length)
    (word : List ℕ) :
    ∃ m' r, m.call word = .ok (m', r) ∧ m'.probes = m.probes + 1 ∧ m'.entries = m.entries ∧
      (∀ u, r = some u → u ∈ m.entries.drop m.prev ∧ word ≤ u ∧
        ∀ v ∈ m.entries.drop m.prev, word ≤ v → u ≤ v) ∧
      (r = none → ∀ v ∈ m.entries.drop m.prev, v < word) := by
  obtain ⟨pos, h1, h2, h3, h4, h5⟩ := bisectLeft_from hs word (base := m.prev) (le_refl _) hprev
    (fun i _ h1 h2 => by omega)
  refine ⟨{ m with probes := m.probes + 1, prev := pos }, m.entries[pos]?, ?_, rfl, rfl, ?_, ?_⟩
  · simp [Matcher.call, h1]
  · intro u hu
    obtain ⟨hl, rfl⟩ := List.getElem?_eq_some_iff.mp hu
    refine ⟨?_, h5 pos hl (le_refl _), ?_⟩
    · rw [List.mem_iff_getElem]
      refine ⟨pos - m.prev, by rw [List.length_drop]; omega, ?_⟩
      rw [List.getElem_drop]
      congr 1
      omega
    · intro v hv hwv
      obtain ⟨i, hi, rfl⟩ := List.mem_iff_getElem.mp hv
      rw [List.length_drop] at hi
      rw [List.getElem_drop] at hwv ⊢
      rcases lt_trichotomy (m.prev + i) pos with h | h | h
      · exact absurd (h4 _ (by omega) (by omega) h) (not_lt.mpr hwv)
      · subst h; exact le_refl _
      · exact List.pairwise_iff_getElem.mp hs pos _ hl (by omega) h
  · intro hnone v hv
    have hl : m.entries.length ≤ pos := List.getElem?_eq_none_iff.mp hnone
    obtain ⟨i, hi, rfl⟩ := List.mem_iff_getElem.mp hv
    rw [List.length_drop] at hi
    rw [List.getElem_drop]
    exact h4 _ (by omega) (by omega) (by omega)

/-- "b" among "a", "c" gives "c". -/
example : Matcher.call (Matcher.new [[97], [99]]) [98] =
    .ok ({ entries := [[97], [99]], probes := 1, prev := 1 }, some [99]) := by decide +kernel

end Auto
end Verif
