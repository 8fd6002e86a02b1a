import Verif.Auto.Props
import Verif.Edit.SymProps
import Mathlib.Data.List.Nodup

/-!
# C254: what `find_all_matches` depends on

`find_all_matches` (experiments/automata.py, lines 241–261) with a `Matcher` (lines 281–295) over a
sorted list of entries, when the bound, the word or the entries change. Sets may be iterated over in any order, in any two calls
differently.
-/

namespace Verif
namespace Auto

open AutoSpec EditSpec

/-- `find_all_matches(word, k, Matcher(entries))` (experiments/automata.py, lines 241–261) yields
`out` and ends. -/
def Answers (pick : Finset State → State) (order : Finset Sym → List Sym) (word : List ℕ) (k : ℤ)
    (entries out : List (List ℕ)) : Prop :=
  ∃ N, ∀ fuel, N ≤ fuel → findAllMatches pick order fuel word k entries = some (.ok out)

theorem Answers.unique {pick : Finset State → State} {order : Finset Sym → List Sym}
    {word : List ℕ} {k : ℤ} {entries out out' : List (List ℕ)}
    (h : Answers pick order word k entries out) (h' : Answers pick order word k entries out') :
    out = out' := by
  obtain ⟨N, hN⟩ := h
  obtain ⟨M, hM⟩ := h'
  have := (hN (max N M) (le_max_left _ _)).symm.trans (hM (max N M) (le_max_right _ _))
  simpa using this

/-- Entries as a `Matcher` needs them: sorted, without U+10FFFF. -/
structure EntriesOk (entries : List (List ℕ)) : Prop where
  sorted : entries.Pairwise (· ≤ ·)
  chars : ∀ u ∈ entries, ∀ c ∈ u, c < 0x10FFFF

theorem answers_spec {pick : Finset State → State} (hp : PickOk pick)
    {order : Finset Sym → List Sym} (ho : OrderOk order) {word : List ℕ} {k : ℤ}
    {entries out : List (List ℕ)} (he : EntriesOk entries)
    (h : Answers pick order word k entries out) :
    out.Pairwise (· < ·) ∧
      ∀ w, w ∈ out ↔ w ∈ entries ∧ w ≠ [] ∧ ∃ n : ℕ, (n : ℤ) ≤ k ∧ Steps OneEdit n word w := by
  obtain ⟨out', h1, h2, h3⟩ := C79_find_all_matches hp ho word k entries he.sorted he.chars
  obtain rfl := h.unique h1
  exact ⟨h2, h3⟩

theorem sublist_of_increasing {l m : List (List ℕ)} (hl : l.Pairwise (· < ·))
    (hm : m.Pairwise (· < ·)) (h : l ⊆ m) : l.Sublist m := by
  have e : l = m.filter (· ∈ l) := by
    refine List.Perm.eq_of_pairwise (fun a b _ _ h h' => absurd h' (lt_asymm h)) hl
      (hm.sublist List.filter_sublist) ((List.perm_ext_iff_of_nodup (hl.imp fun h => ne_of_lt h)
        ((hm.imp fun h => ne_of_lt h).sublist List.filter_sublist)).mpr fun w => ?_)
    rw [List.mem_filter, decide_eq_true_iff]
    exact ⟨fun hw => ⟨h hw, hw⟩, fun hw => hw.2⟩
  rw [e]
  exact List.filter_sublist

section

variable {pick pick' pick'' : Finset State → State} {order order' order'' : Finset Sym → List Sym}

/-- **C254.** A larger bound and more entries only add to what is yielded, and keep its order. -/
theorem C254_monotone (hp : PickOk pick) (ho : OrderOk order) (hp' : PickOk pick')
    (ho' : OrderOk order') {word : List ℕ} {k k' : ℤ} {entries entries' out out' : List (List ℕ)}
    (he : EntriesOk entries) (he' : EntriesOk entries') (hk : k ≤ k') (hsub : entries ⊆ entries')
    (h : Answers pick order word k entries out) (h' : Answers pick' order' word k' entries' out') :
    out.Sublist out' := by
  obtain ⟨h1, h2⟩ := answers_spec hp ho he h
  obtain ⟨h1', h2'⟩ := answers_spec hp' ho' he' h'
  refine sublist_of_increasing h1 h1' fun w hw => ?_
  obtain ⟨a, b, n, hn, hs⟩ := (h2 w).mp hw
  exact (h2' w).mpr ⟨hsub a, b, n, hn.trans hk, hs⟩

/-- Repeated entries and the order in which sets are iterated over do not matter. -/
theorem C254_same_entries (hp : PickOk pick) (ho : OrderOk order) (hp' : PickOk pick')
    (ho' : OrderOk order') {word : List ℕ} {k : ℤ} {entries entries' out out' : List (List ℕ)}
    (he : EntriesOk entries) (he' : EntriesOk entries') (hsame : ∀ w, w ∈ entries ↔ w ∈ entries')
    (h : Answers pick order word k entries out) (h' : Answers pick' order' word k entries' out') :
    out = out' :=
  (C254_monotone hp ho hp' ho' he he' le_rfl (fun _ => (hsame _).mp) h h').antisymm
    (C254_monotone hp' ho' hp ho he' he le_rfl (fun _ => (hsame _).mpr) h' h)

/-- Whether an entry is yielded does not depend on the other entries. -/
theorem C254_union (hp : PickOk pick) (ho : OrderOk order) (hp' : PickOk pick')
    (ho' : OrderOk order') (hp'' : PickOk pick'') (ho'' : OrderOk order'') {word : List ℕ} {k : ℤ}
    {entries entries₁ entries₂ out out₁ out₂ : List (List ℕ)}
    (he : EntriesOk entries) (he₁ : EntriesOk entries₁) (he₂ : EntriesOk entries₂)
    (hall : ∀ w, w ∈ entries ↔ w ∈ entries₁ ∨ w ∈ entries₂)
    (h : Answers pick order word k entries out)
    (h₁ : Answers pick' order' word k entries₁ out₁)
    (h₂ : Answers pick'' order'' word k entries₂ out₂) (w : List ℕ) :
    w ∈ out ↔ w ∈ out₁ ∨ w ∈ out₂ := by
  rw [(answers_spec hp ho he h).2, (answers_spec hp' ho' he₁ h₁).2,
    (answers_spec hp'' ho'' he₂ h₂).2, hall, or_and_right]

/-- An entry is yielded for a word exactly if the word, being an entry, is yielded for it. -/
theorem C254_symmetric (hp : PickOk pick) (ho : OrderOk order) (hp' : PickOk pick')
    (ho' : OrderOk order') {u v : List ℕ} (hu : u ≠ []) (hv : v ≠ []) {k : ℤ}
    {entries entries' out out' : List (List ℕ)}
    (he : EntriesOk entries) (he' : EntriesOk entries') (hin : v ∈ entries) (hin' : u ∈ entries')
    (h : Answers pick order u k entries out) (h' : Answers pick' order' v k entries' out') :
    v ∈ out ↔ u ∈ out' := by
  have key : ∀ a b : List ℕ, (∃ n : ℕ, (n : ℤ) ≤ k ∧ Steps OneEdit n a b) →
      ∃ n : ℕ, (n : ℤ) ≤ k ∧ Steps OneEdit n b a := by
    rintro a b ⟨n, hn, hs⟩
    refine ⟨dist unitCosts b a, ?_, (Edit.unit_isLeast b a).1⟩
    have := Edit.unit_le_steps hs
    rw [Edit.unit_symm] at this
    omega
  rw [(answers_spec hp ho he h).2, (answers_spec hp' ho' he' h').2]
  exact ⟨fun ⟨_, _, x⟩ => ⟨hin', hu, key _ _ x⟩, fun ⟨_, _, x⟩ => ⟨hin, hv, key _ _ x⟩⟩

/-- Searching on from an entry that was yielded leads no further than the sum of the bounds. -/
theorem C254_triangle (hp : PickOk pick) (ho : OrderOk order) (hp' : PickOk pick')
    (ho' : OrderOk order') (hp'' : PickOk pick'') (ho'' : OrderOk order'')
    {word v w : List ℕ} {k k' : ℤ} {entries out out' out'' : List (List ℕ)}
    (he : EntriesOk entries)
    (h : Answers pick order word k entries out) (hv : v ∈ out)
    (h' : Answers pick' order' v k' entries out') (hw : w ∈ out')
    (h'' : Answers pick'' order'' word (k + k') entries out'') : w ∈ out'' := by
  obtain ⟨-, -, n, hn, hs⟩ := ((answers_spec hp ho he h).2 v).mp hv
  obtain ⟨a, b, m, hm, ht⟩ := ((answers_spec hp' ho' he h').2 w).mp hw
  exact ((answers_spec hp'' ho'' he h'').2 w).mpr
    ⟨a, b, n + m, by push_cast; omega, Edit.Steps.trans hs ht⟩

/-- Renaming characters in the word and in all entries, which are then sorted anew, renames them in
what is yielded, up to order. -/
theorem C254_rename (hp : PickOk pick) (ho : OrderOk order) (hp' : PickOk pick')
    (ho' : OrderOk order') {word : List ℕ} {k : ℤ} {entries entries' out out' : List (List ℕ)}
    (f : ℕ → ℕ) (hf : Function.Injective f)
    (he : EntriesOk entries) (he' : EntriesOk entries')
    (hperm : entries'.Perm (entries.map (List.map f)))
    (h : Answers pick order word k entries out)
    (h' : Answers pick' order' (word.map f) k entries' out') :
    out'.Perm (out.map (List.map f)) := by
  obtain ⟨h1, h2⟩ := answers_spec hp ho he h
  obtain ⟨h1', h2'⟩ := answers_spec hp' ho' he' h'
  rw [List.perm_ext_iff_of_nodup (h1'.imp fun h => ne_of_lt h)
    (List.Nodup.map (List.map_injective_iff.mpr hf) (h1.imp fun h => ne_of_lt h))]
  have key : ∀ u : List ℕ, (∃ n : ℕ, (n : ℤ) ≤ k ∧ Steps OneEdit n (word.map f) (u.map f)) ↔
      ∃ n : ℕ, (n : ℤ) ≤ k ∧ Steps OneEdit n word u := by
    intro u
    have hd : dist unitCosts (word.map f) (u.map f) = dist unitCosts word u :=
      Edit.dist_map unitCosts f hf word u
    constructor
    · rintro ⟨n, hn, hs⟩
      have := Edit.unit_le_steps hs
      exact ⟨_, by omega, (Edit.unit_isLeast word u).1⟩
    · rintro ⟨n, hn, hs⟩
      have := Edit.unit_le_steps hs
      exact ⟨_, by omega, (Edit.unit_isLeast (word.map f) (u.map f)).1⟩
  intro q
  rw [h2', hperm.mem_iff, List.mem_map, List.mem_map]
  constructor
  · rintro ⟨⟨p, hm, rfl⟩, hq, hs⟩
    exact ⟨p, (h2 p).mpr ⟨hm, by simpa using hq, (key p).mp hs⟩, rfl⟩
  · rintro ⟨p, hm, rfl⟩
    obtain ⟨a, b, hs⟩ := (h2 p).mp hm
    exact ⟨⟨p, a, rfl⟩, by simpa using b, (key p).mpr hs⟩

/-- Reading the word and all entries backwards, which are then sorted anew, does the same to what
is yielded, up to order. -/
theorem C254_reverse (hp : PickOk pick) (ho : OrderOk order) (hp' : PickOk pick')
    (ho' : OrderOk order') {word : List ℕ} {k : ℤ} {entries entries' out out' : List (List ℕ)}
    (he : EntriesOk entries) (he' : EntriesOk entries')
    (hperm : entries'.Perm (entries.map List.reverse))
    (h : Answers pick order word k entries out)
    (h' : Answers pick' order' word.reverse k entries' out') :
    out'.Perm (out.map List.reverse) := by
  obtain ⟨h1, h2⟩ := answers_spec hp ho he h
  obtain ⟨h1', h2'⟩ := answers_spec hp' ho' he' h'
  rw [List.perm_ext_iff_of_nodup (h1'.imp fun h => ne_of_lt h)
    (List.Nodup.map List.reverse_injective (h1.imp fun h => ne_of_lt h))]
  have key : ∀ u : List ℕ, (∃ n : ℕ, (n : ℤ) ≤ k ∧ Steps OneEdit n word.reverse u.reverse) ↔
      ∃ n : ℕ, (n : ℤ) ≤ k ∧ Steps OneEdit n word u := by
    intro u
    have hd : dist unitCosts word.reverse u.reverse = dist unitCosts word u := dist_reverse _ _ _
    constructor
    · rintro ⟨n, hn, hs⟩
      have := Edit.unit_le_steps hs
      exact ⟨_, by omega, (Edit.unit_isLeast word u).1⟩
    · rintro ⟨n, hn, hs⟩
      have := Edit.unit_le_steps hs
      exact ⟨_, by omega, (Edit.unit_isLeast word.reverse u.reverse).1⟩
  intro q
  rw [h2', hperm.mem_iff, List.mem_map, List.mem_map]
  constructor
  · rintro ⟨⟨p, hm, rfl⟩, hq, hs⟩
    exact ⟨p, (h2 p).mpr ⟨hm, by simpa using hq, (key p).mp hs⟩, rfl⟩
  · rintro ⟨p, hm, rfl⟩
    obtain ⟨a, b, hs⟩ := (h2 p).mp hm
    exact ⟨⟨p, a, rfl⟩, by simpa using b, (key p).mpr hs⟩

/-- Every call gives an answer, so the hypotheses above can be met. -/
theorem C254_total (hp : PickOk pick) (ho : OrderOk order) (word : List ℕ) (k : ℤ)
    {entries : List (List ℕ)} (he : EntriesOk entries) :
    ∃ out, Answers pick order word k entries out := by
  obtain ⟨out, h, -⟩ := C79_find_all_matches hp ho word k entries he.sorted he.chars
  exact ⟨out, h⟩

end

/-- Entries "a", "abc", "b", "bcd"; the same with characters 97–100 moved up by one and in reverse. -/
example : EntriesOk [[97], [97, 98, 99], [98], [98, 99, 100]] ∧
    EntriesOk [[98], [98, 99, 100], [99], [99, 100, 101]] ∧
    [[98], [98, 99, 100], [99], [99, 100, 101]] =
      [[97], [97, 98, 99], [98], [98, 99, 100]].map (List.map (· + 1)) ∧
    EntriesOk [[97], [98], [99, 98, 97], [100, 99, 98]] ∧
    [[97], [98], [99, 98, 97], [100, 99, 98]].Perm
      ([[97], [97, 98, 99], [98], [98, 99, 100]].map List.reverse) :=
  ⟨⟨by decide, by decide⟩, ⟨by decide, by decide⟩, by decide, ⟨by decide, by decide⟩, by decide⟩

/-- "abc" is yielded for "ab" within one edit, and then "bcd" for "abc" within two, hence also for
"ab" within three. -/
example {pick : Finset State → State} (hp : PickOk pick) {order : Finset Sym → List Sym}
    (ho : OrderOk order) :
    ∃ out, Answers pick order [97, 98] 3 [[97], [97, 98, 99], [98], [98, 99, 100]] out ∧
      [98, 99, 100] ∈ out := by
  have he : EntriesOk [[97], [97, 98, 99], [98], [98, 99, 100]] := ⟨by decide, by decide⟩
  obtain ⟨o1, h1⟩ := C254_total hp ho [97, 98] 1 he
  obtain ⟨o2, h2⟩ := C254_total hp ho [97, 98, 99] 2 he
  obtain ⟨o3, h3⟩ := C254_total hp ho [97, 98] (1 + 2) he
  refine ⟨o3, h3, C254_triangle hp ho hp ho hp ho he h1
    (((answers_spec hp ho he h1).2 _).mpr ⟨by simp, by simp, 1, le_refl _,
      .step (.ins [97, 98] 99 []) (.zero _)⟩) h2
    (((answers_spec hp ho he h2).2 _).mpr ⟨by simp, by simp, 2, le_refl _,
      .step (.del [] 97 [98, 99]) (.step (.ins [98, 99] 100 []) (.zero _))⟩) h3⟩

end Auto
end Verif
