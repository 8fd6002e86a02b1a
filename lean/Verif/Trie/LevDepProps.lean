import Verif.Trie.LevCutProps
import Mathlib.Data.List.Nodup
import Mathlib.Logic.Function.Basic
import Mathlib.Tactic.Linarith
import Mathlib.Tactic.NormNum

/-!
# C253: what `levenshtein_lookup` depends on

`Trie.levenshtein_lookup` (experiments/find_replace_trie.py) when bound and costs change, when the
word and a key change places, when characters are renamed, and for tries with other histories.
-/

namespace Verif
namespace Trie

open EditSpec TrieSpec

variable {τ σ ν μ : Type} [DecidableEq τ] [DecidableEq σ]

omit [DecidableEq τ] in
/-- With no dearer operations a script costs no more. -/
theorem edit_mono_costs {i d s t i' d' s' t' : ℚ} (hi : i' ≤ i) (hd : d' ≤ d) (hs : s' ≤ s)
    (ht : t' ≤ t) {u v : List τ} {x : ℚ} (h : Edit ⟨i, d, s, some t⟩ u v x) :
    ∃ y, y ≤ x ∧ Edit ⟨i', d', s', some t'⟩ u v y := by
  induction h with
  | nil => exact ⟨0, le_refl _, .nil⟩
  | keep a _ ih => obtain ⟨y, hy, h⟩ := ih; exact ⟨y, hy, .keep _ h⟩
  | ins b _ ih => obtain ⟨y, hy, h⟩ := ih; exact ⟨_, add_le_add hy hi, .ins _ h⟩
  | del a _ ih => obtain ⟨y, hy, h⟩ := ih; exact ⟨_, add_le_add hy hd, .del _ h⟩
  | sub a b hab _ ih => obtain ⟨y, hy, h⟩ := ih; exact ⟨_, add_le_add hy hs, .sub _ _ hab h⟩
  | swap a b e _ ih =>
    obtain ⟨y, hy, h⟩ := ih
    cases e
    exact ⟨_, add_le_add hy ht, .swap _ _ rfl h⟩

omit [DecidableEq τ] in
theorem edit_scale (r : ℚ) {i d s t : ℚ} {u v : List τ} {x : ℚ}
    (h : Edit ⟨i, d, s, some t⟩ u v x) :
    Edit ⟨r * i, r * d, r * s, some (r * t)⟩ u v (r * x) := by
  induction h with
  | nil => rw [mul_zero]; exact .nil
  | keep a _ ih => exact .keep _ ih
  | ins b _ ih => rw [mul_add]; exact .ins _ ih
  | del a _ ih => rw [mul_add]; exact .del _ ih
  | sub a b hab _ ih => rw [mul_add]; exact .sub _ _ hab ih
  | swap a b e _ ih => cases e; rw [mul_add]; exact .swap _ _ rfl ih

omit [DecidableEq τ] [DecidableEq σ] in
theorem edit_map_rat {c : Costs ℚ} (hs : 0 ≤ c.sub) (f : τ → σ) {u v : List τ} {x : ℚ}
    (h : Edit c u v x) : ∃ y, y ≤ x ∧ Edit c (u.map f) (v.map f) y := by
  induction h with
  | nil => exact ⟨0, le_refl _, .nil⟩
  | keep a _ ih => obtain ⟨y, hy, h⟩ := ih; exact ⟨y, hy, .keep _ h⟩
  | ins b _ ih => obtain ⟨y, hy, h⟩ := ih; exact ⟨_, add_le_add hy le_rfl, .ins _ h⟩
  | del a _ ih => obtain ⟨y, hy, h⟩ := ih; exact ⟨_, add_le_add hy le_rfl, .del _ h⟩
  | sub a b _ _ ih =>
    obtain ⟨y, hy, h⟩ := ih
    by_cases e : f a = f b
    · refine ⟨y, by linarith, ?_⟩
      simp only [List.map_cons, e]
      exact .keep _ h
    · exact ⟨_, add_le_add hy le_rfl, .sub _ _ e h⟩
  | swap a b ht _ ih =>
    obtain ⟨y, hy, h⟩ := ih
    exact ⟨_, add_le_add hy le_rfl, .swap _ _ ht h⟩

omit [DecidableEq τ] [DecidableEq σ] in
theorem within_map [Nonempty τ] {c : Costs ℚ} (hs : 0 ≤ c.sub) {f : τ → σ} (hf : Function.Injective f)
    {u v : List τ} {k : ℚ} :
    (∃ x, x ≤ k ∧ Edit c (u.map f) (v.map f) x) ↔ ∃ x, x ≤ k ∧ Edit c u v x := by
  constructor
  · rintro ⟨x, hx, h⟩
    obtain ⟨y, hy, h⟩ := edit_map_rat hs (Function.invFun f) h
    rw [List.map_map, List.map_map, (Function.leftInverse_invFun hf).comp_eq_id, List.map_id,
      List.map_id] at h
    exact ⟨y, hy.trans hx, h⟩
  · rintro ⟨x, hx, h⟩
    obtain ⟨y, hy, h⟩ := edit_map_rat hs f h
    exact ⟨y, hy.trans hx, h⟩

/-- What the search finds grows with the set of table entries within the bound. -/
theorem foundP_mono {c c' : Costs ℚ} {word : List τ} {k k' : ℚ}
    (h : ∀ p j, cell c word p j ≤ k → cell c' word p j ≤ k') (path : List τ)
    (f : List (τ × Node τ ν)) : (foundP c word k path f).Sublist (foundP c' word k' path f) := by
  generalize hn : frameWeight f = n
  induction n using Nat.strong_induction_on generalizing path f with
  | _ n ih =>
  match f with
  | [] => rw [foundP, foundP]
  | (key, ch) :: rest =>
    have hw := Node.weight_eq ch
    rw [foundP, foundP]
    refine List.Sublist.append ?_ (ih _ ?_ _ _ rfl)
    · by_cases h1 : ∃ j, j < word.length + 1 ∧ cell c word (path ++ [key]) j ≤ k
      · have h1' : ∃ j, j < word.length + 1 ∧ cell c' word (path ++ [key]) j ≤ k' := by
          obtain ⟨j, hj, hc⟩ := h1
          exact ⟨j, hj, h _ _ hc⟩
        rw [if_pos h1, if_pos h1']
        refine List.Sublist.append ?_ (ih _ ?_ _ _ rfl)
        · by_cases h2 : cell c word (path ++ [key]) word.length ≤ k ∧ ch.val.isSome
          · rw [if_pos h2, if_pos ⟨h _ _ h2.1, h2.2⟩]
          · rw [if_neg h2]
            exact List.nil_sublist _
        · simp only [frameWeight_reverse]
          simp only [frameWeight, List.map_cons, List.sum_cons] at *
          omega
      · rw [if_neg h1]
        exact List.nil_sublist _
    · simp only [frameWeight, List.map_cons, List.sum_cons] at *
      omega

/-- **C253.** A larger bound and cheaper operations only add keys: what was yielded before is
yielded still, in the same order. No condition on the transposition cost is needed. -/
theorem C253_monotone (t : Trie τ ν) (word : List τ) (hw : word ≠ [])
    (k ins del sub swap k' ins' del' sub' swap' : ℚ) (hk : 0 ≤ k)
    (hi' : 0 ≤ ins') (hd' : 0 ≤ del') (hsu' : 0 ≤ sub') (hsw' : 0 ≤ swap')
    (lk : k ≤ k') (li : ins' ≤ ins) (ld : del' ≤ del) (ls : sub' ≤ sub) (lt : swap' ≤ swap) :
    ∃ l l', levenshteinLookup id true t word k ins del sub swap = .ok l ∧
      levenshteinLookup id true t word k' ins' del' sub' swap' = .ok l' ∧ l.Sublist l' := by
  refine ⟨_, _, levenshteinLookup_eq t word hw k hk (hi'.trans li) (hd'.trans ld) (hsu'.trans ls)
    (hsw'.trans lt), levenshteinLookup_eq t word hw k' (hk.trans lk) hi' hd' hsu' hsw',
    foundP_mono (fun p j h => ?_) _ _⟩
  obtain ⟨x, hx, h⟩ := (dist_le_iff _ _ _ _).mp h
  obtain ⟨y, hy, h⟩ := edit_mono_costs li ld ls lt h
  exact (dist_le_iff _ _ _ _).mpr ⟨y, hy.trans (hx.trans lk), h⟩

/-- Only the ratios of bound and costs matter. -/
theorem C253_scale (t : Trie τ ν) (word : List τ) (hw : word ≠ [])
    (r k ins del sub swap : ℚ) (hr : 0 < r) (hk : 0 ≤ k) (hi : 0 ≤ ins) (hd : 0 ≤ del)
    (hsu : 0 ≤ sub) (hsw : 0 ≤ swap) :
    levenshteinLookup id true t word (r * k) (r * ins) (r * del) (r * sub) (r * swap) =
      levenshteinLookup id true t word k ins del sub swap := by
  rw [levenshteinLookup_eq t word hw k hk hi hd hsu hsw,
    levenshteinLookup_eq t word hw (r * k) (mul_nonneg hr.le hk) (mul_nonneg hr.le hi)
      (mul_nonneg hr.le hd) (mul_nonneg hr.le hsu) (mul_nonneg hr.le hsw)]
  congr 1
  refine (foundP_mono (fun p j h => ?_) _ _).antisymm (foundP_mono (fun p j h => ?_) _ _)
  · obtain ⟨x, hx, h⟩ := (dist_le_iff _ _ _ _).mp h
    have h := edit_scale r⁻¹ h
    simp only [inv_mul_cancel_left₀ hr.ne'] at h
    refine (dist_le_iff _ _ _ _).mpr ⟨_, ?_, h⟩
    have := mul_le_mul_of_nonneg_left hx (inv_nonneg.mpr hr.le)
    rwa [inv_mul_cancel_left₀ hr.ne'] at this
  · obtain ⟨x, hx, h⟩ := (dist_le_iff _ _ _ _).mp h
    exact (dist_le_iff _ _ _ _).mpr ⟨_, mul_le_mul_of_nonneg_left hx hr.le, edit_scale r h⟩

/-- Word and key may change places if the costs of insertion and deletion do. -/
theorem C253_exchange (cs : List (Call (List τ) ν)) (cs' : List (Call (List τ) μ))
    (word key : List τ) (hw : word ≠ []) (hkey : key ≠ [])
    (hin : (afterCalls (fun w => w) id new cs : Trie τ ν).root.get key ≠ none)
    (hin' : (afterCalls (fun w => w) id new cs' : Trie τ μ).root.get word ≠ none)
    (k ins del sub swap : ℚ) (hk : 0 ≤ k) (hi : 0 ≤ ins) (hd : 0 ≤ del)
    (hsu : 0 ≤ sub) (hsw : min (min ins del) sub ≤ swap) :
    ∃ l l', levenshteinLookup id true (afterCalls (fun w => w) id new cs : Trie τ ν) word k ins del
        sub swap = .ok l ∧
      levenshteinLookup id true (afterCalls (fun w => w) id new cs' : Trie τ μ) key k del ins sub
        swap = .ok l' ∧ (key ∈ l ↔ word ∈ l') := by
  obtain ⟨l, e, -, -, hm⟩ := C63_levenshtein_lookup_exact cs word hw k ins del sub swap hk hi hd
    hsu hsw
  obtain ⟨l', e', -, -, hm'⟩ := C63_levenshtein_lookup_exact cs' key hkey k del ins sub swap hk hd
    hi hsu (by rwa [min_comm del ins])
  refine ⟨l, l', e, e', ?_⟩
  rw [hm, hm']
  constructor
  · rintro ⟨-, -, x, hx, h⟩
    exact ⟨hw, hin', x, hx, h.symm⟩
  · rintro ⟨-, -, x, hx, h⟩
    exact ⟨hkey, hin, x, hx, h.symm⟩

/-- Renaming characters in the word and in all keys renames them in what is yielded, up to order,
whatever the histories of the two tries and their values. -/
theorem C253_rename (cs : List (Call (List τ) ν)) (cs' : List (Call (List σ) μ)) (f : τ → σ)
    (hf : Function.Injective f)
    (hkeys : ∀ q, q ≠ [] → ((afterCalls (fun w => w) id new cs' : Trie σ μ).root.get q ≠ none ↔
      ∃ p, p.map f = q ∧ (afterCalls (fun w => w) id new cs : Trie τ ν).root.get p ≠ none))
    (word : List τ) (hw : word ≠ [])
    (k ins del sub swap : ℚ) (hk : 0 ≤ k) (hi : 0 ≤ ins) (hd : 0 ≤ del)
    (hsu : 0 ≤ sub) (hsw : 0 ≤ swap) :
    ∃ l l', levenshteinLookup id true (afterCalls (fun w => w) id new cs : Trie τ ν) word k ins del
        sub swap = .ok l ∧
      levenshteinLookup id true (afterCalls (fun w => w) id new cs' : Trie σ μ) (word.map f) k ins
        del sub swap = .ok l' ∧ l'.Perm (l.map (List.map f)) := by
  obtain ⟨l, e, -, hn, hm⟩ := C255_levenshtein_lookup_yields cs word hw k ins del sub swap hk hi hd
    hsu hsw
  obtain ⟨l', e', -, hn', hm'⟩ := C255_levenshtein_lookup_yields cs' (word.map f) (by simpa using hw)
    k ins del sub swap hk hi hd hsu hsw
  refine ⟨l, l', e, e', ?_⟩
  rw [List.perm_ext_iff_of_nodup hn' (hn.map (List.map_injective_iff.mpr hf))]
  obtain ⟨a, _, hword⟩ := List.exists_cons_of_ne_nil hw
  have : Nonempty τ := ⟨a⟩
  intro q
  rw [hm', List.mem_map]
  constructor
  · rintro ⟨hq, hg, h, hr⟩
    obtain ⟨p, rfl, hp⟩ := (hkeys q hq).mp hg
    refine ⟨p, (hm p).mpr ⟨by simpa using hq, hp, (within_map hsu hf).mp h, ?_⟩, rfl⟩
    intro s hs hsp
    obtain ⟨u, x, hu, hx, he⟩ := hr (s.map f) (by simpa using hs) (hsp.map f)
    obtain ⟨n, rfl⟩ : ∃ n, u = (word.take n).map f :=
      ⟨u.length, by rw [List.map_take]; exact List.prefix_iff_eq_take.mp hu⟩
    obtain ⟨y, hy, he⟩ := (within_map (c := ⟨ins, del, sub, some swap⟩) hsu hf).mp ⟨x, hx, he⟩
    exact ⟨_, y, List.take_prefix _ _, hy, he⟩
  · rintro ⟨p, hp, rfl⟩
    obtain ⟨hp, hg, h, hr⟩ := (hm p).mp hp
    have hq : p.map f ≠ [] := by simpa using hp
    refine ⟨hq, (hkeys _ hq).mpr ⟨p, rfl, hg⟩, (within_map hsu hf).mpr h, ?_⟩
    intro s hs hsp
    obtain ⟨n, rfl⟩ : ∃ n, s = (p.take n).map f :=
      ⟨s.length, by rw [List.map_take]; exact List.prefix_iff_eq_take.mp hsp⟩
    obtain ⟨u, x, hu, hx, he⟩ := hr (p.take n) (by simpa using hs) (List.take_prefix _ _)
    obtain ⟨y, hy, he⟩ := (within_map (c := ⟨ins, del, sub, some swap⟩) hsu hf).mpr ⟨x, hx, he⟩
    exact ⟨_, y, hu.map f, hy, he⟩

/-- Whether a key is yielded does not depend on the other keys: a trie that holds the keys of two
tries yields what one of them yields. -/
theorem C253_union (cs cs₁ cs₂ : List (Call (List τ) ν))
    (hkeys : ∀ p, p ≠ [] → ((afterCalls (fun w => w) id new cs : Trie τ ν).root.get p ≠ none ↔
      (afterCalls (fun w => w) id new cs₁ : Trie τ ν).root.get p ≠ none ∨
      (afterCalls (fun w => w) id new cs₂ : Trie τ ν).root.get p ≠ none))
    (word : List τ) (hw : word ≠ [])
    (k ins del sub swap : ℚ) (hk : 0 ≤ k) (hi : 0 ≤ ins) (hd : 0 ≤ del)
    (hsu : 0 ≤ sub) (hsw : 0 ≤ swap) :
    ∃ l l₁ l₂, levenshteinLookup id true (afterCalls (fun w => w) id new cs : Trie τ ν) word k ins
        del sub swap = .ok l ∧
      levenshteinLookup id true (afterCalls (fun w => w) id new cs₁ : Trie τ ν) word k ins del sub
        swap = .ok l₁ ∧
      levenshteinLookup id true (afterCalls (fun w => w) id new cs₂ : Trie τ ν) word k ins del sub
        swap = .ok l₂ ∧
      ∀ p, p ∈ l ↔ p ∈ l₁ ∨ p ∈ l₂ := by
  obtain ⟨l, e, -, -, hm⟩ := C255_levenshtein_lookup_yields cs word hw k ins del sub swap hk hi hd
    hsu hsw
  obtain ⟨l₁, e₁, -, -, hm₁⟩ := C255_levenshtein_lookup_yields cs₁ word hw k ins del sub swap hk hi
    hd hsu hsw
  obtain ⟨l₂, e₂, -, -, hm₂⟩ := C255_levenshtein_lookup_yields cs₂ word hw k ins del sub swap hk hi
    hd hsu hsw
  refine ⟨l, l₁, l₂, e, e₁, e₂, fun p => ?_⟩
  rw [hm, hm₁, hm₂]
  constructor
  · rintro ⟨hp, hg, h⟩
    exact ((hkeys p hp).mp hg).imp (fun g => ⟨hp, g, h⟩) (fun g => ⟨hp, g, h⟩)
  · rintro (⟨hp, hg, h⟩ | ⟨hp, hg, h⟩)
    · exact ⟨hp, (hkeys p hp).mpr (.inl hg), h⟩
    · exact ⟨hp, (hkeys p hp).mpr (.inr hg), h⟩

/-- Evaluates lookups on concrete tries. -/
local macro "lookup_eval'" : tactic =>
  `(tactic| simp (decide := true) [levenshteinLookup, lookupLoop, levRow, levCells,
    levCell, pyMin, pyGet, pyGetI, pySet, pySetI, pyIndex, afterCalls,
    step, setItem, Node.put, Node.get, Node.walk, Node.val, Node.kids, new, Node.empty, Dict.set,
    Dict.get?, bind, Except.bind, pure, Except.pure, List.range, List.range.loop, List.range'])

/-- "ab", "b" and "ba" looked up with "ab": distance 1, then all costs and the bound doubled, then
with distance 2, then with 1 and 2 renamed to 5 and 4 in another order of insertion. -/
example : levenshteinLookup id true (afterCalls (fun w => w) id (new : Trie Nat String)
    [.set [1, 2] "x", .set [2] "y", .set [2, 1] "z"]) [1, 2] 1 1 1 1 2 = .ok [[2], [1, 2]] := by
  lookup_eval'

example : levenshteinLookup id true (afterCalls (fun w => w) id (new : Trie Nat String)
    [.set [1, 2] "x", .set [2] "y", .set [2, 1] "z"]) [1, 2] 2 2 2 2 4 = .ok [[2], [1, 2]] := by
  lookup_eval'

example : levenshteinLookup id true (afterCalls (fun w => w) id (new : Trie Nat String)
    [.set [1, 2] "x", .set [2] "y", .set [2, 1] "z"]) [1, 2] 2 1 1 1 2
      = .ok [[2], [2, 1], [1, 2]] := by
  lookup_eval'

example : levenshteinLookup id true (afterCalls (fun w => w) id (new : Trie Nat String)
    [.set [4] "p", .set [4, 5] "q", .set [5, 4] "r"]) [5, 4] 1 1 1 1 2 = .ok [[5, 4], [4]] := by
  lookup_eval'

/-- Word and key exchanged: "b" is found with "ab" by a deletion of cost 1, "ab" with "b" by an
insertion of cost 1; in either direction the other operation costs 3. -/
example : levenshteinLookup id true (afterCalls (fun w => w) id (new : Trie Nat String)
      [.set [2] "y", .set [1, 2, 1] "z"]) [1, 2] 1 3 1 2 2 = .ok [[2]] ∧
    levenshteinLookup id true (afterCalls (fun w => w) id (new : Trie Nat String)
      [.set [1, 2] "x"]) [2] 1 1 3 2 2 = .ok [[1, 2]] := by
  constructor <;> lookup_eval' <;> norm_num

/-- The condition on the transposition cost in `C253_exchange` is needed: with insertion 5,
deletion 1, substitution 9, free transpositions and distance 5, "ab" does not find "cba" (its
beginning "cb" is too far from "", "a" and "ab"), but with insertion and deletion exchanged "cba"
finds "ab". -/
theorem C253_exchange_cheap_transposition :
    levenshteinLookup id true (afterCalls (fun w => w) id (new : Trie Nat String)
      [.set [3, 2, 1] "y"]) [1, 2] 5 5 1 9 0 = .ok [] ∧
    levenshteinLookup id true (afterCalls (fun w => w) id (new : Trie Nat String)
      [.set [1, 2] "x"]) [3, 2, 1] 5 1 5 9 0 = .ok [[1, 2]] := by
  constructor <;> lookup_eval'

/-- The trie of the first example in two parts. -/
example : levenshteinLookup id true (afterCalls (fun w => w) id (new : Trie Nat String)
      [.set [1, 2] "x", .set [2, 1] "z"]) [1, 2] 1 1 1 1 2 = .ok [[1, 2]] ∧
    levenshteinLookup id true (afterCalls (fun w => w) id (new : Trie Nat String)
      [.set [2] "y"]) [1, 2] 1 1 1 1 2 = .ok [[2]] := by
  constructor <;> lookup_eval'

end Trie
end Verif
