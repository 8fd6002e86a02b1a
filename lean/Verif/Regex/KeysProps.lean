import Verif.Regex.KeysModel
import Verif.Regex.Witness
import Verif.Trie.KeysProps

/-!
# The function `to_regex`: property C156
-/

namespace Verif
namespace Regex

open RegexSpec
open Trie (fromKeysFull tokenizerOf)

/-- The strings as the trie stores them. -/
def stored (low : Char → Char) (cs : Bool) (strings : List (List Char)) (key : List Char) : Prop :=
  ∃ w ∈ strings, key = if cs then w else w.map low

theorem keys_fromKeysFull (low : Char → Char) (cs : Bool) (strings : List (List Char))
    (key : List Char) :
    keysOf (fromKeysFull (ν := List Char) (fun w => w) low Char.toNat strings [] cs false).2.root
      key ↔ stored low cs strings key := by
  unfold keysOf stored
  rw [Trie.fromKeysFull_get]
  have : key ∈ strings.map (tokenizerOf (fun w => w) low (!cs)) ↔
      ∃ w ∈ strings, key = if cs then w else w.map low := by
    cases cs <;> simp [tokenizerOf, eq_comm]
  by_cases h : key ∈ strings.map (tokenizerOf (fun w => w) low (!cs))
  · simp [h, this.mp h]
  · simp only [h, if_false, ne_eq, not_true_eq_false, false_iff]
    exact fun hh => h (this.mpr hh)

theorem test_ok (low : Char → Char) (hlow : ∀ c ∈ testText, low c = c) (cs : Bool)
    (strings : List (List Char)) :
    decide ((fromKeysFull (ν := List Char) (fun w => w) low Char.toNat strings [] cs false).1
      testText = testText) = true := by
  rw [decide_eq_true_iff]
  change tokenizerOf (fun w => w) low (!cs) testText = testText
  unfold tokenizerOf
  cases cs
  · simp only [Bool.not_false, if_true]
    conv_rhs => rw [← List.map_id testText]
    exact List.map_congr_left hlow
  · rfl

/-- **C156.** The full matches of `to_regex(strings)` are the texts that are one of the strings, in
lower case unless `case_sensitive=True`, up to the other options. -/
theorem C156_to_regex (u : Classes) (h1 : u.space ' ' = true) (h2 : u.space '�' = false)
    (low : Char → Char) (hlow : ∀ c ∈ "test- ".toList, low c = c) (strings : List (List Char))
    (cs : Bool) (o : Opts)
    (ht : Tame u.space o fun key => ∃ w ∈ strings, key = if cs then w else w.map low) :
    ∃ pat r, toRegexOf u.space low strings cs o = .ok pat ∧ parse pat = some r ∧
      ∀ text, FullMatch u r text ↔
        (∃ w ∈ strings, List.Forall₂ (Agrees u.space o.fuzzySpaces o.fffdAny)
          (if cs then w else w.map low) text) ∧
        (o.boundary = true → boundary u text 0 = true ∧ boundary u text text.length = true) := by
  have hk : keysOf (fromKeysFull (ν := List Char) (fun w => w) low Char.toNat strings [] cs
      false).2.root = fun key => ∃ w ∈ strings, key = if cs then w else w.map low :=
    funext fun key => propext (keys_fromKeysFull low cs strings key)
  have hinv := Trie.fromKeysFull_inv (ν := List Char) (fun w : List Char => w) low Char.toNat
    strings [] cs false
  obtain ⟨pat, r, hp, hr, hm, -⟩ := pattern_spec hinv.wf h1 h2 (hk ▸ ht)
  have hlow' : ∀ c ∈ testText, low c = c := by
    intro c hc
    refine hlow c ?_
    revert hc c
    decide
  refine ⟨pat, r, ?_, hr, ?_⟩
  · unfold toRegexOf
    simp only
    rw [test_ok low hlow' cs strings]
    exact hp
  intro text
  rw [FullMatch, hm text 0 (Nat.zero_le _), hk]
  unfold Hit Reads
  simp only [Nat.zero_le, le_refl, List.take_length, List.drop_zero, true_and]
  constructor
  · rintro ⟨⟨key, ⟨w, hw, rfl⟩, hf⟩, hb⟩
    exact ⟨⟨w, hw, hf⟩, hb⟩
  · rintro ⟨⟨w, hw, hf⟩, hb⟩
    exact ⟨⟨_, ⟨w, hw, rfl⟩, hf⟩, hb⟩

/-- **C156.** By default the pattern is not blind to case but bound to lower case: it matches no text
that has a character which is not lower-case (nor whitespace), even if the text is one of the
strings. -/
theorem C156_capitals_lost (u : Classes) (h1 : u.space ' ' = true) (h2 : u.space '�' = false)
    (low : Char → Char) (hlow : ∀ c ∈ "test- ".toList, low c = c) (strings : List (List Char))
    (o : Opts) (ht : Tame u.space o fun key => ∃ w ∈ strings, key = w.map low)
    (hf : ∀ w ∈ strings, ∀ c ∈ w, low c ≠ '�') :
    ∃ pat r, toRegexOf u.space low strings false o = .ok pat ∧ parse pat = some r ∧
      ∀ text, (∃ c ∈ text, u.space c = false ∧ ∀ a, low a ≠ c) → ¬ FullMatch u r text := by
  obtain ⟨pat, r, hp, hr, hm⟩ := C156_to_regex u h1 h2 low hlow strings false o (by simpa using ht)
  refine ⟨pat, r, hp, hr, ?_⟩
  rintro text ⟨c, hc, hs, hl⟩ hfull
  obtain ⟨⟨w, hw, hall⟩, -⟩ := (hm text).mp hfull
  simp only [Bool.false_eq_true, if_false] at hall
  have key : ∀ (k : List Char) (t : List Char), (∀ c ∈ k, low c ≠ '�') →
      List.Forall₂ (Agrees u.space o.fuzzySpaces o.fffdAny) (k.map low) t → c ∉ t := by
    intro k
    induction k with
    | nil => intro t _ h; cases h; simp
    | cons a k ih =>
      intro t hk h
      simp only [List.map_cons] at h
      cases h with
      | @cons _ b _ t' hab hrest =>
        rw [List.mem_cons, not_or]
        refine ⟨?_, ih t' (fun c hc => hk c (by simp [hc])) hrest⟩
        rintro rfl
        rcases hab with h | ⟨-, -, h⟩ | ⟨-, h, -⟩
        · exact hl a h
        · rw [hs] at h; cases h
        · exact hk a (by simp) h
  exact key w text (hf w hw) hall hc

/-- Strings without whitespace and U+FFFD meet the conditions. -/
theorem tame_plain {space : Char → Bool} {o : Opts} {keys : List Char → Prop}
    (hne : ∃ key, keys key) (hk : ∀ key, keys key → ∀ c ∈ key, space c = false ∧ c ≠ '�') :
    Tame space o keys := by
  refine ⟨hne, ?_, ?_, ?_⟩
  · intro _ _ p x a b h _
    exact absurd rfl (hk _ h '�' (by simp)).2
  · intro _
    refine ⟨?_, ?_⟩
    · rintro a x y b h ⟨hx, -⟩
      rw [(hk _ h x (by simp)).1] at hx
      cases hx
    · intro a y b h hy
      rw [(hk _ h y (by simp)).1] at hy
      cases hy
  · intro _ _
    refine ⟨?_, ?_⟩
    · intro p x y a b h _ hx _
      rw [(hk _ h x (by simp)).1] at hx
      cases hx
    · intro p y a b c _ _ h hy
      rw [(hk _ h y (by simp)).1] at hy
      cases hy

/-- Lower-casing of two letters. -/
def lowAB (c : Char) : Char := if c = 'B' then 'b' else if c = 'A' then 'a' else c

/-- `to_regex(["Bob", "Al"])` matches "bob" but not "Bob". -/
example : ∃ pat r, toRegexOf ascii.space lowAB [['B', 'o', 'b'], ['A', 'l']] false {} =
      .ok pat ∧ parse pat = some r ∧ FullMatch ascii r ['b', 'o', 'b'] ∧
      ¬ FullMatch ascii r ['B', 'o', 'b'] := by
  have ht : Tame ascii.space {} fun key => ∃ w ∈ [['B', 'o', 'b'], ['A', 'l']],
      key = if false then w else w.map lowAB := by
    refine tame_plain ⟨['b', 'o', 'b'], ['B', 'o', 'b'], by simp, by decide⟩ ?_
    rintro key ⟨w, hw, rfl⟩
    simp only [List.mem_cons, List.not_mem_nil, or_false] at hw
    rcases hw with rfl | rfl <;> decide +kernel
  obtain ⟨pat, r, h1, h2, h3⟩ := C156_to_regex ascii (by decide +kernel) (by decide +kernel)
    lowAB (by decide) [['B', 'o', 'b'], ['A', 'l']] false {} ht
  refine ⟨pat, r, h1, h2, (h3 _).mpr ⟨⟨['B', 'o', 'b'], by simp, ?_⟩, by simp⟩, ?_⟩
  · exact .cons (Or.inl (by decide)) (.cons (Or.inl (by decide)) (.cons (Or.inl (by decide)) .nil))
  · obtain ⟨pat', r', h1', h2', h3'⟩ := C156_capitals_lost ascii (by decide +kernel)
      (by decide +kernel) lowAB (by decide) [['B', 'o', 'b'], ['A', 'l']] {}
      (by simpa using ht) (by decide)
    rw [h1] at h1'
    injection h1' with h1'
    subst h1'
    rw [h2] at h2'
    injection h2' with h2'
    subst h2'
    refine h3' _ ⟨'B', by simp, by decide +kernel, ?_⟩
    intro a ha
    unfold lowAB at ha
    split_ifs at ha with h h'
    · exact absurd ha (by decide)
    · exact absurd ha (by decide)
    · exact h ha

end Regex
end Verif
