import Verif.Index.TopK
import Verif.Index.Mean

/-!
# Histories of calls on a word list
-/

namespace Verif

open GramSpec IndexSpec

/-- A call on a `WordList` object. -/
inductive WLOp where
  | add (word : PyVal)
  | lookup (word topK : PyVal) (normalize : Bool)

/-- State after a call. `lookup` (nmd/nmd_index.py:526-634) reads the attributes only: every
dictionary access in it is a `.get(...)` or a subscript of a plain `dict`/`list`. -/
def WL.step (cf : List Char → List Char) (st : WL) : WLOp → WL
  | .add v => (st.addWord cf v).1
  | .lookup _ _ _ => st

/-- State after a sequence of calls, exceptions being caught by the caller. -/
def WL.run (cf : List Char → List Char) (st : WL) (ops : List WLOp) : WL :=
  ops.foldl (WL.step cf) st

/-- States reachable from the constructor. -/
def WL.Reachable (cf : List Char → List Char) (st : WL) : Prop :=
  ∃ n cs fn st₀ ops, WL.new n cs fn = .ok st₀ ∧ st = st₀.run cf ops

theorem run_append_singleton (cf : List Char → List Char) (st : WL) (ops : List WLOp) (op : WLOp) :
    st.run cf (ops ++ [op]) = (st.run cf ops).step cf op := by
  simp [WL.run]

theorem WLInv.run {cf : List Char → List Char} (hcf : ∀ w, cf (cf w) = cf w) {st : WL}
    (hi : WLInv cf st) (ops : List WLOp) : WLInv cf (st.run cf ops) := by
  induction ops using List.reverseRecOn with
  | nil => exact hi
  | append_singleton ops op ih =>
    rw [run_append_singleton]
    cases op with
    | add v => exact ih.addWord hcf v
    | lookup _ _ _ => exact ih

theorem WL.Reachable.inv {cf : List Char → List Char} (hcf : ∀ w, cf (cf w) = cf w) {st : WL}
    (h : st.Reachable cf) : WLInv cf st := by
  obtain ⟨n, cs, fn, st₀, ops, h0, rfl⟩ := h
  exact (WLInv.new h0).run hcf ops

theorem config_addWord {cf : List Char → List Char} (hcf : ∀ w, cf (cf w) = cf w) {st : WL}
    (hi : WLInv cf st) (v : PyVal) :
    (st.addWord cf v).1.nList = st.nList ∧ (st.addWord cf v).1.filterN = st.filterN ∧
      (st.addWord cf v).1.caseInsensitive = st.caseInsensitive := by
  rw [addWord_cases hcf hi]
  cases v with
  | int i => exact ⟨rfl, rfl, rfl⟩
  | other => exact ⟨rfl, rfl, rfl⟩
  | str w =>
    simp only
    split
    · exact ⟨rfl, rfl, rfl⟩
    split
    · exact ⟨rfl, rfl, rfl⟩
    split
    · exact ⟨rfl, rfl, rfl⟩
    split
    · exact ⟨rfl, rfl, rfl⟩
    · rw [inserted_eq]; exact ⟨rfl, rfl, rfl⟩

theorem config_run {cf : List Char → List Char} (hcf : ∀ w, cf (cf w) = cf w) {st : WL}
    (hi : WLInv cf st) (ops : List WLOp) :
    (st.run cf ops).nList = st.nList ∧ (st.run cf ops).filterN = st.filterN ∧
      (st.run cf ops).caseInsensitive = st.caseInsensitive := by
  induction ops using List.reverseRecOn with
  | nil => exact ⟨rfl, rfl, rfl⟩
  | append_singleton ops op ih =>
    rw [run_append_singleton]
    cases op with
    | lookup _ _ _ => exact ih
    | add v =>
      have := config_addWord hcf (hi.run hcf ops) v
      exact ⟨this.1.trans ih.1, this.2.1.trans ih.2.1, this.2.2.trans ih.2.2⟩

/-- `add_word(v)` adds or has the word `x`: `v` is a non-empty string whose folded form is the
non-empty, marker-free word `x`. -/
def Adds (cf : List Char → List Char) (caseInsensitive : Bool) (v : PyVal) (x : List Char) : Prop :=
  ∃ w, v = .str w ∧ w ≠ [] ∧ (if caseInsensitive then cf w else w) = x ∧ x ≠ [] ∧ Clean x

/-- `add_word` in terms of the set of words. -/
theorem addWord_words {cf : List Char → List Char} (hcf : ∀ w, cf (cf w) = cf w) {st : WL}
    (hi : WLInv cf st) (v : PyVal) :
    ((st.addWord cf v).2 = .ok () ↔ ∃ x, Adds cf st.caseInsensitive v x) ∧
    (∀ x, Adds cf st.caseInsensitive v x → (st.addWord cf v).1.wordList =
      if x ∈ st.wordList then st.wordList else st.wordList ++ [x]) ∧
    ((∀ x, ¬ Adds cf st.caseInsensitive v x) → (st.addWord cf v).1 = st) := by
  rw [addWord_cases hcf hi]
  cases v with
  | int i =>
    refine ⟨⟨fun h => (by cases h), ?_⟩, ?_, fun _ => rfl⟩
    · rintro ⟨x, w, h, _⟩; cases h
    · rintro x ⟨w, h, _⟩; cases h
  | other =>
    refine ⟨⟨fun h => (by cases h), ?_⟩, ?_, fun _ => rfl⟩
    · rintro ⟨x, w, h, _⟩; cases h
    · rintro x ⟨w, h, _⟩; cases h
  | str w =>
    have hA : ∀ x, Adds cf st.caseInsensitive (.str w) x ↔
        w ≠ [] ∧ st.fold cf w = x ∧ x ≠ [] ∧ Clean x := by
      intro x
      constructor
      · rintro ⟨w', h, h1⟩; injection h with h; subst h; exact h1
      · intro h; exact ⟨w, rfl, h⟩
    simp only [hA]
    by_cases h0 : w = []
    · rw [if_pos h0]
      exact ⟨⟨fun h => (by cases h), fun ⟨x, h, _⟩ => absurd h0 h⟩,
        fun x h => absurd h0 h.1, fun _ => rfl⟩
    rw [if_neg h0]
    by_cases h1 : st.fold cf w ∈ st.wordList
    · rw [if_pos h1]
      have := hi.words _ h1
      refine ⟨⟨fun _ => ⟨_, h0, rfl, this.2.1, this.1⟩, fun _ => rfl⟩, ?_, fun _ => rfl⟩
      rintro x ⟨_, rfl, _⟩
      rw [if_pos h1]
    rw [if_neg h1]
    by_cases h2 : ¬ ('\x02' ∉ st.fold cf w ∧ '\x03' ∉ st.fold cf w)
    · rw [if_pos h2]
      have hno : ∀ x, ¬ (w ≠ [] ∧ st.fold cf w = x ∧ x ≠ [] ∧ Clean x) := by
        rintro x ⟨_, rfl, _, hc⟩; exact h2 hc
      exact ⟨⟨fun h => (by cases h), fun ⟨x, h⟩ => absurd h (hno x)⟩,
        fun x h => absurd h (hno x), fun _ => rfl⟩
    rw [if_neg h2]
    by_cases h3 : st.fold cf w = []
    · rw [if_pos h3]
      have hno : ∀ x, ¬ (w ≠ [] ∧ st.fold cf w = x ∧ x ≠ [] ∧ Clean x) := by
        rintro x ⟨_, rfl, h, _⟩; exact h h3
      exact ⟨⟨fun h => (by cases h), fun ⟨x, h⟩ => absurd h (hno x)⟩,
        fun x h => absurd h (hno x), fun _ => rfl⟩
    rw [if_neg h3]
    rw [not_not] at h2
    refine ⟨⟨fun _ => ⟨_, h0, rfl, h3, h2⟩, fun _ => rfl⟩, ?_, ?_⟩
    · rintro x ⟨_, rfl, _⟩
      rw [if_neg h1]
      exact wordList_inserted st _
    · intro h; exact absurd ⟨h0, rfl, h3, h2⟩ (h (st.fold cf w))

end Verif
