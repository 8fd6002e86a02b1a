import Verif.Dawg.TextModel
import Verif.Dawg.RunLemmas
import Verif.File.Format

/-!
# The texts of nodes determine flag and edges
-/

namespace Verif
namespace Dawg

open File FileSpec

theorem digits_inj {m n : ℕ} (h : digits m = digits n) : m = n := by
  rw [← natOf_digits m, h, natOf_digits]

/-- A text of digits ends where the first other character stands. -/
theorem digits_cut {d d' s s' : List Char} (hd : ∀ c ∈ d, c.isDigit = true)
    (hd' : ∀ c ∈ d', c.isDigit = true) (hs : ∀ c ∈ s.head?, c.isDigit = false)
    (hs' : ∀ c ∈ s'.head?, c.isDigit = false) (h : d ++ s = d' ++ s') : d = d' ∧ s = s' := by
  induction d generalizing d' with
  | nil =>
    cases d' with
    | nil => exact ⟨rfl, h⟩
    | cons c d' =>
      rw [List.nil_append] at h
      have := hs c (by rw [h]; rfl)
      rw [hd' c List.mem_cons_self] at this
      cases this
  | cons c d ih =>
    cases d' with
    | nil =>
      rw [List.nil_append] at h
      have := hs' c (by rw [← h]; rfl)
      rw [hd c List.mem_cons_self] at this
      cases this
    | cons c' d' =>
      rw [List.cons_append, List.cons_append] at h
      injection h with h1 h2
      obtain ⟨e1, e2⟩ := ih (fun c hc => hd c (List.mem_cons_of_mem _ hc))
        (fun c hc => hd' c (List.mem_cons_of_mem _ hc)) h2
      exact ⟨by rw [h1, e1], e2⟩

/-! ### dawg-orig.py -/

/-- The part of `origText` after the flag. -/
def origEdges (edges : Dict Char ℕ) : List Char :=
  edges.flatMap fun e => '_' :: e.1 :: '_' :: digits e.2

theorem origEdges_head (es : Dict Char ℕ) : ∀ c ∈ (origEdges es).head?, c.isDigit = false := by
  cases es with
  | nil => simp [origEdges]
  | cons e es =>
    intro c hc
    simp only [origEdges, List.flatMap_cons, List.cons_append, List.head?_cons,
      Option.mem_def, Option.some.injEq] at hc
    rw [← hc]; rfl

theorem origEdges_inj {es es' : Dict Char ℕ} (h : origEdges es = origEdges es') : es = es' := by
  induction es generalizing es' with
  | nil =>
    cases es' with
    | nil => rfl
    | cons e es' => simp [origEdges] at h
  | cons e es ih =>
    cases es' with
    | nil => simp [origEdges] at h
    | cons e' es' =>
      obtain ⟨l, i⟩ := e
      obtain ⟨l', i'⟩ := e'
      have h' : '_' :: l :: '_' :: (digits i ++ origEdges es) =
          '_' :: l' :: '_' :: (digits i' ++ origEdges es') := h
      simp only [List.cons.injEq, true_and] at h'
      obtain ⟨h1, h2⟩ := h'
      obtain ⟨h3, h4⟩ := digits_cut (digits_isDigit i) (digits_isDigit i') (origEdges_head es)
        (origEdges_head es') h2
      rw [h1, digits_inj h3, ih h4]

theorem origText_inj {f f' : Bool} {es es' : Dict Char ℕ} (h : origText f es = origText f' es') :
    f = f' ∧ es = es' := by
  unfold origText at h
  injection h with h1 h2
  refine ⟨?_, origEdges_inj h2⟩
  cases f <;> cases f' <;> first | rfl | (exfalso; revert h1; decide)

/-! ### dawg.py -/

/-- The number written in hexadecimal digits. -/
def hexVal (l : List Char) : ℕ :=
  l.foldl (fun n c => 16 * n + (if c.isDigit then c.toNat - 48 else c.toNat - 87)) 0

theorem hexDigit_val {d : ℕ} (h : d < 16) :
    (if (hexDigit d).isDigit then (hexDigit d).toNat - 48 else (hexDigit d).toNat - 87) = d := by
  interval_cases d <;> rfl

theorem hexVal_hexPad (k : ℕ) : ∀ n, n < 16 ^ k → hexVal (hexPad k n) = n := by
  induction k with
  | zero => intro n hn; simp at hn; subst hn; rfl
  | succ k ih =>
    intro n hn
    have h1 := ih (n / 16) (by rw [pow_succ] at hn; omega)
    unfold hexVal at h1 ⊢
    rw [hexPad, List.foldl_append, h1, List.foldl_cons, List.foldl_nil,
      hexDigit_val (Nat.mod_lt _ (by norm_num))]
    omega

theorem length_hexPad (k n : ℕ) : (hexPad k n).length = k := by
  induction k generalizing n with
  | zero => rfl
  | succ k ih => rw [hexPad, List.length_append, ih]; rfl

/-- Reading the body of a `repr` back: the character and the rest of the text. -/
def readBody : List Char → Option (ℕ × List Char)
  | '\\' :: '\\' :: s => some ('\\'.toNat, s)
  | '\\' :: 't' :: s => some ('\t'.toNat, s)
  | '\\' :: 'n' :: s => some ('\n'.toNat, s)
  | '\\' :: 'r' :: s => some ('\r'.toNat, s)
  | '\\' :: 'x' :: s => some (hexVal (s.take 2), s.drop 2)
  | '\\' :: 'u' :: s => some (hexVal (s.take 4), s.drop 4)
  | '\\' :: 'U' :: s => some (hexVal (s.take 8), s.drop 8)
  | c :: s => some (c.toNat, s)
  | [] => none

theorem char_lt (c : Char) : c.toNat < 1114112 := by
  have := c.valid
  unfold Char.toNat
  rcases this with h | h
  · have : c.val.toNat < 55296 := h
    omega
  · exact h.2

theorem readBody_repr (printable : Char → Bool) (c : Char) (s : List Char) :
    readBody (reprBody printable c ++ s) = some (c.toNat, s) := by
  unfold reprBody
  split_ifs with h1 h2 h3 h4 h5 h6 h7
  · subst h1; rfl
  · subst h2; rfl
  · subst h3; rfl
  · subst h4; rfl
  · rw [List.singleton_append]
    unfold readBody
    split <;> simp_all
  · simp only [List.cons_append, readBody]
    rw [List.take_left' (length_hexPad 2 _), List.drop_left' (length_hexPad 2 _),
      hexVal_hexPad 2 _ (by norm_num; omega)]
  · simp only [List.cons_append, readBody]
    rw [List.take_left' (length_hexPad 4 _), List.drop_left' (length_hexPad 4 _),
      hexVal_hexPad 4 _ (by norm_num; omega)]
  · simp only [List.cons_append, readBody]
    have := char_lt c
    rw [List.take_left' (length_hexPad 8 _), List.drop_left' (length_hexPad 8 _),
      hexVal_hexPad 8 _ (by norm_num; omega)]

theorem reprChar_cut (printable : Char → Bool) {c c' : Char} {s s' : List Char}
    (h : reprChar printable c ++ s = reprChar printable c' ++ s') : c = c' ∧ s = s' := by
  unfold reprChar at h
  simp only [List.cons_append, List.append_assoc, List.cons.injEq] at h
  have := congrArg readBody h.2
  rw [readBody_repr, readBody_repr] at this
  simp only [Option.some.injEq, Prod.mk.injEq, List.cons.injEq] at this
  obtain ⟨h1, -, h2⟩ := this
  refine ⟨?_, h2⟩
  exact Char.ext (UInt32.toNat_inj.1 h1)

theorem edgeInfo_inj (printable : Char → Bool) {es es' : List (Char × ℕ)}
    (h : edgeInfo printable es = edgeInfo printable es') : es = es' := by
  induction es generalizing es' with
  | nil =>
    cases es' with
    | nil => rfl
    | cons e es' => simp [edgeInfo] at h
  | cons e es ih =>
    cases es' with
    | nil => simp [edgeInfo] at h
    | cons e' es' =>
      obtain ⟨l, i⟩ := e
      obtain ⟨l', i'⟩ := e'
      have h' : ' ' :: (reprChar printable l ++ (':' :: ' ' :: (digits i ++ (',' ::
          edgeInfo printable es)))) = ' ' :: (reprChar printable l' ++ (':' :: ' ' :: (digits i' ++
          (',' :: edgeInfo printable es')))) := by
        simpa [edgeInfo] using h
      injection h' with _ h'
      obtain ⟨h1, h2⟩ := reprChar_cut printable h'
      injection h2 with _ h2
      injection h2 with _ h2
      obtain ⟨h3, h4⟩ := digits_cut (digits_isDigit i) (digits_isDigit i')
        (by intro c hc; simp only [List.head?_cons, Option.mem_def, Option.some.injEq] at hc
            rw [← hc]; rfl)
        (by intro c hc; simp only [List.head?_cons, Option.mem_def, Option.some.injEq] at hc
            rw [← hc]; rfl) h2
      injection h4 with _ h4
      rw [h1, digits_inj h3, ih h4]

/-- A non-empty `edge_info` starts with a blank, ends with a comma and has something between. -/
theorem edgeInfo_ends (printable : Char → Bool) (e : Char × ℕ) (es : List (Char × ℕ)) :
    ∃ t, t ≠ [] ∧ edgeInfo printable (e :: es) = ' ' :: (t ++ [',']) := by
  induction es generalizing e with
  | nil =>
    refine ⟨reprChar printable e.1 ++ (':' :: ' ' :: digits e.2), by simp [reprChar], ?_⟩
    simp [edgeInfo]
  | cons f es ih =>
    obtain ⟨t, _, ht⟩ := ih f
    refine ⟨reprChar printable e.1 ++ (':' :: ' ' :: (digits e.2 ++ ',' :: ' ' :: t)),
      by simp [reprChar], ?_⟩
    have : edgeInfo printable (e :: f :: es) = (' ' :: reprChar printable e.1 ++
      ([':', ' '] ++ digits e.2 ++ [','])) ++ edgeInfo printable (f :: es) := rfl
    rw [this, ht]
    simp

theorem edgeSlice_inj (printable : Char → Bool) {es es' : List (Char × ℕ)}
    (h : ((edgeInfo printable es).drop 1).dropLast = ((edgeInfo printable es').drop 1).dropLast) :
    es = es' := by
  cases es with
  | nil =>
    cases es' with
    | nil => rfl
    | cons e' es' =>
      obtain ⟨t, ht, e⟩ := edgeInfo_ends printable e' es'
      rw [e] at h
      simp [edgeInfo] at h
      exact absurd h.symm (by simpa using ht)
  | cons e es =>
    obtain ⟨t, ht, e1⟩ := edgeInfo_ends printable e es
    cases es' with
    | nil =>
      rw [e1] at h
      simp [edgeInfo] at h
      exact absurd h (by simpa using ht)
    | cons e' es' =>
      obtain ⟨t', ht', e2⟩ := edgeInfo_ends printable e' es'
      apply edgeInfo_inj printable
      rw [e1, e2] at h ⊢
      simp at h
      rw [h]

theorem nodeText_inj (printable : Char → Bool) {n n' : Node Char}
    (h : n.text printable = n'.text printable) : n.key = n'.key := by
  unfold Node.text at h
  have hf : n.terminal = n'.terminal := by
    have := congrArg (fun l => l[18]?) h
    cases h1 : n.terminal <;> cases h2 : n'.terminal <;> simp [h1, h2] at this ⊢
  rw [hf] at h
  simp only [List.append_assoc, List.append_cancel_left_eq] at h
  have h' := List.append_cancel_right h
  unfold Node.key
  rw [hf, edgeSlice_inj printable h']

theorem nodeText_eq_iff (printable : Char → Bool) (n n' : Node Char) :
    n.text printable = n'.text printable ↔ n.key = n'.key := by
  refine ⟨nodeText_inj printable, fun h => ?_⟩
  unfold Node.key at h
  simp only [Prod.mk.injEq] at h
  unfold Node.text
  rw [h.1, h.2]

end Dawg
end Verif
