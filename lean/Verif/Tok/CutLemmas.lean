import Verif.Tok.Spec
import Mathlib.Data.List.Basic
import Mathlib.Data.List.Chain
import Mathlib.Tactic.Ring
import Mathlib.Tactic.Linarith

/-!
# The tokeniser loops
-/

namespace Verif
namespace Tok

open TokSpec

/-! ## The tables of the code and of the specification -/

theorem isTextChar_eq (cat : ℕ → Cat) (c : ℕ) : isTextChar cat c = IsText cat c := by
  unfold isTextChar IsText
  cases cat c <;> rfl

theorem mem_unicodeSpaces {c : ℕ} : c ∈ unicodeSpaces ↔ c ∈ spaces := by
  have h1 : ∀ c ∈ unicodeSpaces, c ∈ spaces := by decide +kernel
  have h2 : ∀ c ∈ spaces, c ∈ unicodeSpaces := by decide +kernel
  exact ⟨h1 c, h2 c⟩

theorem stripChars_eq : stripChars = blanks := by decide +kernel

theorem apostrophes_eq : apostrophes = apostropheMarks := by decide +kernel

theorem closingPunctuation_eq : closingPunctuation = closingMarks := by decide +kernel

theorem closers_eq : closers = closingBrackets := by decide +kernel


/-- Positions and non-emptiness, from position `p` on. -/
def Starts : ℕ → List Token → Prop
  | _, [] => True
  | p, t :: ts => t.start = p ∧ t.text ≠ [] ∧ Starts (p + t.text.length) ts

theorem textOf_nil : textOf [] = [] := rfl

theorem textOf_cons (t : Token) (ts : List Token) : textOf (t :: ts) = t.text ++ textOf ts := by
  simp [textOf]

theorem textOf_append (a b : List Token) : textOf (a ++ b) = textOf a ++ textOf b := by
  simp [textOf]

theorem starts_append {p : ℕ} {a b : List Token} :
    Starts p (a ++ b) ↔ Starts p a ∧ Starts (p + (textOf a).length) b := by
  induction a generalizing p with
  | nil => simp [Starts, textOf]
  | cons t ts ih =>
    simp only [List.cons_append, Starts, ih, textOf_cons, List.length_append, Nat.add_assoc]
    tauto

theorem starts_iff {p : ℕ} {ts : List Token} :
    Starts p ts ↔ (∀ t ∈ ts, t.text ≠ []) ∧
      ∀ k t, ts[k]? = some t → t.start = p + (textOf (ts.take k)).length := by
  induction ts generalizing p with
  | nil => simp [Starts]
  | cons t ts ih =>
    simp only [Starts, ih, List.forall_mem_cons]
    constructor
    · rintro ⟨h1, h2, h3, h4⟩
      refine ⟨⟨h2, h3⟩, ?_⟩
      intro k u hk
      cases k with
      | zero => simp only [List.getElem?_cons_zero, Option.some.injEq] at hk; subst hk; simp [h1, textOf]
      | succ k =>
        have := h4 k u (by simpa using hk)
        rw [this, List.take_succ_cons, textOf_cons, List.length_append, Nat.add_assoc]
    · rintro ⟨⟨h2, h3⟩, h4⟩
      refine ⟨by simpa [textOf] using h4 0 t rfl, h2, h3, ?_⟩
      intro k u hk
      have := h4 (k + 1) u (by simpa using hk)
      rw [this, List.take_succ_cons, textOf_cons, List.length_append, Nat.add_assoc]

theorem lossless_iff {text : List ℕ} {ts : List Token} :
    Lossless text ts ↔ textOf ts = text ∧ Starts 0 ts := by
  rw [starts_iff]
  constructor
  · rintro ⟨h1, h2, h3⟩
    exact ⟨h1, h2, by simpa using h3⟩
  · rintro ⟨h1, h2, h3⟩
    exact ⟨h1, h2, by simpa using h3⟩

theorem starts_shift {p d : ℕ} {ts : List Token} (h : Starts p ts) :
    Starts (p + d) (ts.map (shift d)) := by
  induction ts generalizing p with
  | nil => trivial
  | cons t ts ih =>
    obtain ⟨h1, h2, h3⟩ := h
    refine ⟨by simp [shift, h1], h2, ?_⟩
    have := ih h3
    rwa [Nat.add_right_comm] at this

theorem textOf_shift (d : ℕ) (ts : List Token) : textOf (ts.map (shift d)) = textOf ts := by
  simp only [textOf, List.map_map]
  rfl

/-! ## The loop over all tokens -/

abbrev Apart (ts : List Token) : Prop :=
  ts.IsChain fun a b => ¬ (a.category = .WORD ∧ b.category = .WORD)

variable {cat : ℕ → Cat}

theorem textOf_flushTok (buf : List ℕ) (s : ℕ) : textOf (flushTok buf s) = buf := by
  unfold flushTok
  cases buf <;> simp [textOf]

theorem loop_textOf (cs : List ℕ) (idx : ℕ) (buf : List ℕ) (start : ℕ) :
    textOf (allTokensLoop cat cs idx buf start) = buf ++ cs := by
  induction cs generalizing idx buf start with
  | nil => simp [allTokensLoop, textOf_flushTok]
  | cons c cs ih =>
    unfold allTokensLoop
    split_ifs with h1 h2 h3
    · rw [ih]; simp_all
    · rw [ih]; simp
    · rw [textOf_append, textOf_flushTok, textOf_cons, ih]; simp
    · rw [textOf_append, textOf_flushTok, textOf_cons, ih]; simp

theorem starts_flushTok {p : ℕ} {buf : List ℕ} {start : ℕ} (h : buf ≠ [] → start = p) :
    Starts p (flushTok buf start) := by
  unfold flushTok
  cases buf with
  | nil => simp [Starts]
  | cons b bs => simp [Starts, h]

theorem loop_starts (cs : List ℕ) (idx : ℕ) (buf : List ℕ) (start p : ℕ)
    (hp : p + buf.length = idx) (hs : buf ≠ [] → start = p) :
    Starts p (allTokensLoop cat cs idx buf start) := by
  induction cs generalizing idx buf start p with
  | nil => exact starts_flushTok hs
  | cons c cs ih =>
    unfold allTokensLoop
    split_ifs with h1 h2 h3
    · have hb : buf = [] := by simpa using h2
      subst hb
      exact ih _ _ _ _ (by simp at hp ⊢; omega) (fun _ => by simp at hp; omega)
    · have hb : buf ≠ [] := by simpa using h2
      exact ih _ _ _ _ (by simp; omega) (fun _ => hs hb)
    · rw [starts_append, textOf_flushTok]
      exact ⟨starts_flushTok hs, hp.symm, by simp,
        ih _ _ _ _ (by simp; omega) (fun h => absurd rfl h)⟩
    · rw [starts_append, textOf_flushTok]
      exact ⟨starts_flushTok hs, hp.symm, by simp,
        ih _ _ _ _ (by simp; omega) (fun h => absurd rfl h)⟩

theorem shape_flushTok {buf : List ℕ} {start : ℕ} (hb : ∀ c ∈ buf, IsText cat c = true) :
    ∀ t ∈ flushTok buf start, Shape (IsText cat) t := by
  unfold flushTok
  cases buf with
  | nil => simp
  | cons b bs =>
    intro t ht
    simp only [List.isEmpty_cons, Bool.false_eq_true, if_false, List.mem_singleton] at ht
    subst ht
    exact Or.inl ⟨rfl, by simp, hb⟩

theorem loop_shape (cs : List ℕ) (idx : ℕ) (buf : List ℕ) (start : ℕ)
    (hb : ∀ c ∈ buf, IsText cat c = true) :
    ∀ t ∈ allTokensLoop cat cs idx buf start, Shape (IsText cat) t := by
  induction cs generalizing idx buf start with
  | nil => exact shape_flushTok hb
  | cons c cs ih =>
    unfold allTokensLoop
    rw [isTextChar_eq]
    split_ifs with h1 h2 h3
    · exact ih _ _ _ (by simpa using h1)
    · refine ih _ _ _ ?_
      intro d hd
      rcases List.mem_append.mp hd with h | h
      · exact hb d h
      · rw [List.mem_singleton.mp h]; exact h1
    · intro t ht
      rcases List.mem_append.mp ht with h | h
      · exact shape_flushTok hb t h
      · rcases List.mem_cons.mp h with h | h
        · subst h
          refine Or.inr ⟨c, rfl, by simpa using h1, ?_⟩
          rw [if_pos (by simpa [isSpaceChar, mem_unicodeSpaces] using h3)]
        · exact ih _ _ _ (by simp) t h
    · intro t ht
      rcases List.mem_append.mp ht with h | h
      · exact shape_flushTok hb t h
      · rcases List.mem_cons.mp h with h | h
        · subst h
          refine Or.inr ⟨c, rfl, by simpa using h1, ?_⟩
          rw [if_neg (by simpa [isSpaceChar, mem_unicodeSpaces] using h3)]
        · exact ih _ _ _ (by simp) t h

theorem apart_sep {a : List Token} {t : Token} {b : List Token} (ha : Apart a) (hb : Apart b)
    (ht : t.category ≠ .WORD) : Apart (a ++ t :: b) := by
  unfold Apart at *
  rw [List.isChain_append]
  refine ⟨ha, ?_, ?_⟩
  · cases b with
    | nil => simp
    | cons u us =>
      rw [List.isChain_cons_cons]
      exact ⟨fun h => ht h.1, hb⟩
  · intro x _ y hy
    simp only [List.head?_cons, Option.mem_def, Option.some.injEq] at hy
    subst hy
    exact fun h => ht h.2

theorem apart_flushTok (buf : List ℕ) (start : ℕ) : Apart (flushTok buf start) := by
  unfold flushTok Apart
  split_ifs <;> simp

theorem loop_apart (cs : List ℕ) (idx : ℕ) (buf : List ℕ) (start : ℕ) :
    Apart (allTokensLoop cat cs idx buf start) := by
  induction cs generalizing idx buf start with
  | nil => exact apart_flushTok _ _
  | cons c cs ih =>
    unfold allTokensLoop
    split_ifs with h1 h2 h3
    · exact ih _ _ _
    · exact ih _ _ _
    · exact apart_sep (apart_flushTok _ _) (ih _ _ _) (by simp)
    · exact apart_sep (apart_flushTok _ _) (ih _ _ _) (by simp)

theorem allTokens_wellCut (cat : ℕ → Cat) (text : List ℕ) :
    WellCut (IsText cat) text (allTokens cat text) :=
  ⟨lossless_iff.mpr ⟨loop_textOf _ _ _ _, loop_starts _ _ _ _ _ rfl (fun h => absurd rfl h)⟩,
    loop_shape _ _ _ _ (by simp), loop_apart _ _ _ _⟩

/-! ## Uniqueness -/

/-- A list of tokens starting with something that is no word starts with a non-text character. -/
theorem head_of_shape {isText : ℕ → Bool} {ts : List Token} (hs : ∀ t ∈ ts, Shape isText t)
    (hh : ∀ t, ts.head? = some t → t.category ≠ .WORD) :
    ∀ c, (textOf ts).head? = some c → isText c = false := by
  intro c hc
  cases ts with
  | nil => simp [textOf] at hc
  | cons t ts =>
    rcases hs t (by simp) with h | ⟨d, hd, hd', -⟩
    · exact absurd h.1 (hh t rfl)
    · rw [textOf_cons, hd] at hc
      simp only [List.cons_append, List.head?_cons, Option.some.injEq] at hc
      rw [← hc]; exact hd'

theorem run_unique {isText : ℕ → Bool} {w1 w2 r1 r2 : List ℕ} (h : w1 ++ r1 = w2 ++ r2)
    (h1 : ∀ c ∈ w1, isText c = true) (h2 : ∀ c ∈ w2, isText c = true)
    (g1 : ∀ c, r1.head? = some c → isText c = false)
    (g2 : ∀ c, r2.head? = some c → isText c = false) : w1 = w2 ∧ r1 = r2 := by
  induction w1 generalizing w2 with
  | nil =>
    cases w2 with
    | nil => exact ⟨rfl, h⟩
    | cons c w2 =>
      have h' : r1 = c :: (w2 ++ r2) := h
      have := g1 c (by rw [h']; rfl)
      rw [h2 c (by simp)] at this
      cases this
  | cons c w1 ih =>
    cases w2 with
    | nil =>
      have h' : c :: (w1 ++ r1) = r2 := h
      have := g2 c (by rw [← h']; rfl)
      rw [h1 c (by simp)] at this
      cases this
    | cons d w2 =>
      simp only [List.cons_append, List.cons.injEq] at h
      obtain ⟨rfl, h⟩ := h
      obtain ⟨rfl, rfl⟩ := ih h (fun x hx => h1 x (by simp [hx])) (fun x hx => h2 x (by simp [hx]))
      exact ⟨rfl, rfl⟩

theorem apart_head {t : Token} {ts : List Token} (h : Apart (t :: ts)) (ht : t.category = .WORD) :
    ∀ u, ts.head? = some u → u.category ≠ .WORD := by
  intro u hu hw
  cases ts with
  | nil => simp at hu
  | cons v vs =>
    simp only [List.head?_cons, Option.some.injEq] at hu
    subst hu
    unfold Apart at h
    rw [List.isChain_cons_cons] at h
    exact h.1 ⟨ht, hw⟩

theorem apart_tail {t : Token} {ts : List Token} (h : Apart (t :: ts)) : Apart ts := by
  unfold Apart at *
  exact h.tail

theorem cut_unique {isText : ℕ → Bool} {ts us : List Token} {p : ℕ} (ht : textOf ts = textOf us)
    (hs : ∀ t ∈ ts, Shape isText t) (hu : ∀ t ∈ us, Shape isText t) (ha : Apart ts) (hb : Apart us)
    (hp : Starts p ts) (hq : Starts p us) : ts = us := by
  induction ts generalizing us p with
  | nil =>
    cases us with
    | nil => rfl
    | cons u us =>
      rw [textOf_cons] at ht
      exact absurd (List.append_eq_nil_iff.mp ht.symm).1 hq.2.1
  | cons t ts ih =>
    cases us with
    | nil =>
      rw [textOf_cons] at ht
      exact absurd (List.append_eq_nil_iff.mp ht).1 hp.2.1
    | cons u us =>
      rw [textOf_cons, textOf_cons] at ht
      have key : t.text = u.text ∧ textOf ts = textOf us ∧ t.category = u.category := by
        rcases hs t (by simp) with ⟨h1, h2, h3⟩ | ⟨c, h1, h2, h3⟩ <;>
        rcases hu u (by simp) with ⟨g1, g2, g3⟩ | ⟨d, g1, g2, g3⟩
        · obtain ⟨k1, k2⟩ := run_unique ht h3 g3
            (head_of_shape (fun x hx => hs x (by simp [hx])) (apart_head ha h1))
            (head_of_shape (fun x hx => hu x (by simp [hx])) (apart_head hb g1))
          exact ⟨k1, k2, h1.trans g1.symm⟩
        · exfalso
          obtain ⟨c, w, hw⟩ := List.exists_cons_of_ne_nil h2
          rw [hw, g1] at ht
          simp only [List.cons_append, List.cons.injEq] at ht
          have := h3 c (by simp [hw])
          rw [ht.1, g2] at this
          cases this
        · exfalso
          obtain ⟨d, w, hw⟩ := List.exists_cons_of_ne_nil g2
          rw [hw, h1] at ht
          simp only [List.cons_append, List.cons.injEq] at ht
          have := g3 d (by simp [hw])
          rw [← ht.1, h2] at this
          cases this
        · rw [h1, g1] at ht
          simp only [List.cons_append, List.nil_append, List.cons.injEq] at ht
          obtain ⟨rfl, ht⟩ := ht
          exact ⟨h1.trans g1.symm, ht, h3.trans g3.symm⟩
      obtain ⟨k1, k2, k3⟩ := key
      have hr := ih k2 (fun x hx => hs x (by simp [hx])) (fun x hx => hu x (by simp [hx]))
        (apart_tail ha) (apart_tail hb) hp.2.2 (by rw [k1]; exact hq.2.2)
      rw [hr]
      congr 1
      cases t; cases u
      simp only [Token.mk.injEq]
      exact ⟨k1, hp.1.trans hq.1.symm, k3⟩

theorem wellCut_unique {isText : ℕ → Bool} {text : List ℕ} {ts us : List Token}
    (h1 : WellCut isText text ts) (h2 : WellCut isText text us) : ts = us := by
  obtain ⟨a1, b1⟩ := lossless_iff.mp h1.lossless
  obtain ⟨a2, b2⟩ := lossless_iff.mp h2.lossless
  exact cut_unique (a1.trans a2.symm) h1.shape h2.shape h1.apart h2.apart b1 b2

theorem shape_shift {isText : ℕ → Bool} {d : ℕ} {t : Token} (h : Shape isText t) :
    Shape isText (shift d t) := h

theorem apart_shift {d : ℕ} {ts : List Token} (h : Apart ts) : Apart (ts.map (shift d)) := by
  unfold Apart at *
  rw [List.isChain_map]
  exact h

/-- Putting two well-cut pieces side by side, when no two words meet. -/
theorem wellCut_append {isText : ℕ → Bool} {a b : List ℕ} {ts us : List Token}
    (h1 : WellCut isText a ts) (h2 : WellCut isText b us)
    (hm : ∀ t u, ts.getLast? = some t → us.head? = some u →
      ¬ (t.category = .WORD ∧ u.category = .WORD)) :
    WellCut isText (a ++ b) (ts ++ us.map (shift a.length)) := by
  obtain ⟨a1, b1⟩ := lossless_iff.mp h1.lossless
  obtain ⟨a2, b2⟩ := lossless_iff.mp h2.lossless
  refine ⟨lossless_iff.mpr ⟨?_, ?_⟩, ?_, ?_⟩
  · rw [textOf_append, textOf_shift, a1, a2]
  · rw [starts_append]
    refine ⟨b1, ?_⟩
    rw [a1]
    exact starts_shift b2
  · intro t ht
    rcases List.mem_append.mp ht with h | h
    · exact h1.shape t h
    · obtain ⟨u, hu, rfl⟩ := List.mem_map.mp h
      exact shape_shift (h2.shape u hu)
  · rw [List.isChain_append]
    refine ⟨h1.apart, apart_shift h2.apart, ?_⟩
    intro x hx y hy
    rw [List.head?_map, Option.mem_def, Option.map_eq_some_iff] at hy
    obtain ⟨u, hu, rfl⟩ := hy
    exact hm x u hx hu

theorem wellCut_word {isText : ℕ → Bool} {w : List ℕ} (h0 : w ≠ []) (h : ∀ c ∈ w, isText c = true) :
    WellCut isText w [⟨w, 0, .WORD⟩] := by
  refine ⟨lossless_iff.mpr ⟨by simp [textOf], rfl, h0, trivial⟩, ?_, by simp⟩
  intro t ht
  rw [List.mem_singleton.mp ht]
  exact Or.inl ⟨rfl, h0, h⟩

theorem wellCut_sep {isText : ℕ → Bool} {c : ℕ} (h : isText c = false) :
    WellCut isText [c] [⟨[c], 0, if c ∈ spaces then .WHITESPACE else .PUNCTUATION⟩] := by
  refine ⟨lossless_iff.mpr ⟨by simp [textOf], rfl, by simp, trivial⟩, ?_, by simp⟩
  intro t ht
  rw [List.mem_singleton.mp ht]
  exact Or.inr ⟨c, rfl, h, rfl⟩

/-- The last character of a list of tokens that ends in a word is a text character. -/
theorem last_of_word {isText : ℕ → Bool} {text : List ℕ} {ts : List Token} {t : Token}
    (h : WellCut isText text ts) (hl : ts.getLast? = some t) (hw : t.category = .WORD) :
    ∃ c, text.getLast? = some c ∧ isText c = true := by
  obtain ⟨ys, rfl⟩ := List.getLast?_eq_some_iff.mp hl
  rcases h.shape t (by simp) with ⟨-, h2, h3⟩ | ⟨c, -, -, hc⟩
  · refine ⟨t.text.getLast h2, ?_, h3 _ (List.getLast_mem h2)⟩
    rw [← h.lossless.text_eq, textOf_append, textOf_cons, textOf_nil, List.append_nil,
      List.getLast?_append_of_ne_nil _ h2, List.getLast?_eq_some_getLast h2]
  · rw [hw] at hc; split_ifs at hc

theorem first_of_word {isText : ℕ → Bool} {text : List ℕ} {ts : List Token} {t : Token}
    (h : WellCut isText text ts) (hl : ts.head? = some t) (hw : t.category = .WORD) :
    ∃ c, text.head? = some c ∧ isText c = true := by
  cases ts with
  | nil => simp at hl
  | cons u us =>
    simp only [List.head?_cons, Option.some.injEq] at hl
    subst hl
    rcases h.shape u (by simp) with ⟨-, h2, h3⟩ | ⟨c, -, -, hc⟩
    · obtain ⟨c, w, hcw⟩ := List.exists_cons_of_ne_nil h2
      refine ⟨c, ?_, h3 c (by simp [hcw])⟩
      rw [← h.lossless.text_eq, textOf_cons, hcw]
      rfl
    · rw [hw] at hc; split_ifs at hc

theorem not_word_of_shape {isText : ℕ → Bool} {t : Token} (h : Shape isText t)
    (hw : t.category ≠ .WORD) : ∃ c, t.text = [c] ∧ isText c = false := by
  rcases h with h | ⟨c, h1, h2, -⟩
  · exact absurd h.1 hw
  · exact ⟨c, h1, h2⟩

/-- The words are the maximal runs. -/
theorem word_iff_run {isText : ℕ → Bool} {text : List ℕ} {ts : List Token}
    (h : WellCut isText text ts)
    (hex : ∀ x, ∃ us, WellCut isText x us) (w : List ℕ) (p : ℕ) :
    (⟨w, p, .WORD⟩ : Token) ∈ ts ↔ MaximalRun isText text w p := by
  constructor
  · intro hm
    obtain ⟨a, b, rfl⟩ := List.append_of_mem hm
    obtain ⟨h1, h2⟩ := lossless_iff.mp h.lossless
    have hap := h.apart
    rw [List.isChain_append] at hap
    obtain ⟨ha, htb, hj⟩ := hap
    rw [textOf_append, textOf_cons] at h1
    rw [starts_append] at h2
    obtain ⟨hsa, hst, hne, hsb⟩ := h2
    refine ⟨textOf a, textOf b, by rw [← h1, List.append_assoc], by simpa using hst.symm, hne,
      ?_, ?_, ?_⟩
    · rcases h.shape ⟨w, p, .WORD⟩ hm with h3 | ⟨c, -, -, hc⟩
      · exact h3.2.2
      · simp only at hc; split_ifs at hc
    · intro c hc
      rcases List.eq_nil_or_concat a with rfl | ⟨a', t, rfl⟩
      · simp [textOf] at hc
      · have ht : t.category ≠ .WORD := by
          intro hw
          exact hj t (by simp) ⟨w, p, .WORD⟩ (by simp) ⟨hw, rfl⟩
        obtain ⟨d, hd, hd'⟩ := not_word_of_shape (h.shape t (by simp)) ht
        rw [List.concat_eq_append, textOf_append, textOf_cons, hd, textOf_nil, List.append_nil,
          List.getLast?_concat] at hc
        rw [← Option.some.inj hc]; exact hd'
    · refine head_of_shape (fun x hx => h.shape x (by simp [hx])) ?_
      exact apart_head (t := ⟨w, p, .WORD⟩) htb rfl
  · rintro ⟨pre, post, rfl, rfl, hne, hall, hpre, hpost⟩
    obtain ⟨ts1, c1⟩ := hex pre
    obtain ⟨ts3, c3⟩ := hex post
    have c2 := wellCut_word hne hall
    have c12 := wellCut_append c1 c2 (by
      rintro t u ht hu ⟨hw, -⟩
      obtain ⟨c, hc, hc'⟩ := last_of_word c1 ht hw
      rw [hpre c hc] at hc'
      cases hc')
    have c123 := wellCut_append c12 c3 (by
      rintro t u ht hu ⟨-, hw⟩
      obtain ⟨c, hc, hc'⟩ := first_of_word c3 hu hw
      rw [hpost c hc] at hc'
      cases hc')
    rw [wellCut_unique h c123]
    simp [shift]

/-- Tokenising around a separator. -/
theorem allTokens_sep (cat : ℕ → Cat) (a b : List ℕ) (c : ℕ) (hc : IsText cat c = false) :
    allTokens cat (a ++ c :: b) = allTokens cat a ++
      ⟨[c], a.length, if c ∈ spaces then .WHITESPACE else .PUNCTUATION⟩ ::
      (allTokens cat b).map (shift (a.length + 1)) := by
  have c12 := wellCut_append (allTokens_wellCut cat a) (wellCut_sep hc) (by
    rintro t u ht hu ⟨-, hw⟩
    simp only [List.head?_cons, Option.some.injEq] at hu
    subst hu
    simp only at hw
    split_ifs at hw)
  have c123 := wellCut_append c12 (allTokens_wellCut cat b) (by
    rintro t u ht hu ⟨hw, -⟩
    rw [List.map_singleton, List.getLast?_concat, Option.some.injEq] at ht
    subst ht
    simp only [shift] at hw
    split_ifs at hw)
  have := wellCut_unique (allTokens_wellCut cat (a ++ [c] ++ b)) c123
  rw [List.append_assoc, List.singleton_append] at this
  rw [this]
  simp [shift]

/-! ## The other loops -/

theorem wordTokensLoop_eq (cs : List ℕ) (idx : ℕ) (buf : List ℕ) (start : ℕ) :
    wordTokensLoop cat cs idx buf start =
      (allTokensLoop cat cs idx buf start).filter fun t => t.category == .WORD := by
  induction cs generalizing idx buf start with
  | nil => cases buf <;> rfl
  | cons c cs ih =>
    unfold wordTokensLoop allTokensLoop
    split_ifs with h1 h2 h3 h4 h5
    · exact ih _ _ _
    · exact ih _ _ _
    · rw [ih]
      have : buf = [] := by simpa using h3
      subst this
      rfl
    · rw [ih]
      have : buf = [] := by simpa using h3
      subst this
      rfl
    · rw [ih]
      cases buf with
      | nil => simp at h3
      | cons b bs => rfl
    · rw [ih]
      cases buf with
      | nil => simp at h3
      | cons b bs => rfl

theorem allStringsLoop_eq (cs : List ℕ) (idx : ℕ) (buf : List ℕ) (start : ℕ) :
    allStringsLoop cat cs buf = (allTokensLoop cat cs idx buf start).map Token.text := by
  induction cs generalizing idx buf start with
  | nil => cases buf <;> rfl
  | cons c cs ih =>
    unfold allStringsLoop allTokensLoop
    split_ifs with h1 h2 h3 h4 h5
    · have : buf = [] := by simpa using h2
      subst this
      exact ih _ _ _
    · exact ih _ _ _
    all_goals
      cases buf with
      | nil => simp_all [flushTok, ← ih]
      | cons b bs => simp_all [flushTok, ← ih]

theorem wordStringsLoop_eq (cs : List ℕ) (idx : ℕ) (buf : List ℕ) (start : ℕ) :
    wordStringsLoop cat cs buf = (wordTokensLoop cat cs idx buf start).map Token.text := by
  induction cs generalizing idx buf start with
  | nil => cases buf <;> rfl
  | cons c cs ih =>
    unfold wordStringsLoop wordTokensLoop
    split_ifs with h1 h2 h3
    · have : buf = [] := by simpa using h2
      subst this
      exact ih _ _ _
    · exact ih _ _ _
    · exact ih _ _ _
    · rw [List.map_cons, ← ih]

theorem wordTokens_eq (cat : ℕ → Cat) (text : List ℕ) :
    wordTokens cat text = (allTokens cat text).filter fun t => t.category == .WORD :=
  wordTokensLoop_eq _ _ _ _

theorem allStrings_eq (cat : ℕ → Cat) (text : List ℕ) :
    allStrings cat text = (allTokens cat text).map Token.text :=
  allStringsLoop_eq _ _ _ _

theorem wordStrings_eq (cat : ℕ → Cat) (text : List ℕ) :
    wordStrings cat text = (wordTokens cat text).map Token.text :=
  wordStringsLoop_eq _ _ _ _

end Tok
end Verif
