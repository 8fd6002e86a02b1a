import Verif.Regex.Pt

/-!
# The five substitutions of `to_regex` as rewritings of the pattern tree

Helper lemmas only; the property theorems are in `Verif.Regex.Props`.
-/

namespace Verif
namespace Regex

/-- A result with text in front of it. -/
def pre (xs : List Char) (e : Except PyErr (List Char)) : Except PyErr (List Char) :=
  match e with
  | .error e => .error e
  | .ok r => .ok (xs ++ r)

theorem pre_nil (e : Except PyErr (List Char)) : pre [] e = e := by cases e <;> rfl

theorem pre_pre (xs ys : List Char) (e : Except PyErr (List Char)) :
    pre xs (pre ys e) = pre (xs ++ ys) e := by
  cases e <;> simp [pre]

theorem pre_ok (xs ys : List Char) : pre xs (.ok ys) = .ok (xs ++ ys) := rfl

/-- A matcher. -/
abbrev Matcher := Option Char → List Char → Except PyErr (Option (List Char × Nat))

theorem sub_none {m : Matcher} {prev : Option Char} {c : Char} {cs : List Char}
    (h : m prev (c :: cs) = .ok none) :
    subLoop m prev 0 (c :: cs) = pre [c] (subLoop m (some c) 0 cs) := by
  rw [subLoop, h]
  cases subLoop m (some c) 0 cs <;> rfl

theorem sub_some {m : Matcher} {prev : Option Char} {c : Char} {cs : List Char} {new : List Char}
    {n : Nat} (h : m prev (c :: cs) = .ok (some (new, n))) :
    subLoop m prev 0 (c :: cs) = pre new (subLoop m (some c) (n - 1) cs) := by
  rw [subLoop, h]
  dsimp only
  cases subLoop m (some c) (n - 1) cs <;> rfl

theorem sub_skip {m : Matcher} (xs : List Char) (d : Char) (s : List Char) (prev : Option Char) :
    subLoop m prev (xs.length + 1) (xs ++ d :: s) = subLoop m (some d) 0 s := by
  induction xs generalizing prev with
  | nil => simp [subLoop]
  | cons x xs ih =>
    simp only [List.length_cons, List.cons_append, subLoop]
    exact ih _

/-- Matchers that start only at an opening parenthesis or bracket that is not escaped. -/
def Shy (m : Matcher) : Prop :=
  ∀ prev c s, (c ≠ '(' ∧ c ≠ '[') ∨ prev = some '\\' → m prev (c :: s) = .ok none

theorem match1_of_ne {prev : Option Char} {c : Char} {s : List Char} (h : c ≠ '(') :
    match1 prev (c :: s) = .ok none := by
  unfold match1
  split
  · rename_i heq
    simp only [List.cons.injEq] at heq
    exact absurd heq.1 h
  · rfl

theorem shy1 : Shy match1 := by
  rintro prev c s (⟨h, -⟩ | rfl)
  · exact match1_of_ne h
  · unfold match1
    split <;> simp

theorem shy2 : Shy match2 := by
  intro prev c s h
  unfold match2
  split
  · rename_i heq
    simp only [List.cons.injEq] at heq
    rcases h with ⟨h, -⟩ | rfl
    · exact absurd heq.1 h
    · simp
  · rfl

theorem shy3 : Shy match3 := by
  intro prev c s h
  unfold match3
  split
  · rename_i heq
    simp only [List.cons.injEq] at heq
    rcases h with ⟨h, -⟩ | rfl
    · exact absurd heq.1 h
    · simp
  · rfl

theorem shy4 : Shy match4 := by
  intro prev c s h
  unfold match4
  split
  · rename_i heq
    simp only [List.cons.injEq] at heq
    rcases h with ⟨-, h⟩ | rfl
    · exact absurd heq.1 h
    · simp
  · rfl

/-- The last character of the text of a token. -/
def Tk.lastc : Tk → Char
  | .plain c => c
  | .esc c => c
  | .dot => '.'

theorem Tk.ok.ne {t : Tk} (h : t.ok) {d : Char} (hd : d ∈ specials) (hd' : d ≠ '.') (hd2 : d ≠ '\\') :
    ∀ s c r, t.text ++ s = c :: r → c ≠ d := by
  intro s c r he
  cases t with
  | plain e =>
    simp only [Tk.text, List.cons_append, List.cons.injEq] at he
    rintro rfl
    exact h (he.1 ▸ hd)
  | esc e =>
    simp only [Tk.text, List.cons_append, List.cons.injEq] at he
    rintro rfl
    exact hd2 he.1.symm
  | dot =>
    simp only [Tk.text, List.cons_append, List.cons.injEq] at he
    rintro rfl
    exact hd' he.1.symm

theorem Tk.text_ne_nil (t : Tk) : t.text ≠ [] := by cases t <;> simp [Tk.text]

theorem Shy.tok {m : Matcher} (hm : Shy m) {t : Tk} (ht : t.ok) (prev : Option Char)
    (s : List Char) :
    subLoop m prev 0 (t.text ++ s) = pre t.text (subLoop m (some t.lastc) 0 s) := by
  cases t with
  | plain c =>
    have h1 : c ≠ '(' := by rintro rfl; exact ht (by decide)
    have h2 : c ≠ '[' := by rintro rfl; exact ht (by decide)
    simp only [Tk.text, List.cons_append, List.nil_append, Tk.lastc]
    rw [sub_none (hm _ _ _ (Or.inl ⟨h1, h2⟩))]
  | esc c =>
    simp only [Tk.text, List.cons_append, List.nil_append, Tk.lastc]
    rw [sub_none (hm _ _ _ (Or.inl ⟨by decide, by decide⟩)), sub_none (hm _ _ _ (Or.inr rfl)),
      pre_pre]
    rfl
  | dot =>
    simp only [Tk.text, List.cons_append, List.nil_append, Tk.lastc]
    rw [sub_none (hm _ _ _ (Or.inl ⟨by decide, by decide⟩))]

theorem Shy.chr {m : Matcher} (hm : Shy m) {c : Char} (h1 : c ≠ '(') (h2 : c ≠ '[')
    (prev : Option Char) (s : List Char) :
    subLoop m prev 0 (c :: s) = pre [c] (subLoop m (some c) 0 s) :=
  sub_none (hm _ _ _ (Or.inl ⟨h1, h2⟩))

/-- What may follow a branch. -/
def Stop (s : List Char) : Prop := s = [] ∨ (∃ r, s = '|' :: r) ∨ ∃ r, s = ')' :: r

theorem Shy.stop {m : Matcher} (hm : Shy m) {s : List Char} (h : Stop s) (prev prev' : Option Char) :
    subLoop m prev 0 s = subLoop m prev' 0 s := by
  rcases h with rfl | ⟨r, rfl⟩ | ⟨r, rfl⟩
  · simp [subLoop]
  · rw [hm.chr (by decide) (by decide), hm.chr (by decide) (by decide)]
  · rw [hm.chr (by decide) (by decide), hm.chr (by decide) (by decide)]

theorem Shy.close {m : Matcher} (hm : Shy m) {s : List Char} (h : Stop s) (q : Bool)
    (prev : Option Char) :
    subLoop m prev 0 (Pt.qm q ++ s) = pre (Pt.qm q) (subLoop m none 0 s) := by
  cases q with
  | false => simp only [Pt.qm, Bool.false_eq_true, if_false, List.nil_append, pre_nil]
             exact hm.stop h _ _
  | true =>
    simp only [Pt.qm, if_true, List.cons_append, List.nil_append]
    rw [hm.chr (by decide) (by decide), hm.stop h _ none]

theorem Shy.toks {m : Matcher} (hm : Shy m) (ts : List Tk) (hts : ∀ t ∈ ts, t.ok) (q : Bool)
    {s : List Char} (h : Stop s) (prev : Option Char) :
    subLoop m prev 0 (ts.flatMap Tk.text ++ (']' :: Pt.qm q ++ s)) =
      pre (ts.flatMap Tk.text ++ ']' :: Pt.qm q) (subLoop m none 0 s) := by
  induction ts generalizing prev with
  | nil =>
    simp only [List.flatMap_nil, List.nil_append, List.cons_append]
    rw [hm.chr (by decide) (by decide), hm.close h, pre_pre]
    rfl
  | cons t ts ih =>
    simp only [List.flatMap_cons, List.append_assoc]
    rw [hm.tok (hts t (by simp)), ih (fun t h => hts t (by simp [h])), pre_pre]

/-! ## Lengths -/

theorem cLens_tok {t : Tk} (ht : t.ok) (s : List Char) :
    cLens (t.text ++ s) = if t.single then [t.text.length] else [] := by
  cases t with
  | plain c =>
    have h1 : c ≠ '\\' := by rintro rfl; exact ht (by decide)
    simp [Tk.text, Tk.single, cLens]
  | dot => simp [Tk.text, Tk.single, cLens]
  | esc c =>
    have hc : c ∈ specials := ht
    have h1 : isOct c = false := by
      have : ∀ c ∈ specials, isOct c = false := by decide
      exact this c hc
    have h2 : c ≠ 'U' ∧ c ≠ 'u' ∧ c ≠ 'x' := by
      have : ∀ c ∈ specials, c ≠ 'U' ∧ c ≠ 'u' ∧ c ≠ 'x' := by decide
      exact this c hc
    simp only [Tk.text, Tk.single, List.cons_append, List.nil_append, cLens, digits,
      List.take_succ_cons, List.all_cons, h1, Bool.false_and, Bool.and_false, Bool.false_eq_true,
      if_false]
    split
    · rename_i heq; simp only [List.cons.injEq] at heq; exact absurd heq.1 h2.1
    split
    · rename_i heq; simp only [List.cons.injEq] at heq; exact absurd heq.1 h2.2.1
    split
    · rename_i heq; simp only [List.cons.injEq] at heq; exact absurd heq.1 h2.2.2
    by_cases hn : c = '\n' <;> simp [hn]

/-! ## First substitution -/

/-- Trees without classes and optional characters. -/
def Pt.raw : Pt → Prop
  | .done => True
  | .tok _ k => k.raw
  | .last _ _ => False
  | .cls _ _ => False
  | .grp a _ => a.raw
  | .alt x y => x.raw ∧ y.raw

/-- Alternatives that are single tokens. -/
def Pt.simple : Pt → Bool
  | .tok t .done => t.single
  | .alt (.tok t .done) y => t.single && y.simple
  | _ => false

/-- First characters of what follows a token. -/
theorem Pt.rest_head {k : Pt} (hk : k.wf .rest) (hr : k.raw) (d : Char) (s : List Char) :
    (k = .done ∧ k.render Tk.text ++ d :: s = d :: s) ∨
    (k ≠ .done ∧ ∃ c r, k.render Tk.text ++ d :: s = c :: r ∧ c ≠ '|' ∧ c ≠ ')') := by
  cases k with
  | done => exact Or.inl ⟨rfl, rfl⟩
  | tok t k =>
    right
    refine ⟨by simp, ?_⟩
    have h := hk.1
    have hn : (Pt.tok t k).render Tk.text ++ d :: s ≠ [] := by simp
    obtain ⟨c, r, he⟩ := List.exists_cons_of_ne_nil hn
    refine ⟨c, r, he, ?_, ?_⟩
    · rw [Pt.render, List.append_assoc] at he
      exact h.ne (by decide) (by decide) (by decide) _ _ _ he
    · rw [Pt.render, List.append_assoc] at he
      exact h.ne (by decide) (by decide) (by decide) _ _ _ he
  | last t q => exact absurd hr (by simp [Pt.raw])
  | cls ts q => exact absurd hr (by simp [Pt.raw])
  | grp a q => exact Or.inr ⟨by simp, '(', _, rfl, by decide, by decide⟩
  | alt x y => exact absurd hk (by simp [Pt.wf])

theorem body_lens {a : Pt} (ha : a.wf .alts) (hr : a.raw) (s : List Char) :
    ∀ f, (a.render Tk.text).length < f →
    firstWith [')'] (bodyLens f (a.render Tk.text ++ ')' :: s)) (a.render Tk.text ++ ')' :: s) =
      if a.simple then some (a.render Tk.text).length else none := by
  induction a with
  | done => exact absurd ha (by simp [Pt.wf])
  | last t q => exact absurd hr (by simp [Pt.raw])
  | cls ts q => exact absurd hr (by simp [Pt.raw])
  | grp a q => exact absurd ha (by simp [Pt.wf])
  | tok t k _ =>
    intro f hf
    obtain ⟨f, rfl⟩ : ∃ g, f = g + 1 := ⟨f - 1, by omega⟩
    have ht : t.ok := ha.1
    rw [Pt.render, List.append_assoc, bodyLens, cLens_tok ht]
    rcases Pt.rest_head ha.2 hr ')' s with ⟨rfl, -⟩ | ⟨hk, c, r, he, h1, h2⟩
    · by_cases hs : t.single <;>
        simp [hs, firstWith, Pt.render, Pt.simple]
    · have hsim : (Pt.tok t k).simple = false := by cases k <;> simp_all [Pt.simple]
      rw [he, hsim]
      by_cases hs : t.single
      · simp only [hs, if_true, List.flatMap_cons, List.flatMap_nil, List.append_nil,
          List.drop_left]
        split
        · rename_i heq
          simp only [List.cons.injEq] at heq
          exact absurd heq.1 h1
        · simp [firstWith, Ne.symm h2]
      · simp [hs, firstWith]
  | alt x y _ ihy =>
    intro f hf
    obtain ⟨f, rfl⟩ : ∃ g, f = g + 1 := ⟨f - 1, by omega⟩
    have hx := ha.1
    cases x with
    | done => exact absurd hx (by simp [Pt.wf])
    | last t q => exact absurd hx (by simp [Pt.wf])
    | cls ts q => exact absurd hx (by simp [Pt.wf])
    | grp a q => exact absurd hx (by simp [Pt.wf])
    | alt x y => exact absurd hx (by simp [Pt.wf])
    | tok t k =>
      have ht : t.ok := hx.1
      simp only [Pt.render, List.append_assoc, List.cons_append, List.length_append,
        List.length_cons] at hf ⊢
      rw [bodyLens, cLens_tok ht]
      rcases Pt.rest_head hx.2 hr.1 '|' (y.render Tk.text ++ ')' :: s) with
        ⟨rfl, -⟩ | ⟨hk, c, r, he, h1, h2⟩
      · simp only [Pt.render, List.nil_append, List.length_nil, Nat.zero_add] at hf ⊢
        have := ihy ha.2 hr.2 f (by omega)
        by_cases hs : t.single
        · simp only [hs, if_true, List.flatMap_cons, List.flatMap_nil, List.append_nil,
            List.drop_left, firstWith, List.find?_append, List.find?_map]
          have hcomp : ((fun n => [')'].isPrefixOf
              (List.drop n (t.text ++ '|' :: (y.render Tk.text ++ ')' :: s)))) ∘
              fun m => t.text.length + 1 + m) =
              fun m => [')'].isPrefixOf (List.drop m (y.render Tk.text ++ ')' :: s)) := by
            funext m
            simp only [Function.comp]
            congr 1
            rw [show t.text.length + 1 + m = t.text.length + (m + 1) by omega,
              ← List.drop_drop, List.drop_left, List.drop_succ_cons]
          rw [hcomp]
          unfold firstWith at this
          rw [this]
          by_cases hy : y.simple
          · simp [hy, Pt.simple, hs]; omega
          · simp [hy, Pt.simple, hs]
        · simp [hs, firstWith, Pt.simple]
      · have hsim : (Pt.alt (.tok t k) y).simple = false := by cases k <;> simp_all [Pt.simple]
        rw [he, hsim]
        by_cases hs : t.single
        · simp only [hs, if_true, List.flatMap_cons, List.flatMap_nil, List.append_nil,
            List.drop_left]
          split
          · rename_i heq
            simp only [List.cons.injEq] at heq
            exact absurd heq.1 h1
          · simp [firstWith, Ne.symm h2]
        · simp [hs, firstWith]

theorem cg_tok {t : Tk} (ht : t.ok) (s : List Char) :
    cgLoop ⟨false, false, 0⟩ (t.text ++ s) = pre t.text (cgLoop ⟨true, false, 0⟩ s) := by
  cases t with
  | plain c =>
    have h1 : c ≠ '\\' := by rintro rfl; exact ht (by decide)
    have h2 : c ≠ '|' := by rintro rfl; exact ht (by decide)
    simp only [Tk.text, List.cons_append, List.nil_append, cgLoop, cgStep]
    simp only [h1, h2, ne_eq, not_true_eq_false, Bool.false_eq_true, if_false]
    cases cgLoop ⟨true, false, 0⟩ s <;> rfl
  | dot =>
    simp only [Tk.text, List.cons_append, List.nil_append, cgLoop, cgStep]
    simp only [show ('.' = '\\') = False by decide, show ('.' = '|') = False by decide, ne_eq,
      not_true_eq_false, Bool.false_eq_true, if_false]
    cases cgLoop ⟨true, false, 0⟩ s <;> rfl
  | esc c =>
    have h1 : c ∉ "1234567890".toList := by
      have : ∀ c ∈ specials, c ∉ "1234567890".toList := by decide
      exact this c ht
    simp only [Tk.text, List.cons_append, List.nil_append, cgLoop, cgStep]
    simp only [h1, ne_eq, not_true_eq_false, Bool.false_eq_true, if_false, if_true]
    cases cgLoop ⟨true, false, 0⟩ s <;> rfl

theorem cg_simple {a : Pt} (ha : a.wf .alts) (hs : a.simple = true) :
    cgLoop ⟨false, false, 0⟩ (a.render Tk.text) = .ok (a.heads.flatMap Tk.text ++ [']']) := by
  induction a with
  | done => exact absurd ha (by simp [Pt.wf])
  | last t q => exact absurd ha (by simp [Pt.wf])
  | cls ts q => exact absurd ha (by simp [Pt.wf])
  | grp a q => exact absurd ha (by simp [Pt.wf])
  | tok t k _ =>
    cases k <;> simp [Pt.simple] at hs
    rw [Pt.render, cg_tok ha.1]
    simp [Pt.render, cgLoop, pre, Pt.heads]
  | alt x y _ ihy =>
    cases x with
    | tok t k =>
      cases k <;> simp [Pt.simple] at hs
      simp only [Pt.render, List.append_assoc, List.nil_append]
      rw [cg_tok ha.1.1]
      simp only [cgLoop, cgStep]
      simp only [show ('|' = '\\') = False by decide, ne_eq, not_true_eq_false, Bool.false_eq_true, if_false, if_true]
      rw [ihy ha.2 hs.2]
      simp [pre, Pt.heads]
    | _ => simp [Pt.simple] at hs

/-- The first substitution on pattern trees; `b` says that a backslash stands before. -/
def Pt.s1 : Bool → Pt → Pt
  | _, .done => .done
  | _, .tok t k => .tok t (k.s1 (t.lastc = '\\'))
  | _, .last t q => .last t q
  | _, .cls ts q => .cls ts q
  | b, .grp a q => if b = false ∧ a.simple = true then .cls a.heads q else .grp (a.s1 false) q
  | _, .alt x y => .alt (x.s1 false) (y.s1 false)

theorem match1_group {a : Pt} (ha : a.wf .alts) (hr : a.raw) (prev : Option Char) (s : List Char) :
    match1 prev ('(' :: '?' :: ':' :: (a.render Tk.text ++ ')' :: s)) =
      if prev ≠ some '\\' ∧ a.simple = true then
        .ok (some ('[' :: (a.heads.flatMap Tk.text ++ [']']), (a.render Tk.text).length + 4))
      else .ok none := by
  unfold match1
  simp only
  by_cases hp : prev = some '\\'
  · simp [hp]
  · rw [body_lens ha hr s _ (by simp only [List.length_append, List.length_cons]; omega)]
    by_cases hs : a.simple
    · simp [hp, hs, charGroup, cg_simple ha hs]
    · simp [hp, hs]

theorem sub1 {p : Pt} (hr : p.raw) :
    ∀ {kind : Pt.Kind}, p.wf kind → ∀ {s : List Char}, Stop s → ∀ prev : Option Char,
    subLoop match1 prev 0 (p.render Tk.text ++ s) =
      pre ((p.s1 (prev = some '\\')).render Tk.text) (subLoop match1 none 0 s) := by
  induction p with
  | done =>
    intro kind _ s hs prev
    simp only [Pt.render, Pt.s1, List.nil_append, pre_nil]
    exact shy1.stop hs _ _
  | last t q => exact absurd hr (by simp [Pt.raw])
  | cls ts q => exact absurd hr (by simp [Pt.raw])
  | tok t k ih =>
    intro kind hw s hs prev
    have hw' : t.ok ∧ k.wf .rest := by cases kind <;> exact hw
    simp only [Pt.render, Pt.s1, List.append_assoc]
    rw [shy1.tok hw'.1, ih hr hw'.2 hs, pre_pre]
    simp
  | grp a q ih =>
    intro kind hw s hs prev
    have hw' : a.wf .alts := by cases kind <;> first | exact hw | exact absurd hw (by simp [Pt.wf])
    simp only [Pt.render, List.cons_append, List.append_assoc]
    have hm := match1_group hw' hr prev (Pt.qm q ++ s)
    by_cases hc : prev ≠ some '\\' ∧ a.simple = true
    · rw [if_pos hc] at hm
      rw [sub_some hm]
      simp only [show (a.render Tk.text).length + 4 - 1 =
        ('?' :: ':' :: a.render Tk.text).length + 1 by simp]
      have := sub_skip (m := match1) ('?' :: ':' :: a.render Tk.text) ')' (Pt.qm q ++ s) (some '(')
      simp only [List.cons_append] at this
      rw [this, shy1.close hs, pre_pre]
      simp [Pt.s1, hc, Pt.render]
    · rw [if_neg hc] at hm
      rw [sub_none hm, shy1.chr (by decide) (by decide), shy1.chr (by decide) (by decide),
        ih hr hw' (Or.inr (Or.inr ⟨_, rfl⟩)), shy1.chr (by decide) (by decide), shy1.close hs]
      simp only [pre_pre]
      have hb : ¬ ((decide (prev = some '\\') = false) ∧ a.simple = true) := by
        simpa using hc
      simp only [Pt.s1, if_neg hb, Pt.render]
      simp
  | alt x y ihx ihy =>
    intro kind hw s hs prev
    have hw' : x.wf .branch ∧ y.wf .alts := by
      cases kind <;> first | exact hw | exact absurd hw (by simp [Pt.wf])
    simp only [Pt.render, List.append_assoc, List.cons_append]
    rw [ihx hr.1 hw'.1 (Or.inr (Or.inl ⟨_, rfl⟩)), shy1.chr (by decide) (by decide),
      ihy hr.2 hw'.2 hs]
    simp only [pre_pre]
    cases x with
    | tok t k => simp [Pt.s1, Pt.render]
    | _ => exact absurd hw'.1 (by simp [Pt.wf])

end Regex
end Verif
