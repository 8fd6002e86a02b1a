import Verif.Regex.Passes2

/-!
# The end of `to_regex`: brackets, boundaries and spaces

Helper lemmas only; the property theorems are in `Verif.Regex.Props`.
-/

namespace Verif
namespace Regex

/-! ## The comparison of line 557 never holds -/

/-- A text that ends neither in `(?` nor in `(?:`, given from its end. -/
def Calm (r : List Char) : Prop := (∀ s, r ≠ '?' :: '(' :: s) ∧ ∀ s, r ≠ ':' :: '?' :: '(' :: s

theorem Calm.chr {c : Char} (h1 : c ≠ '?') (h2 : c ≠ ':') (r : List Char) : Calm (c :: r) := by
  constructor <;> intro s he <;> simp_all

theorem Calm.tok {t : Tk} (ht : t.ok) {r : List Char} (h : Calm r) : Calm (t.text.reverse ++ r) := by
  cases t with
  | plain c =>
    have h1 : c ≠ '?' := by rintro rfl; exact ht (by decide)
    constructor
    · intro s he
      simp only [Tk.text, List.reverse_singleton, List.singleton_append, List.cons.injEq] at he
      exact h1 he.1
    · intro s he
      simp only [Tk.text, List.reverse_singleton, List.singleton_append, List.cons.injEq] at he
      exact h.1 s he.2
  | esc c =>
    constructor <;> intro s he <;> simp [Tk.text] at he
  | dot => exact Calm.chr (by decide) (by decide) _

theorem opt_end {q : Bool} {d : Char} (h : d ≠ ':') (r s : List Char) :
    (Pt.qm q).reverse ++ d :: r ≠ ':' :: '?' :: '(' :: s := by
  cases q <;> simp [Pt.qm, h]

theorem Pt.calm {p : Pt} : p.wf .rest → ∀ {r : List Char}, Calm r →
    ∀ s, (p.render Tk.text).reverse ++ r ≠ ':' :: '?' :: '(' :: s := by
  induction p with
  | done => intro _ r h; exact h.2
  | tok t k ih =>
    intro hw r h
    rw [Pt.render, List.reverse_append, List.append_assoc]
    exact ih hw.2 (Calm.tok hw.1 h)
  | last t q =>
    intro hw r h s
    rw [Pt.render, List.reverse_append, List.append_assoc]
    cases q with
    | false => exact (Calm.tok hw h).2 s
    | true => simp [Pt.qm]
  | cls ts q =>
    intro hw r h
    have : ((Pt.cls ts q).render Tk.text).reverse ++ r =
        (Pt.qm q).reverse ++ ']' :: ((ts.flatMap Tk.text).reverse ++ '[' :: r) := by
      simp [Pt.render]
    rw [this]
    exact opt_end (by decide) _
  | grp a q ih =>
    intro hw r h
    have : ((Pt.grp a q).render Tk.text).reverse ++ r =
        (Pt.qm q).reverse ++ ')' :: ((a.render Tk.text).reverse ++ ':' :: '?' :: '(' :: r) := by
      simp [Pt.render]
    rw [this]
    exact opt_end (by decide) _
  | alt x y => intro hw; exact absurd hw (by simp [Pt.wf])

/-- Brackets around a pattern. -/
def brackets (boundary : Bool) (s : List Char) : List Char :=
  if boundary then '(' :: '?' :: ':' :: '\\' :: 'b' :: (s ++ ['\\', 'b', ')'])
  else '(' :: '?' :: ':' :: (s ++ [')'])

theorem wrapped_eq {p : Pt} (hw : p.wf .rest) (boundary : Bool) :
    wrapped boundary (p.render Tk.text) = .ok (brackets boundary (p.render Tk.text)) := by
  have h : (p.render Tk.text).drop 3 ≠ "(?:".toList := by
    intro he
    have h1 := List.take_append_drop 3 (p.render Tk.text)
    rw [he] at h1
    have h2 := Pt.calm hw (r := []) ⟨by simp, by simp⟩ ((p.render Tk.text).take 3).reverse
    apply h2
    rw [List.append_nil]
    conv_lhs => rw [← h1]
    simp
  unfold wrapped brackets
  rw [if_neg h]
  cases boundary <;> simp

/-! ## Spaces -/

/-- Texts that do not begin with a space. -/
def NoSp (s : List Char) : Prop := ∀ r, s ≠ ' ' :: r

section
variable (x : List Char)

/-- The replacement of lines 567 and 576. -/
abbrev rep (s : List Char) : List Char := replaceLoop ['\\', ' '] x s 0

theorem rep_chr {c : Char} (s : List Char) (h : c ≠ '\\' ∨ NoSp s) : rep x (c :: s) = c :: rep x s := by
  have : List.isPrefixOf ['\\', ' '] (c :: s) = false := by
    rcases h with h | h
    · simp [List.isPrefixOf, Ne.symm h]
    · cases s with
      | nil => simp [List.isPrefixOf]
      | cons d s =>
        have hd : ' ' ≠ d := by rintro rfl; exact h s rfl
        simp [List.isPrefixOf, hd]
  unfold rep
  rw [replaceLoop, this]
  simp

theorem rep_tok {t : Tk} (ht : t.ok) {s : List Char} (hs : NoSp s) :
    rep x (t.text ++ s) = t.final x ++ rep x s := by
  cases t with
  | plain c =>
    have h1 : c ≠ '\\' := by rintro rfl; exact ht (by decide)
    simp only [Tk.text, Tk.final, List.singleton_append]
    exact rep_chr x s (Or.inl h1)
  | dot =>
    simp only [Tk.text, Tk.final, List.singleton_append]
    exact rep_chr x s (Or.inl (by decide))
  | esc c =>
    simp only [Tk.text, Tk.final, List.cons_append, List.nil_append]
    by_cases hc : c = ' '
    · subst hc
      simp [rep, replaceLoop, List.isPrefixOf]
    · rw [if_neg hc, rep_chr x _ (Or.inr _), rep_chr x _ (Or.inr hs)]
      · simp
      · intro r he
        simp only [List.cons.injEq] at he
        exact hc he.1

theorem Tk.ok.noSp {t : Tk} (ht : t.ok) (s : List Char) : NoSp (t.text ++ s) := by
  intro r he
  exact ht.ne (d := ' ') (by decide) (by decide) (by decide) _ _ _ he rfl

theorem rep_qm (q : Bool) (s : List Char) : rep x (Pt.qm q ++ s) = Pt.qm q ++ rep x s := by
  cases q with
  | false => rfl
  | true => exact rep_chr x _ (Or.inl (by decide))

theorem NoSp.qm {s : List Char} (hs : NoSp s) (q : Bool) : NoSp (Pt.qm q ++ s) := by
  cases q with
  | false => exact hs
  | true => intro r; simp [Pt.qm]

theorem Pt.noSp {p : Pt} {kind : Pt.Kind} (hw : p.wf kind) {s : List Char} (hs : NoSp s) :
    NoSp (p.render Tk.text ++ s) := by
  have key : ∀ t k, t.ok → ∀ s, NoSp ((Pt.tok t k).render Tk.text ++ s) := by
    intro t k h s
    rw [Pt.render, List.append_assoc]
    exact h.noSp _
  cases p with
  | done => exact hs
  | tok t k => exact key t k (by cases kind <;> exact hw.1) s
  | last t q =>
    rw [Pt.render, List.append_assoc]
    cases kind with
    | rest => exact Tk.ok.noSp hw _
    | _ => exact absurd hw (by simp [Pt.wf])
  | cls ts q => intro r; simp [Pt.render]
  | grp a q => intro r; simp [Pt.render]
  | alt y z =>
    cases kind with
    | alts =>
      have h := hw.1
      cases y with
      | tok t k =>
        rw [Pt.render, List.append_assoc]
        exact key t k h.1 _
      | _ => exact absurd h (by simp [Pt.wf])
    | _ => exact absurd hw (by simp [Pt.wf])

theorem rep_toks (ts : List Tk) (hts : ∀ t ∈ ts, t.ok) {s : List Char} (hs : NoSp s) :
    rep x (ts.flatMap Tk.text ++ s) = ts.flatMap (Tk.final x) ++ rep x s := by
  induction ts with
  | nil => rfl
  | cons t ts ih =>
    simp only [List.flatMap_cons, List.append_assoc]
    rw [rep_tok x (hts t (by simp)), ih (fun t h => hts t (by simp [h]))]
    cases ts with
    | nil => exact hs
    | cons t' ts =>
      rw [List.flatMap_cons, List.append_assoc]
      exact (hts t' (by simp)).noSp _

theorem rep_render {p : Pt} : ∀ {kind : Pt.Kind}, p.wf kind → ∀ {s : List Char}, NoSp s →
    rep x (p.render Tk.text ++ s) = p.render (Tk.final x) ++ rep x s := by
  induction p with
  | done => intro kind hw s hs; rfl
  | tok t k ih =>
    intro kind hw s hs
    have hw' : t.ok ∧ k.wf .rest := by cases kind <;> exact hw
    simp only [Pt.render, List.append_assoc]
    rw [rep_tok x hw'.1 (Pt.noSp hw'.2 hs), ih hw'.2 hs]
  | last t q =>
    intro kind hw s hs
    have hw' : t.ok := by cases kind <;> first | exact hw | exact absurd hw (by simp [Pt.wf])
    simp only [Pt.render, List.append_assoc]
    rw [rep_tok x hw' (hs.qm q), rep_qm]
  | cls ts q =>
    intro kind hw s hs
    have hw' : ∀ t ∈ ts, t.ok := by
      cases kind <;> first | exact hw.2 | exact absurd hw (by simp [Pt.wf])
    simp only [Pt.render, List.append_assoc, List.cons_append]
    rw [rep_chr x _ (Or.inl (by decide)), rep_toks x ts hw' (by intro r; simp),
      rep_chr x _ (Or.inl (by decide)), rep_qm]
  | grp a q ih =>
    intro kind hw s hs
    have hw' : a.wf .alts := by cases kind <;> first | exact hw | exact absurd hw (by simp [Pt.wf])
    simp only [Pt.render, List.append_assoc, List.cons_append]
    rw [rep_chr x _ (Or.inl (by decide)), rep_chr x _ (Or.inl (by decide)),
      rep_chr x _ (Or.inl (by decide)), ih hw' (by intro r; simp),
      rep_chr x _ (Or.inl (by decide)), rep_qm]
  | alt y z ihy ihz =>
    intro kind hw s hs
    have hw' : y.wf .branch ∧ z.wf .alts := by
      cases kind <;> first | exact hw | exact absurd hw (by simp [Pt.wf])
    simp only [Pt.render, List.append_assoc, List.cons_append]
    rw [ihy hw'.1 (by intro r; simp), rep_chr x _ (Or.inl (by decide)), ihz hw'.2 hs]

theorem rep_brackets {p : Pt} (hw : p.wf .rest) (boundary : Bool) :
    pyReplace "\\ ".toList x (brackets boundary (p.render Tk.text)) =
      brackets boundary (p.render (Tk.final x)) := by
  change rep x _ = _
  unfold brackets
  cases boundary with
  | false =>
    simp only [Bool.false_eq_true, if_false]
    rw [rep_chr x _ (Or.inl (by decide)), rep_chr x _ (Or.inl (by decide)),
      rep_chr x _ (Or.inl (by decide)), rep_render x hw (by intro r; simp),
      rep_chr x _ (Or.inl (by decide))]
    rfl
  | true =>
    simp only [if_true]
    rw [rep_chr x _ (Or.inl (by decide)), rep_chr x _ (Or.inl (by decide)),
      rep_chr x _ (Or.inl (by decide)), rep_chr x _ (Or.inr (by intro r; simp)),
      rep_chr x _ (Or.inl (by decide)), rep_render x hw (by intro r; simp),
      rep_chr x _ (Or.inr (by intro r; simp)), rep_chr x _ (Or.inl (by decide)),
      rep_chr x _ (Or.inl (by decide))]
    rfl

end

/-! ## No space is left -/

theorem hasSub_space (s : List Char) : hasSub [' '] s = decide (' ' ∈ s) := by
  induction s with
  | nil => rfl
  | cons c s ih =>
    rw [hasSub, ih]
    simp [List.isPrefixOf, beq_eq_decide]

theorem Tk.final_noSpace {t : Tk} (ht : t.ok) : ' ' ∉ t.final ['\\', 's'] := by
  cases t with
  | plain c =>
    have : ' ' ≠ c := by rintro rfl; exact ht (by decide)
    simp [Tk.final, Tk.text, this]
  | esc c =>
    by_cases h : c = ' '
    · simp [Tk.final, h]
    · simp [Tk.final, h, Ne.symm h]
  | dot => simp [Tk.final, Tk.text]

theorem Pt.noSpace {p : Pt} : ∀ {kind : Pt.Kind}, p.wf kind → ' ' ∉ p.render (Tk.final ['\\', 's']) := by
  induction p with
  | done => intro kind hw; simp [Pt.render]
  | tok t k ih =>
    intro kind hw
    have hw' : t.ok ∧ k.wf .rest := by cases kind <;> exact hw
    simp [Pt.render, Tk.final_noSpace hw'.1, ih hw'.2]
  | last t q =>
    intro kind hw
    have hw' : t.ok := by cases kind <;> first | exact hw | exact absurd hw (by simp [Pt.wf])
    cases q <;> simp [Pt.render, Tk.final_noSpace hw', Pt.qm]
  | cls ts q =>
    intro kind hw
    have hw' : ∀ t ∈ ts, t.ok := by
      cases kind <;> first | exact hw.2 | exact absurd hw (by simp [Pt.wf])
    have : ∀ t ∈ ts, ' ' ∉ t.final ['\\', 's'] := fun t h => Tk.final_noSpace (hw' t h)
    cases q <;> simpa [Pt.render, Pt.qm] using this
  | grp a q ih =>
    intro kind hw
    have hw' : a.wf .alts := by cases kind <;> first | exact hw | exact absurd hw (by simp [Pt.wf])
    cases q <;> simp [Pt.render, Pt.qm, ih hw']
  | alt y z ihy ihz =>
    intro kind hw
    have hw' : y.wf .branch ∧ z.wf .alts := by
      cases kind <;> first | exact hw | exact absurd hw (by simp [Pt.wf])
    simp [Pt.render, ihy hw'.1, ihz hw'.2]

/-! ## When there is nothing to collapse -/

theorem beq_false {c d : Char} (h : c ≠ d) : (d == c) = false := beq_false_of_ne (Ne.symm h)

/-- Whether `\s\s` occurs in a text of which the first `k` characters of `\s\s` have been read. -/
def dbl (k : Nat) (s : List Char) : Bool := hasSub ['\\', 's', '\\', 's'] (['\\', 's', '\\'].take k ++ s)

theorem dbl_nil (k : Nat) (h : k ≤ 3) : dbl k [] = false := by
  rcases k with _ | _ | _ | _ | k
  · rfl
  · rfl
  · rfl
  · rfl
  · omega

theorem dbl0 {c : Char} (s : List Char) (h : c ≠ '\\') : dbl 0 (c :: s) = dbl 0 s := by
  simp [dbl, hasSub, List.isPrefixOf, beq_false h]

theorem dbl0_bs (s : List Char) : dbl 0 ('\\' :: s) = dbl 1 s := rfl

theorem dbl1_bs (s : List Char) : dbl 1 ('\\' :: s) = dbl 1 s := by
  simp [dbl, hasSub, List.isPrefixOf]

theorem dbl1_s (s : List Char) : dbl 1 ('s' :: s) = dbl 2 s := rfl

theorem dbl1 {c : Char} (s : List Char) (h : c ≠ '\\') (h2 : c ≠ 's') : dbl 1 (c :: s) = dbl 0 s := by
  simp [dbl, hasSub, List.isPrefixOf, beq_false h, beq_false h2]

theorem dbl2_bs (s : List Char) : dbl 2 ('\\' :: s) = dbl 3 s := rfl

theorem dbl2 {c : Char} (s : List Char) (h : c ≠ '\\') : dbl 2 (c :: s) = dbl 0 s := by
  simp [dbl, hasSub, List.isPrefixOf, beq_false h]

theorem dbl3_bs (s : List Char) : dbl 3 ('\\' :: s) = dbl 1 s := by
  simp [dbl, hasSub, List.isPrefixOf]

theorem dbl3 {c : Char} (s : List Char) (h : c ≠ '\\') (h2 : c ≠ 's') : dbl 3 (c :: s) = dbl 0 s := by
  simp [dbl, hasSub, List.isPrefixOf, beq_false h, beq_false h2]

/-- The escaped space. -/
def Tk.sp : Tk := .esc ' '

/-- What has been read of `\s\s` after tokens of which `a` is the last one and `b` the one
before. -/
def st (a b : Option Tk) : Nat :=
  if a = some Tk.sp then 2
  else if a = some (.esc '\\') then 1
  else if a = some (.plain 's') ∧ b = some (.esc '\\') then 2
  else 0

/-- Tokens after which a space would complete `\s\s`. -/
def loaded (a b : Option Tk) : Prop :=
  a = some Tk.sp ∨ (a = some (.plain 's') ∧ b = some (.esc '\\'))

theorem st_le (a b : Option Tk) : st a b ≤ 2 := by unfold st; split_ifs <;> omega

/-- Other characters. -/
theorem dbl_chr (a b : Option Tk) {c : Char} (h : c ≠ '\\') (h2 : c ≠ 's') (s : List Char) :
    dbl (st a b) (c :: s) = dbl 0 s := by
  have := st_le a b
  rcases hs : st a b with _ | _ | _ | k
  · exact dbl0 s h
  · exact dbl1 s h h2
  · exact dbl2 s h
  · omega

theorem dbl_tok (a b : Option Tk) {t : Tk} (ht : t.ok) (hc : ¬ (t = Tk.sp ∧ loaded a b))
    (s : List Char) :
    dbl (st a b) (t.final ['\\', 's'] ++ s) = dbl (st (some t) a) s := by
  have h2 := st_le a b
  cases t with
  | plain c =>
    have h1 : c ≠ '\\' := by rintro rfl; exact ht (by decide)
    simp only [Tk.final, Tk.text, List.singleton_append]
    by_cases hs : c = 's'
    · subst hs
      have hst : st (some (Tk.plain 's')) a = if a = some (.esc '\\') then 2 else 0 := by
        simp [st, Tk.sp]
      rw [hst]
      by_cases ha : a = some (.esc '\\')
      · subst ha
        have : st (some (Tk.esc '\\')) b = 1 := by simp [st, Tk.sp]
        rw [this, if_pos rfl]
        rfl
      · rw [if_neg ha]
        have h0 : st a b ≠ 1 := by
          unfold st
          split_ifs <;> simp_all
        rcases hs : st a b with _ | _ | _ | k
        · exact dbl0 s (by decide)
        · exact absurd hs h0
        · exact dbl2 s (by decide)
        · omega
    · rw [dbl_chr a b h1 hs]
      have : st (some (Tk.plain c)) a = 0 := by simp [st, Tk.sp, hs]
      rw [this]
  | dot =>
    simp only [Tk.final, Tk.text, List.singleton_append]
    rw [dbl_chr a b (by decide) (by decide)]
    rfl
  | esc c =>
    have hcs : c ≠ 's' := by rintro rfl; revert ht; decide
    simp only [Tk.final]
    by_cases hsp : c = ' '
    · subst hsp
      simp only [if_true, List.cons_append, List.nil_append]
      have h3 : st a b ≠ 2 := by
        unfold loaded Tk.sp at hc
        unfold st Tk.sp
        split_ifs <;> simp_all
      have h4 : st (some (Tk.esc ' ')) a = 2 := by simp [st, Tk.sp]
      rw [h4]
      rcases hs : st a b with _ | _ | _ | k
      · rfl
      · rw [dbl1_bs]; rfl
      · exact absurd hs h3
      · omega
    · simp only [hsp, if_false, List.cons_append, List.nil_append]
      by_cases hb : c = '\\'
      · subst hb
        have h4 : st (some (Tk.esc '\\')) a = 1 := by simp [st, Tk.sp]
        rw [h4]
        rcases hs : st a b with _ | _ | _ | k
        · rw [dbl0_bs, dbl1_bs]
        · rw [dbl1_bs, dbl1_bs]
        · rw [dbl2_bs, dbl3_bs]
        · omega
      · have h4 : st (some (Tk.esc c)) a = 0 := by simp [st, Tk.sp, hsp, hb]
        rw [h4]
        rcases hs : st a b with _ | _ | _ | k
        · rw [dbl0_bs, dbl1 s hb hcs]
        · rw [dbl1_bs, dbl1 s hb hcs]
        · rw [dbl2_bs, dbl3 s hb hcs]
        · omega

/-- Token lists without a doubled space. -/
def cleanList : Option Tk → Option Tk → List Tk → Prop
  | _, _, [] => True
  | a, b, t :: ts => ¬ (t = Tk.sp ∧ loaded a b) ∧ cleanList (some t) a ts

/-- Pattern trees without a doubled space. -/
def Pt.clean : Option Tk → Option Tk → Pt → Prop
  | _, _, .done => True
  | a, b, .tok t k => ¬ (t = Tk.sp ∧ loaded a b) ∧ k.clean (some t) a
  | a, b, .last t _ => ¬ (t = Tk.sp ∧ loaded a b)
  | _, _, .cls ts _ => cleanList none none ts
  | _, _, .grp a _ => a.clean none none
  | _, _, .alt x y => x.clean none none ∧ y.clean none none

theorem dbl_toks (ts : List Tk) (hts : ∀ t ∈ ts, t.ok) :
    ∀ a b, cleanList a b ts → ∀ s,
    dbl (st a b) (ts.flatMap (Tk.final ['\\', 's']) ++ ']' :: s) = dbl 0 s := by
  induction ts with
  | nil => intro a b _ s; exact dbl_chr a b (by decide) (by decide) s
  | cons t ts ih =>
    intro a b hc s
    rw [List.flatMap_cons, List.append_assoc, dbl_tok a b (hts t (by simp)) hc.1]
    exact ih (fun t h => hts t (by simp [h])) _ _ hc.2 s

/-- Texts after which nothing of `\s\s` counts as read. -/
def Reset (s : List Char) : Prop := ∀ a b, dbl (st a b) s = dbl 0 s

theorem dbl_qm (q : Bool) (s : List Char) : dbl 0 (Pt.qm q ++ s) = dbl 0 s := by
  cases q with
  | false => rfl
  | true => exact dbl0 s (by decide)

theorem Reset.qm {s : List Char} (hs : Reset s) (q : Bool) : Reset (Pt.qm q ++ s) := by
  cases q with
  | false => exact hs
  | true =>
    intro a b
    change dbl _ ('?' :: s) = dbl 0 ('?' :: s)
    rw [dbl_chr a b (by decide) (by decide), dbl0 s (by decide)]

theorem reset_chr {c : Char} (h : c ≠ '\\') (h2 : c ≠ 's') (s : List Char) : Reset (c :: s) := by
  intro a b
  rw [dbl_chr a b h h2, dbl0 s h]

theorem dbl_render {p : Pt} : ∀ {kind : Pt.Kind}, p.wf kind → ∀ {s : List Char}, Reset s →
    ∀ a b, p.clean a b → (kind = .alts → a = none ∧ b = none) →
    dbl (st a b) (p.render (Tk.final ['\\', 's']) ++ s) = dbl 0 s := by
  induction p with
  | done => intro kind hw s hs a b hc _; exact hs a b
  | tok t k ih =>
    intro kind hw s hs a b hc _
    have hw' : t.ok ∧ k.wf .rest := by cases kind <;> exact hw
    simp only [Pt.render, List.append_assoc]
    rw [dbl_tok a b hw'.1 hc.1, ih hw'.2 hs _ _ hc.2 (by simp)]
  | last t q =>
    intro kind hw s hs a b hc _
    have hw' : t.ok := by cases kind <;> first | exact hw | exact absurd hw (by simp [Pt.wf])
    simp only [Pt.render, List.append_assoc]
    rw [dbl_tok a b hw' hc, hs.qm q, dbl_qm]
  | cls ts q =>
    intro kind hw s hs a b hc _
    have hw' : ∀ t ∈ ts, t.ok := by
      cases kind <;> first | exact hw.2 | exact absurd hw (by simp [Pt.wf])
    simp only [Pt.render, List.append_assoc, List.cons_append]
    rw [dbl_chr a b (by decide) (by decide)]
    have := dbl_toks ts hw' none none hc (Pt.qm q ++ s)
    rw [show st none none = 0 from rfl] at this
    rw [this, dbl_qm]
  | grp x q ih =>
    intro kind hw s hs a b hc _
    have hw' : x.wf .alts := by cases kind <;> first | exact hw | exact absurd hw (by simp [Pt.wf])
    simp only [Pt.render, List.append_assoc, List.cons_append]
    rw [dbl_chr a b (by decide) (by decide), dbl0 _ (by decide), dbl0 _ (by decide)]
    have := ih hw' (reset_chr (c := ')') (by decide) (by decide) (Pt.qm q ++ s)) none none hc
      (fun _ => ⟨rfl, rfl⟩)
    rw [show st none none = 0 from rfl] at this
    rw [this, dbl0 _ (by decide), dbl_qm]
  | alt y z ihy ihz =>
    intro kind hw s hs a b hc hk
    have hw' : y.wf .branch ∧ z.wf .alts := by
      cases kind <;> first | exact hw | exact absurd hw (by simp [Pt.wf])
    have hk' : a = none ∧ b = none := by
      cases kind <;> first | exact hk rfl | exact absurd hw (by simp [Pt.wf])
    obtain ⟨rfl, rfl⟩ := hk'
    simp only [Pt.render, List.append_assoc, List.cons_append]
    rw [ihy hw'.1 (reset_chr (by decide) (by decide) _) none none hc.1 (by simp),
      dbl0 _ (by decide)]
    have := ihz hw'.2 hs none none hc.2 (fun _ => ⟨rfl, rfl⟩)
    rw [show st none none = 0 from rfl] at this
    rw [this]

theorem dbl_brackets {p : Pt} (hw : p.wf .rest) (hc : p.clean none none) (boundary : Bool) :
    hasSub "\\s\\s".toList (brackets boundary (p.render (Tk.final ['\\', 's']))) = false := by
  change dbl 0 (brackets boundary (p.render (Tk.final ['\\', 's']))) = false
  unfold brackets
  cases boundary with
  | false =>
    simp only [Bool.false_eq_true, if_false]
    rw [dbl0 _ (by decide), dbl0 _ (by decide), dbl0 _ (by decide)]
    have := dbl_render hw (reset_chr (c := ')') (by decide) (by decide) []) none none hc (by simp)
    rw [show st none none = 0 from rfl] at this
    rw [this]
    rfl
  | true =>
    simp only [if_true]
    rw [dbl0 _ (by decide), dbl0 _ (by decide), dbl0 _ (by decide), dbl0_bs,
      dbl1 _ (by decide) (by decide)]
    have hr : Reset ['\\', 'b', ')'] := by
      intro a b
      have := st_le a b
      rcases hs : st a b with _ | _ | _ | k
      · rfl
      · decide
      · decide
      · omega
    have := dbl_render hw hr none none hc (by simp)
    rw [show st none none = 0 from rfl] at this
    rw [this]
    decide

theorem collapse_noop {s : List Char} (h : hasSub "\\s\\s".toList s = false) (f : Nat) :
    collapse f s = s := by
  cases f with
  | zero => rfl
  | succ f => rw [collapse, h]; simp

theorem spaced_false {p : Pt} (hw : p.wf .rest) (boundary : Bool) :
    spaced false (brackets boundary (p.render Tk.text)) =
      .ok (brackets boundary (p.render (Tk.final [' ']))) := by
  unfold spaced
  rw [if_neg (by simp), rep_brackets _ hw]

theorem spaced_true {p : Pt} (hw : p.wf .rest) (boundary : Bool) :
    spaced true (brackets boundary (p.render Tk.text)) =
      .ok (collapse (brackets boundary (p.render (Tk.final ['\\', 's']))).length
        (brackets boundary (p.render (Tk.final ['\\', 's'])))) := by
  unfold spaced
  have h1 : "\\s".toList = ['\\', 's'] := rfl
  rw [h1, rep_brackets _ hw]
  dsimp only
  rw [hasSub_space]
  have h2 : ' ' ∉ brackets boundary (p.render (Tk.final ['\\', 's'])) := by
    have := Pt.noSpace hw
    unfold brackets
    cases boundary <;> simp [this]
  simp only [h2, decide_false, Bool.false_eq_true, if_false, if_true]

/-! ## The loop of lines 570–574 ends -/

theorem replaceLoop_le {old new : List Char} (h : new.length ≤ old.length) (ho : old ≠ []) :
    ∀ (s : List Char) (k : Nat), (replaceLoop old new s k).length ≤ s.length - k := by
  intro s
  induction s with
  | nil => intro k; simp [replaceLoop]
  | cons c s ih =>
    intro k
    cases k with
    | succ k =>
      rw [replaceLoop]
      have := ih k
      simp only [List.length_cons]
      omega
    | zero =>
      rw [replaceLoop]
      split_ifs with hp
      · have h1 := (List.isPrefixOf_iff_prefix.1 hp).length_le
        have h2 := ih (old.length - 1)
        have h3 := List.length_pos_of_ne_nil ho
        simp only [List.length_append, List.length_cons] at h1 ⊢
        omega
      · have := ih 0
        simp only [List.length_cons]
        omega

theorem pyReplace_lt {old new : List Char} (h : new.length < old.length) {s : List Char}
    (hs : hasSub old s = true) : (pyReplace old new s).length < s.length := by
  have ho : old ≠ [] := by rintro rfl; simp at h
  unfold pyReplace
  induction s with
  | nil =>
    cases old with
    | nil => exact absurd rfl ho
    | cons a old => simp [hasSub] at hs
  | cons c s ih =>
    rw [replaceLoop]
    split_ifs with hp
    · have h1 := (List.isPrefixOf_iff_prefix.1 hp).length_le
      have h2 := replaceLoop_le (Nat.le_of_lt h) ho s (old.length - 1)
      have h3 := List.length_pos_of_ne_nil ho
      simp only [List.length_append, List.length_cons] at h1 ⊢
      omega
    · have h1 : hasSub old s = true := by
        simp only [hasSub, Bool.or_eq_true] at hs
        rcases hs with hs | hs
        · exact absurd hs hp
        · exact hs
      have := ih h1
      simp only [List.length_cons]
      omega

/-- The bound on the number of rounds is never reached. -/
theorem collapse_done (f : Nat) (s : List Char) (h : s.length ≤ f) :
    hasSub "\\s\\s".toList (collapse f s) = false := by
  induction f generalizing s with
  | zero =>
    have : s = [] := List.length_eq_zero_iff.1 (by omega)
    subst this
    rfl
  | succ f ih =>
    rw [collapse]
    split_ifs with h1 h2
    · refine ih _ ?_
      have := pyReplace_lt (new := "\\s+".toList) (by decide) h2
      omega
    · refine ih _ ?_
      have := pyReplace_lt (new := "\\s+".toList) (by decide) h1
      omega
    · simpa using h1

end Regex
end Verif
