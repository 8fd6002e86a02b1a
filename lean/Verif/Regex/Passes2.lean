import Verif.Regex.Passes

/-!
# The second to fifth substitution of `to_regex`

Helper lemmas only; the property theorems are in `Verif.Regex.Props`.
-/

namespace Verif
namespace Regex

/-! ## Second and third substitution: nothing to do -/

/-- Matchers that start only at `(?:[`. -/
def Shy2 (m : Matcher) : Prop :=
  Shy m ∧ (∀ prev s, m prev ('[' :: s) = .ok none) ∧
    ∀ prev d s, d ≠ '[' → m prev ('(' :: '?' :: ':' :: d :: s) = .ok none

theorem shy2_match2 : Shy2 match2 := by
  refine ⟨shy2, fun prev s => ?_, fun prev d s hd => ?_⟩
  · unfold match2
    split
    · rename_i heq
      simp at heq
    · rfl
  · unfold match2
    split
    · rename_i heq
      simp only [List.cons.injEq, true_and] at heq
      exact absurd heq.1 hd
    · rfl

theorem shy2_match3 : Shy2 match3 := by
  refine ⟨shy3, fun prev s => ?_, fun prev d s hd => ?_⟩
  · unfold match3
    split
    · rename_i heq
      simp at heq
    · rfl
  · unfold match3
    split
    · rename_i heq
      simp only [List.cons.injEq, true_and] at heq
      exact absurd heq.1 hd
    · rfl

/-- First character of alternatives. -/
theorem Pt.alts_head {a : Pt} (ha : a.wf .alts) (s : List Char) :
    ∃ c r, a.render Tk.text ++ s = c :: r ∧ c ≠ '[' := by
  have key : ∀ t k, (Pt.tok t k).wf .alts → ∀ s,
      ∃ c r, (Pt.tok t k).render Tk.text ++ s = c :: r ∧ c ≠ '[' := by
    intro t k h s
    have hn : (Pt.tok t k).render Tk.text ++ s ≠ [] := by simp [Pt.render, Tk.text_ne_nil]
    obtain ⟨c, r, he⟩ := List.exists_cons_of_ne_nil hn
    refine ⟨c, r, he, ?_⟩
    rw [Pt.render, List.append_assoc] at he
    exact h.1.ne (by decide) (by decide) (by decide) _ _ _ he
  cases a with
  | tok t k => exact key t k ha s
  | alt x y =>
    cases x with
    | tok t k =>
      rw [Pt.render, List.append_assoc]
      exact key t k ha.1 _
    | _ => exact absurd ha.1 (by simp [Pt.wf])
  | _ => exact absurd ha (by simp [Pt.wf])

theorem sub2 {m : Matcher} (hm : Shy2 m) {p : Pt} :
    ∀ {kind : Pt.Kind}, p.wf kind → ∀ {s : List Char}, Stop s → ∀ prev : Option Char,
    subLoop m prev 0 (p.render Tk.text ++ s) =
      pre (p.render Tk.text) (subLoop m none 0 s) := by
  induction p with
  | done =>
    intro kind _ s hs prev
    simp only [Pt.render, List.nil_append, pre_nil]
    exact hm.1.stop hs _ _
  | last t q =>
    intro kind hw s hs prev
    have hw' : t.ok := by cases kind <;> first | exact hw | exact absurd hw (by simp [Pt.wf])
    simp only [Pt.render, List.append_assoc]
    rw [hm.1.tok hw', hm.1.close hs, pre_pre]
  | cls ts q =>
    intro kind hw s hs prev
    have hw' : ∀ t ∈ ts, t.ok := by
      cases kind <;> first | exact hw.2 | exact absurd hw (by simp [Pt.wf])
    simp only [Pt.render, List.cons_append, List.append_assoc]
    rw [sub_none (hm.2.1 _ _)]
    have := hm.1.toks ts hw' q hs (some '[')
    simp only [List.cons_append] at this
    rw [this, pre_pre]
    rfl
  | tok t k ih =>
    intro kind hw s hs prev
    have hw' : t.ok ∧ k.wf .rest := by cases kind <;> exact hw
    simp only [Pt.render, List.append_assoc]
    rw [hm.1.tok hw'.1, ih hw'.2 hs, pre_pre]
  | grp a q ih =>
    intro kind hw s hs prev
    have hw' : a.wf .alts := by cases kind <;> first | exact hw | exact absurd hw (by simp [Pt.wf])
    simp only [Pt.render, List.cons_append, List.append_assoc]
    obtain ⟨c, r, he, hc⟩ := Pt.alts_head hw' (')' :: (Pt.qm q ++ s))
    have h1 : m prev ('(' :: '?' :: ':' :: (a.render Tk.text ++ ')' :: (Pt.qm q ++ s))) =
        .ok none := by
      rw [he]
      exact hm.2.2 _ _ _ hc
    rw [sub_none h1, hm.1.chr (by decide) (by decide), hm.1.chr (by decide) (by decide),
      ih hw' (Or.inr (Or.inr ⟨_, rfl⟩)), hm.1.chr (by decide) (by decide), hm.1.close hs]
    simp only [pre_pre]
    simp
  | alt x y ihx ihy =>
    intro kind hw s hs prev
    have hw' : x.wf .branch ∧ y.wf .alts := by
      cases kind <;> first | exact hw | exact absurd hw (by simp [Pt.wf])
    simp only [Pt.render, List.append_assoc, List.cons_append]
    rw [ihx hw'.1 (Or.inr (Or.inl ⟨_, rfl⟩)), hm.1.chr (by decide) (by decide), ihy hw'.2 hs]
    simp only [pre_pre]
    simp

/-! ## Fourth substitution -/

/-- The fourth substitution on pattern trees; `b` says that a backslash stands before. -/
def Pt.s4 : Bool → Pt → Pt
  | _, .done => .done
  | _, .tok t k => .tok t (k.s4 (t.lastc = '\\'))
  | _, .last t q => .last t q
  | b, .cls ts q =>
    match ts with
    | [t] => if b = false ∧ t.single = true then .last t q else .cls [t] q
    | ts => .cls ts q
  | _, .grp a q => .grp (a.s4 false) q
  | _, .alt x y => .alt (x.s4 false) (y.s4 false)

theorem match4_paren (prev : Option Char) (s : List Char) : match4 prev ('(' :: s) = .ok none := by
  unfold match4
  split
  · rename_i heq
    simp at heq
  · rfl

theorem match4_cls {t : Tk} {ts : List Tk} (ht : ∀ x ∈ t :: ts, x.ok) (prev : Option Char)
    (s : List Char) :
    match4 prev ('[' :: ((t :: ts).flatMap Tk.text ++ ']' :: s)) =
      if prev ≠ some '\\' ∧ t.single = true ∧ ts = [] then
        .ok (some (t.text, t.text.length + 2))
      else .ok none := by
  unfold match4
  simp only [List.flatMap_cons, List.append_assoc]
  by_cases hp : prev = some '\\'
  · simp [hp]
  · rw [if_neg hp, cLens_tok (ht t (by simp))]
    by_cases hs : t.single
    · cases ts with
      | nil => simp [hs, hp, firstWith]
      | cons t' ts =>
        have hn : List.flatMap Tk.text (t' :: ts) ++ ']' :: s ≠ [] := by simp
        obtain ⟨c, r, he⟩ := List.exists_cons_of_ne_nil hn
        have hc : c ≠ ']' := by
          have he' := he
          rw [List.flatMap_cons, List.append_assoc] at he'
          exact (ht t' (by simp)).ne (by decide) (by decide) (by decide) _ _ _ he'
        rw [he]
        simp [hs, firstWith, Ne.symm hc]
    · simp [hs, firstWith]

theorem sub4 {p : Pt} :
    ∀ {kind : Pt.Kind}, p.wf kind → ∀ {s : List Char}, Stop s → ∀ prev : Option Char,
    subLoop match4 prev 0 (p.render Tk.text ++ s) =
      pre ((p.s4 (prev = some '\\')).render Tk.text) (subLoop match4 none 0 s) := by
  induction p with
  | done =>
    intro kind _ s hs prev
    simp only [Pt.render, Pt.s4, List.nil_append, pre_nil]
    exact shy4.stop hs _ _
  | last t q =>
    intro kind hw s hs prev
    have hw' : t.ok := by cases kind <;> first | exact hw | exact absurd hw (by simp [Pt.wf])
    simp only [Pt.render, Pt.s4, List.append_assoc]
    rw [shy4.tok hw', shy4.close hs, pre_pre]
  | cls ts q =>
    intro kind hw s hs prev
    have hw' : ts ≠ [] ∧ ∀ t ∈ ts, t.ok := by
      cases kind <;> first | exact hw | exact absurd hw (by simp [Pt.wf])
    obtain ⟨t, ts, rfl⟩ := List.exists_cons_of_ne_nil hw'.1
    simp only [Pt.render, List.cons_append, List.append_assoc]
    have hm := match4_cls hw'.2 prev (Pt.qm q ++ s)
    by_cases hc : prev ≠ some '\\' ∧ t.single = true ∧ ts = []
    · rw [if_pos hc] at hm
      obtain ⟨h1, h2, rfl⟩ := hc
      rw [sub_some hm]
      simp only [List.flatMap_cons, List.flatMap_nil, List.append_nil,
        show t.text.length + 2 - 1 = t.text.length + 1 by omega]
      rw [sub_skip, shy4.close hs, pre_pre]
      simp [Pt.s4, h1, h2, Pt.render]
    · rw [if_neg hc] at hm
      rw [sub_none hm]
      have := shy4.toks (t :: ts) hw'.2 q hs (some '[')
      simp only [List.cons_append] at this
      rw [this, pre_pre]
      have hb : (Pt.cls (t :: ts) q).s4 (prev = some '\\') = .cls (t :: ts) q := by
        cases ts with
        | nil =>
          simp only [Pt.s4]
          rw [if_neg]
          simpa using hc
        | cons t' ts => rfl
      rw [hb]
      rfl
  | tok t k ih =>
    intro kind hw s hs prev
    have hw' : t.ok ∧ k.wf .rest := by cases kind <;> exact hw
    simp only [Pt.render, Pt.s4, List.append_assoc]
    rw [shy4.tok hw'.1, ih hw'.2 hs, pre_pre]
    simp
  | grp a q ih =>
    intro kind hw s hs prev
    have hw' : a.wf .alts := by cases kind <;> first | exact hw | exact absurd hw (by simp [Pt.wf])
    simp only [Pt.render, Pt.s4, List.cons_append, List.append_assoc]
    rw [sub_none (match4_paren _ _), shy4.chr (by decide) (by decide),
      shy4.chr (by decide) (by decide), ih hw' (Or.inr (Or.inr ⟨_, rfl⟩)),
      shy4.chr (by decide) (by decide), shy4.close hs]
    simp only [pre_pre]
    simp
  | alt x y ihx ihy =>
    intro kind hw s hs prev
    have hw' : x.wf .branch ∧ y.wf .alts := by
      cases kind <;> first | exact hw | exact absurd hw (by simp [Pt.wf])
    simp only [Pt.render, List.append_assoc, List.cons_append]
    rw [ihx hw'.1 (Or.inr (Or.inl ⟨_, rfl⟩)), shy4.chr (by decide) (by decide), ihy hw'.2 hs]
    simp only [pre_pre]
    cases x with
    | tok t k => simp [Pt.s4, Pt.render]
    | _ => exact absurd hw'.1 (by simp [Pt.wf])

/-! ## Fifth substitution -/

/-- The fifth substitution on pattern trees. -/
def Pt.s5 : Pt → Pt
  | .done => .done
  | .tok t k => .tok t k.s5
  | .last t q => .last t q
  | .cls ts q => .cls ts q
  | .grp a q =>
    match a with
    | .tok t .done => if t.single = true then .last t q else .grp (.tok t .done) q
    | a => .grp a.s5 q
  | .alt x y => .alt x.s5 y.s5

theorem match5_none {prev : Option Char} {c : Char} {s : List Char}
    (h : c ≠ '(' ∨ ∀ r, s ≠ '?' :: ':' :: r) : match5 prev (c :: s) = .ok none := by
  unfold match5
  split
  · rename_i heq
    simp only [List.cons.injEq] at heq
    rcases h with h | h
    · exact absurd heq.1 h
    · exact absurd heq.2 (h _)
  · rfl

theorem sub5_prev (prev : Option Char) (s : List Char) :
    subLoop match5 prev 0 s = subLoop match5 none 0 s := by
  cases s with
  | nil => simp [subLoop]
  | cons c s =>
    rw [subLoop, subLoop]
    rfl

theorem sub5_chr {c : Char} {s : List Char} (h : c ≠ '(' ∨ ∀ r, s ≠ '?' :: ':' :: r)
    (prev : Option Char) :
    subLoop match5 prev 0 (c :: s) = pre [c] (subLoop match5 none 0 s) := by
  rw [sub_none (match5_none h), sub5_prev]

/-- What may follow a token. -/
def NotOpen (s : List Char) : Prop := ∀ r, s ≠ '?' :: ':' :: r

theorem sub5_tok {t : Tk} (ht : t.ok) {s : List Char} (hs : NotOpen s) (prev : Option Char) :
    subLoop match5 prev 0 (t.text ++ s) = pre t.text (subLoop match5 none 0 s) := by
  cases t with
  | plain c =>
    have h1 : c ≠ '(' := by rintro rfl; exact ht (by decide)
    simp only [Tk.text, List.cons_append, List.nil_append]
    rw [sub5_chr (Or.inl h1)]
  | esc c =>
    simp only [Tk.text, List.cons_append, List.nil_append]
    rw [sub5_chr (Or.inl (by decide)), sub5_chr (Or.inr hs), pre_pre]
    rfl
  | dot =>
    simp only [Tk.text, List.cons_append, List.nil_append]
    rw [sub5_chr (Or.inl (by decide))]

theorem Stop.notOpen {s : List Char} (h : Stop s) (q : Bool) : NotOpen (Pt.qm q ++ s) := by
  intro r
  cases q <;> rcases h with rfl | ⟨r', rfl⟩ | ⟨r', rfl⟩ <;> simp [Pt.qm]

theorem Tk.ok.notOpen {t : Tk} (ht : t.ok) (s : List Char) : NotOpen (t.text ++ s) := by
  intro r he
  exact ht.ne (d := '?') (by decide) (by decide) (by decide) _ _ _ he rfl

theorem Pt.rest_notOpen {k : Pt} (hk : k.wf .rest) {s : List Char} (hs : Stop s) :
    NotOpen (k.render Tk.text ++ s) := by
  cases k with
  | done => exact hs.notOpen false
  | tok t k => rw [Pt.render, List.append_assoc]; exact hk.1.notOpen _
  | last t q => rw [Pt.render, List.append_assoc]; exact Tk.ok.notOpen hk _
  | cls ts q => intro r; simp [Pt.render]
  | grp a q => intro r; simp [Pt.render]
  | alt x y => exact absurd hk (by simp [Pt.wf])

theorem sub5_close {s : List Char} (q : Bool) (prev : Option Char) :
    subLoop match5 prev 0 (Pt.qm q ++ s) = pre (Pt.qm q) (subLoop match5 none 0 s) := by
  cases q with
  | false => simp only [Pt.qm, Bool.false_eq_true, if_false, List.nil_append, pre_nil]
             exact sub5_prev _ _
  | true =>
    simp only [Pt.qm, if_true, List.cons_append, List.nil_append]
    rw [sub5_chr (Or.inl (by decide))]

theorem sub5_toks (ts : List Tk) (hts : ∀ t ∈ ts, t.ok) (q : Bool) {s : List Char}
    (prev : Option Char) :
    subLoop match5 prev 0 (ts.flatMap Tk.text ++ (']' :: Pt.qm q ++ s)) =
      pre (ts.flatMap Tk.text ++ ']' :: Pt.qm q) (subLoop match5 none 0 s) := by
  induction ts generalizing prev with
  | nil =>
    simp only [List.flatMap_nil, List.nil_append, List.cons_append]
    rw [sub5_chr (Or.inl (by decide)), sub5_close, pre_pre]
    rfl
  | cons t ts ih =>
    simp only [List.flatMap_cons, List.append_assoc]
    rw [sub5_tok (hts t (by simp)), ih (fun t h => hts t (by simp [h])), pre_pre]
    cases ts with
    | nil => intro r; simp
    | cons t' ts =>
      rw [List.flatMap_cons, List.append_assoc]
      exact (hts t' (by simp)).notOpen _

/-- First characters of what follows a token. -/
theorem Pt.rest_head' {k : Pt} (hk : k.wf .rest) (d : Char) (s : List Char) :
    (k = .done ∧ k.render Tk.text ++ d :: s = d :: s) ∨
    (k ≠ .done ∧ ∃ c r, k.render Tk.text ++ d :: s = c :: r ∧ c ≠ ')') := by
  cases k with
  | done => exact Or.inl ⟨rfl, rfl⟩
  | tok t k =>
    right
    refine ⟨by simp, ?_⟩
    have hn : (Pt.tok t k).render Tk.text ++ d :: s ≠ [] := by simp
    obtain ⟨c, r, he⟩ := List.exists_cons_of_ne_nil hn
    refine ⟨c, r, he, ?_⟩
    rw [Pt.render, List.append_assoc] at he
    exact hk.1.ne (by decide) (by decide) (by decide) _ _ _ he
  | last t q =>
    right
    refine ⟨by simp, ?_⟩
    have hn : (Pt.last t q).render Tk.text ++ d :: s ≠ [] := by simp
    obtain ⟨c, r, he⟩ := List.exists_cons_of_ne_nil hn
    refine ⟨c, r, he, ?_⟩
    rw [Pt.render, List.append_assoc] at he
    exact Tk.ok.ne hk (by decide) (by decide) (by decide) _ _ _ he
  | cls ts q => exact Or.inr ⟨by simp, '[', _, rfl, by decide⟩
  | grp a q => exact Or.inr ⟨by simp, '(', _, rfl, by decide⟩
  | alt x y => exact absurd hk (by simp [Pt.wf])

/-- The group of one token. -/
def Pt.one : Pt → Option Tk
  | .tok t .done => if t.single then some t else none
  | _ => none

theorem Pt.s5_grp (a : Pt) (q : Bool) :
    (Pt.grp a q).s5 = match a.one with
      | some t => .last t q
      | none => .grp a.s5 q := by
  cases a with
  | tok t k =>
    cases k with
    | done =>
      simp only [Pt.s5, Pt.one]
      by_cases h : t.single <;> simp [h]
    | _ => simp [Pt.s5, Pt.one]
  | _ => simp [Pt.s5, Pt.one]

theorem Pt.one_some {a : Pt} {t : Tk} (h : a.one = some t) :
    a = .tok t .done ∧ t.single = true := by
  cases a with
  | tok t' k =>
    cases k with
    | done =>
      simp only [Pt.one] at h
      split at h
      · simp only [Option.some.injEq] at h
        subst h
        exact ⟨rfl, by assumption⟩
      · simp at h
    | _ => simp [Pt.one] at h
  | _ => simp [Pt.one] at h

theorem match5_group {a : Pt} (ha : a.wf .alts) (prev : Option Char) (s : List Char) :
    match5 prev ('(' :: '?' :: ':' :: (a.render Tk.text ++ ')' :: s)) =
      match a.one with
      | some t => .ok (some (t.text, t.text.length + 4))
      | none => .ok none := by
  unfold match5
  simp only
  cases a with
  | tok t k =>
    rw [Pt.render, List.append_assoc, cLens_tok ha.1]
    rcases Pt.rest_head' ha.2 ')' s with ⟨rfl, -⟩ | ⟨hk, c, r, he, h1⟩
    · by_cases hs : t.single <;> simp [hs, firstWith, Pt.one, Pt.render]
    · have : (Pt.tok t k).one = none := by cases k <;> simp_all [Pt.one]
      rw [this, he]
      by_cases hs : t.single <;> simp [hs, firstWith, Ne.symm h1]
  | alt x y =>
    cases x with
    | tok t k =>
      simp only [Pt.render, List.append_assoc, List.cons_append]
      rw [cLens_tok ha.1.1]
      have h1 : firstWith [')'] (if t.single = true then [t.text.length] else [])
          (t.text ++ (k.render Tk.text ++ '|' :: (y.render Tk.text ++ ')' :: s))) = none := by
        rcases Pt.rest_head' ha.1.2 '|' (y.render Tk.text ++ ')' :: s) with
          ⟨rfl, -⟩ | ⟨hk, c, r, he, h1⟩
        · by_cases hs : t.single <;> simp [hs, firstWith, Pt.render]
        · rw [he]
          by_cases hs : t.single <;> simp [hs, firstWith, Ne.symm h1]
      rw [h1]
      rfl
    | _ => exact absurd ha.1 (by simp [Pt.wf])
  | _ => exact absurd ha (by simp [Pt.wf])

theorem sub5 {p : Pt} :
    ∀ {kind : Pt.Kind}, p.wf kind → ∀ {s : List Char}, Stop s → ∀ prev : Option Char,
    subLoop match5 prev 0 (p.render Tk.text ++ s) =
      pre (p.s5.render Tk.text) (subLoop match5 none 0 s) := by
  induction p with
  | done =>
    intro kind _ s hs prev
    simp only [Pt.render, Pt.s5, List.nil_append, pre_nil]
    exact sub5_prev _ _
  | last t q =>
    intro kind hw s hs prev
    have hw' : t.ok := by cases kind <;> first | exact hw | exact absurd hw (by simp [Pt.wf])
    simp only [Pt.render, Pt.s5, List.append_assoc]
    rw [sub5_tok hw' (hs.notOpen q), sub5_close, pre_pre]
  | cls ts q =>
    intro kind hw s hs prev
    have hw' : ∀ t ∈ ts, t.ok := by
      cases kind <;> first | exact hw.2 | exact absurd hw (by simp [Pt.wf])
    simp only [Pt.render, Pt.s5, List.cons_append, List.append_assoc]
    rw [sub5_chr (Or.inl (by decide))]
    have := sub5_toks ts hw' q (s := s) none
    simp only [List.cons_append] at this
    rw [this, pre_pre]
    rfl
  | tok t k ih =>
    intro kind hw s hs prev
    have hw' : t.ok ∧ k.wf .rest := by cases kind <;> exact hw
    simp only [Pt.render, Pt.s5, List.append_assoc]
    rw [sub5_tok hw'.1 (Pt.rest_notOpen hw'.2 hs), ih hw'.2 hs, pre_pre]
  | grp a q ih =>
    intro kind hw s hs prev
    have hw' : a.wf .alts := by cases kind <;> first | exact hw | exact absurd hw (by simp [Pt.wf])
    rw [Pt.s5_grp]
    simp only [Pt.render, List.cons_append, List.append_assoc]
    have hm := match5_group hw' prev (Pt.qm q ++ s)
    cases ho : a.one with
    | some t =>
      rw [ho] at hm
      obtain ⟨rfl, -⟩ := Pt.one_some ho
      rw [sub_some hm]
      simp only [Pt.render, List.append_nil]
      have := sub_skip (m := match5) ('?' :: ':' :: t.text) ')' (Pt.qm q ++ s) (some '(')
      simp only [List.cons_append, List.length_cons] at this
      rw [show t.text.length + 4 - 1 = t.text.length + 1 + 1 + 1 by omega, this, sub5_close, pre_pre]
    | none =>
      rw [ho] at hm
      rw [sub_none hm, sub5_chr (Or.inl (by decide)), sub5_chr (Or.inl (by decide)),
        ih hw' (Or.inr (Or.inr ⟨_, rfl⟩)), sub5_chr (Or.inl (by decide)), sub5_close]
      simp only [pre_pre, Pt.render]
      simp
  | alt x y ihx ihy =>
    intro kind hw s hs prev
    have hw' : x.wf .branch ∧ y.wf .alts := by
      cases kind <;> first | exact hw | exact absurd hw (by simp [Pt.wf])
    simp only [Pt.render, Pt.s5, List.append_assoc, List.cons_append]
    rw [ihx hw'.1 (Or.inr (Or.inl ⟨_, rfl⟩)), sub5_chr (Or.inl (by decide)), ihy hw'.2 hs]
    simp only [pre_pre]
    simp

/-! ## All of them -/

theorem Pt.simple_heads {a : Pt} (ha : a.wf .alts) (hs : a.simple = true) :
    a.heads ≠ [] ∧ ∀ t ∈ a.heads, t.ok := by
  induction a with
  | tok t k _ => simp [Pt.heads, ha.1]
  | alt x y _ ihy =>
    cases x with
    | tok t k =>
      cases k <;> simp [Pt.simple] at hs
      have := ihy ha.2 hs.2
      refine ⟨by simp [Pt.heads], ?_⟩
      intro t' ht'
      simp only [Pt.heads, List.cons_append, List.nil_append, List.mem_cons] at ht'
      rcases ht' with rfl | h
      · exact ha.1.1
      · exact this.2 _ h
    | _ => simp [Pt.simple] at hs
  | _ => simp [Pt.simple] at hs

theorem Pt.s1_wf {p : Pt} : ∀ {kind : Pt.Kind} (b : Bool), p.wf kind → (p.s1 b).wf kind := by
  induction p with
  | done => exact fun b h => h
  | last t q => exact fun b h => h
  | cls ts q => exact fun b h => h
  | tok t k ih =>
    intro kind b h
    cases kind <;> exact ⟨h.1, ih _ h.2⟩
  | grp a q ih =>
    intro kind b h
    have h' : a.wf .alts := by cases kind <;> first | exact h | exact absurd h (by simp [Pt.wf])
    have hk : kind = .rest := by cases kind <;> first | rfl | exact absurd h (by simp [Pt.wf])
    subst hk
    simp only [Pt.s1]
    split_ifs with hc
    · exact Pt.simple_heads h' hc.2
    · exact ih _ h'
  | alt x y ihx ihy =>
    intro kind b h
    cases kind <;> first | exact ⟨ihx _ h.1, ihy _ h.2⟩ | exact absurd h (by simp [Pt.wf])

theorem Pt.s4_wf {p : Pt} : ∀ {kind : Pt.Kind} (b : Bool), p.wf kind → (p.s4 b).wf kind := by
  induction p with
  | done => exact fun b h => h
  | last t q => exact fun b h => h
  | cls ts q =>
    intro kind b h
    have hk : kind = .rest := by cases kind <;> first | rfl | exact absurd h (by simp [Pt.wf])
    subst hk
    cases ts with
    | nil => exact h
    | cons t ts =>
      cases ts with
      | nil =>
        simp only [Pt.s4]
        split_ifs
        · exact h.2 t (by simp)
        · exact h
      | cons t' ts => exact h
  | tok t k ih =>
    intro kind b h
    cases kind <;> exact ⟨h.1, ih _ h.2⟩
  | grp a q ih =>
    intro kind b h
    have hk : kind = .rest := by cases kind <;> first | rfl | exact absurd h (by simp [Pt.wf])
    subst hk
    exact ih _ h
  | alt x y ihx ihy =>
    intro kind b h
    cases kind <;> first | exact ⟨ihx _ h.1, ihy _ h.2⟩ | exact absurd h (by simp [Pt.wf])

theorem Pt.s5_wf {p : Pt} : ∀ {kind : Pt.Kind}, p.wf kind → p.s5.wf kind := by
  induction p with
  | done => exact fun h => h
  | last t q => exact fun h => h
  | cls ts q => exact fun h => h
  | tok t k ih =>
    intro kind h
    cases kind <;> exact ⟨h.1, ih h.2⟩
  | grp a q ih =>
    intro kind h
    have hk : kind = .rest := by cases kind <;> first | rfl | exact absurd h (by simp [Pt.wf])
    subst hk
    rw [Pt.s5_grp]
    cases ho : a.one with
    | some t =>
      obtain ⟨rfl, -⟩ := Pt.one_some ho
      exact h.1
    | none => exact ih h
  | alt x y ihx ihy =>
    intro kind h
    cases kind <;> first | exact ⟨ihx h.1, ihy h.2⟩ | exact absurd h (by simp [Pt.wf])

/-- The simplification on pattern trees. -/
def Pt.simp (p : Pt) : Pt := ((p.s1 false).s4 false).s5

theorem Pt.simp_wf {p : Pt} {kind : Pt.Kind} (h : p.wf kind) : p.simp.wf kind :=
  Pt.s5_wf (Pt.s4_wf _ (Pt.s1_wf _ h))

theorem simplified_eq {p : Pt} (hr : p.raw) (hw : p.wf .rest) :
    simplified (p.render Tk.text) = .ok (p.simp.render Tk.text) := by
  have hstop : Stop [] := Or.inl rfl
  have h1 := sub1 hr hw hstop none
  have h2 := sub2 shy2_match2 (Pt.s1_wf false hw) hstop none
  have h3 := sub2 shy2_match3 (Pt.s1_wf false hw) hstop none
  have h4 := sub4 (Pt.s1_wf false hw) hstop none
  have h5 := sub5 (Pt.s4_wf false (Pt.s1_wf false hw)) hstop none
  simp only [List.append_nil, subLoop, pre_ok, reduceCtorEq, decide_false] at h1 h2 h3 h4 h5
  unfold simplified
  simp only [h1, h2, h3, h4, h5, bind, Except.bind]
  rfl

section
open Trie (Node)
variable {ν : Type}

theorem kidsPt_raw (g : Char → Tk) (f : List (Char × Node Char ν)) : (kidsPt g f).raw := by
  induction f using kids_induct with
  | h0 => rw [kidsPt_nil]; trivial
  | h1 k c rest ih1 ih2 =>
    have hc : (contPt g c).raw := by
      unfold contPt
      split_ifs
      · trivial
      · exact ih1
      · exact ih1
      · exact ih1
    rw [kidsPt_cons]
    split_ifs
    · exact hc
    · exact ⟨hc, ih2⟩

theorem contPt_raw (g : Char → Tk) (n : Node Char ν) : (contPt g n).raw := by
  have := kidsPt_raw g [('a', n)]
  rw [kidsPt_cons] at this
  simpa [Pt.raw] using this

end

end Regex
end Verif
