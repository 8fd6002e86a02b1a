import Verif.Regex.Final

/-!
# What `RegexSpec.parse` reads from the text of a pattern tree

Helper lemmas only; the property theorems are in `Verif.Regex.Props`.
-/

namespace Verif
namespace Regex

open RegexSpec

/-- The final text of an escaped space. -/
def spText (fz : Bool) : List Char := if fz then ['\\', 's'] else [' ']

/-- The final text of a token. -/
abbrev fin (fz : Bool) : Tk → List Char := Tk.final (spText fz)

/-- Texts that do not begin with a repetition. -/
def NoRep (s : List Char) : Prop := ∀ r, s ≠ '?' :: r ∧ s ≠ '+' :: r

theorem repeats_none {s : List Char} (h : NoRep s) (r : RE) : repeats r s = some (r, s) := by
  unfold repeats
  split <;> first | exact absurd rfl (h _).1 | exact absurd rfl (h _).2 | rfl

theorem repeats_opt {s : List Char} (h : NoRep s) {r : RE} (hr : r ≠ .bound) (q : Bool) :
    repeats r (Pt.qm q ++ s) = some (Pt.optRE q r, s) := by
  cases q with
  | false => exact repeats_none h r
  | true =>
    change repeats r ('?' :: s) = _
    cases s with
    | nil => simp [repeats, hr, Pt.optRE]
    | cons c s =>
      have h1 : c ≠ '?' := by rintro rfl; exact (h s).1 rfl
      have h2 : c ≠ '+' := by rintro rfl; exact (h s).2 rfl
      unfold repeats
      split <;> simp_all [Pt.optRE]

theorem escaped_special {c : Char} (h : c ∈ specials) : escaped c = some (.chr c) ∧ c ≠ 'b' := by
  have : ∀ c ∈ specials, escaped c = some (.chr c) ∧ c ≠ 'b' := by decide
  exact this c h

theorem parseItem_tok {t : Tk} (ht : t.ok) (fz : Bool) (s : List Char) (f : Nat) :
    parseItem (f + 1) (fin fz t ++ s) = some (.atom (t.atom fz), s) := by
  cases t with
  | plain c =>
    have h : ∀ d ∈ specials, c ≠ d := by rintro d hd rfl; exact ht hd
    have hm : c ∉ metaChars := by
      intro hc
      have : ∀ d ∈ metaChars, d ∈ specials := by decide
      exact ht (this c hc)
    simp only [Tk.final, Tk.text, List.singleton_append, Tk.atom]
    unfold parseItem
    split
    · omega
    · rename_i heq; simp only [List.cons.injEq] at heq; exact absurd heq.1 (h _ (by decide))
    · rename_i heq; simp only [List.cons.injEq] at heq; exact absurd heq.1 (h _ (by decide))
    · rename_i heq; simp only [List.cons.injEq] at heq; exact absurd heq.1 (h _ (by decide))
    · rename_i heq; simp only [List.cons.injEq] at heq; exact absurd heq.1 (h _ (by decide))
    · rename_i heq; simp only [List.cons.injEq] at heq; exact absurd heq.1 (h _ (by decide))
    · rename_i heq
      simp only [List.cons.injEq] at heq
      obtain ⟨rfl, rfl⟩ := heq
      rw [if_neg hm]
    · rename_i heq; simp at heq
  | dot => simp [Tk.final, Tk.text, Tk.atom, parseItem]
  | esc c =>
    by_cases hc : c = ' '
    · subst hc
      cases fz with
      | true => simp [Tk.final, spText, Tk.atom, parseItem, escaped]
      | false =>
        simp [Tk.final, spText, Tk.atom, parseItem, metaChars]
    · obtain ⟨h1, h2⟩ := escaped_special ht
      simp only [fin, Tk.final, hc, if_false, Tk.atom, and_false, List.cons_append, List.nil_append]
      unfold parseItem
      split
      · omega
      · rename_i heq; simp at heq
      · rename_i heq; simp at heq
      · rename_i heq
        simp only [List.cons.injEq, true_and] at heq
        exact absurd heq.1 h2
      · rename_i heq
        simp only [List.cons.injEq, true_and] at heq
        obtain ⟨rfl, rfl⟩ := heq
        simp [h1]
      · rename_i heq; simp at heq
      · rename_i heq
        simp only [List.cons.injEq] at heq
        obtain ⟨rfl, rfl⟩ := heq
        simp_all
      · rename_i heq; simp at heq

/-- First character of the final text of a token. -/
theorem fin_head {t : Tk} (ht : t.ok) (fz : Bool) (s : List Char) :
    ∃ c r, fin fz t ++ s = c :: r ∧ c ≠ '|' ∧ c ≠ ')' ∧ c ≠ '?' ∧ c ≠ '+' ∧ c ≠ ']' := by
  cases t with
  | plain c =>
    have h : ∀ d ∈ specials, c ≠ d := by rintro d hd rfl; exact ht hd
    exact ⟨c, s, rfl, h _ (by decide), h _ (by decide), h _ (by decide), h _ (by decide),
      h _ (by decide)⟩
  | dot => exact ⟨'.', s, rfl, by decide, by decide, by decide, by decide, by decide⟩
  | esc c =>
    by_cases hc : c = ' '
    · subst hc
      cases fz with
      | true => exact ⟨'\\', 's' :: s, rfl, by decide, by decide, by decide, by decide, by decide⟩
      | false => exact ⟨' ', s, rfl, by decide, by decide, by decide, by decide, by decide⟩
    · exact ⟨'\\', c :: s, by simp [Tk.final, hc], by decide, by decide, by decide, by decide,
        by decide⟩

theorem fin_noRep {t : Tk} (ht : t.ok) (fz : Bool) (s : List Char) : NoRep (fin fz t ++ s) := by
  obtain ⟨c, r, he, -, -, h1, h2, -⟩ := fin_head ht fz s
  intro r'
  rw [he]
  constructor <;> intro h <;> simp only [List.cons.injEq] at h
  · exact h1 h.1
  · exact h2 h.1

theorem fin_length {t : Tk} (ht : t.ok) (fz : Bool) : 1 ≤ (fin fz t).length := by
  obtain ⟨c, r, he, -⟩ := fin_head ht fz []
  rw [List.append_nil] at he
  rw [he]
  simp

/-! ## Classes -/

theorem parseCls_tok {t : Tk} (ht : t.ok) (fz : Bool) (s : List Char) :
    parseCls (fin fz t ++ s) = (parseCls s).map fun r => (t.clsAtom fz :: r.1, r.2) := by
  cases t with
  | plain c =>
    have h : ∀ d ∈ specials, c ≠ d := by rintro d hd rfl; exact ht hd
    have hm : c ∉ clsMeta := by
      intro hc
      have : ∀ d ∈ clsMeta, d ∈ specials := by decide
      exact ht (this c hc)
    simp only [Tk.final, Tk.text, List.singleton_append, Tk.clsAtom, Tk.atom]
    rw [parseCls.eq_def]
    split
    · rename_i heq; simp at heq
    · rename_i heq; simp only [List.cons.injEq] at heq; exact absurd heq.1 (h _ (by decide))
    · rename_i heq; simp only [List.cons.injEq] at heq; exact absurd heq.1 (h _ (by decide))
    · rename_i heq
      simp only [List.cons.injEq] at heq
      obtain ⟨rfl, rfl⟩ := heq
      rw [if_neg hm]
  | dot => simp [Tk.final, Tk.text, Tk.clsAtom, parseCls, clsMeta]
  | esc c =>
    by_cases hc : c = ' '
    · subst hc
      cases fz with
      | true => simp [Tk.final, spText, Tk.clsAtom, Tk.atom, parseCls, escaped]
      | false => simp [Tk.final, spText, Tk.clsAtom, Tk.atom, parseCls, clsMeta]
    · obtain ⟨h1, h2⟩ := escaped_special ht
      simp [fin, Tk.final, hc, Tk.clsAtom, Tk.atom, parseCls, h1]

theorem parseCls_toks (ts : List Tk) (hts : ∀ t ∈ ts, t.ok) (fz : Bool) (s : List Char) :
    parseCls (ts.flatMap (fin fz) ++ ']' :: s) = some (ts.map (Tk.clsAtom fz), s) := by
  induction ts with
  | nil => simp [parseCls]
  | cons t ts ih =>
    rw [List.flatMap_cons, List.append_assoc, parseCls_tok (hts t (by simp)),
      ih (fun t h => hts t (by simp [h]))]
    rfl

/-! ## Branches and alternatives -/

/-- The meaning of the rest of a branch followed by `k`. -/
def Pt.toREk (fz : Bool) (k : RE) : Pt → RE
  | .done => k
  | .tok t p => .seq (.atom (t.atom fz)) (p.toREk fz k)
  | .last t q => .seq (Pt.optRE q (.atom (t.atom fz))) k
  | .cls ts q => .seq (Pt.optRE q (.cls (ts.map (Tk.clsAtom fz)))) k
  | .grp a q => .seq (Pt.optRE q (a.toREk fz .eps)) k
  | .alt x y => .alt (x.toREk fz .eps) (y.toREk fz .eps)

theorem Pt.toREk_eps (fz : Bool) (p : Pt) : p.toREk fz .eps = p.toRE fz := by
  induction p <;> simp_all [Pt.toREk, Pt.toRE]

theorem parseBranch_item {f : Nat} {c : Char} {s : List Char} (h1 : c ≠ '|') (h2 : c ≠ ')') :
    parseBranch (f + 1) (c :: s) =
      match parseItem f (c :: s) with
      | none => none
      | some (r, s) =>
        match repeats r s with
        | none => none
        | some (r, s) => (parseBranch f s).map fun x => (.seq r x.1, x.2) := by
  rw [parseBranch]
  all_goals first
    | rfl
    | (intro h; cases h; done)
    | (rintro s' h; exact h1 (List.cons.inj h).1)
    | (rintro s' h; exact h2 (List.cons.inj h).1)

theorem Pt.rest_noRep {p : Pt} (hw : p.wf .rest) (fz : Bool) {s : List Char} (hs : NoRep s) :
    NoRep (p.render (fin fz) ++ s) := by
  cases p with
  | done => exact hs
  | tok t k => rw [Pt.render, List.append_assoc]; exact fin_noRep hw.1 fz _
  | last t q => rw [Pt.render, List.append_assoc]; exact fin_noRep hw fz _
  | cls ts q => intro r; simp [Pt.render]
  | grp a q => intro r; simp [Pt.render]
  | alt x y => exact absurd hw (by simp [Pt.wf])

theorem Pt.toRE_ne_bound {p : Pt} (hw : p.wf .alts) (fz : Bool) : p.toRE fz ≠ .bound := by
  cases p <;> simp [Pt.toRE]

/-- What may follow alternatives. -/
def EndAlts (s : List Char) : Prop := s = [] ∨ ∃ r, s = ')' :: r

theorem parse_aux (fz : Bool) (p : Pt) :
    (p.wf .rest ∨ p.wf .branch → ∀ (s s' : List Char) (k : RE) (m : Nat), NoRep s → 1 ≤ m →
      (∀ f, m ≤ f → parseBranch f s = some (k, s')) →
      ∀ f, m + 3 * (p.render (fin fz)).length ≤ f →
        parseBranch f (p.render (fin fz) ++ s) = some (p.toREk fz k, s')) ∧
    (p.wf .alts → ∀ s, EndAlts s → ∀ f, 3 * (p.render (fin fz)).length + 2 ≤ f →
        parseAlts f (p.render (fin fz) ++ s) = some (p.toRE fz, s)) := by
  have stop : ∀ s, EndAlts s ∨ (∃ r, s = '|' :: r) → NoRep s ∧
      ∀ f, 1 ≤ f → parseBranch f s = some (.eps, s) := by
    intro s hs
    constructor
    · rcases hs with (rfl | ⟨r, rfl⟩) | ⟨r, rfl⟩ <;> intro r' <;> simp
    · intro f hf
      obtain ⟨f, rfl⟩ : ∃ g, f = g + 1 := ⟨f - 1, by omega⟩
      rcases hs with (rfl | ⟨r, rfl⟩) | ⟨r, rfl⟩ <;> rw [parseBranch]
  have one : ∀ (p : Pt) (s : List Char), EndAlts s →
      (∀ f, 1 + 3 * (p.render (fin fz)).length ≤ f →
        parseBranch f (p.render (fin fz) ++ s) = some (p.toREk fz .eps, s)) →
      ∀ f, 3 * (p.render (fin fz)).length + 2 ≤ f →
        parseAlts f (p.render (fin fz) ++ s) = some (p.toRE fz, s) := by
    intro p s hs h f hf
    obtain ⟨f, rfl⟩ : ∃ g, f = g + 1 := ⟨f - 1, by omega⟩
    rw [parseAlts, h f (by omega), Pt.toREk_eps]
    rcases hs with rfl | ⟨r, rfl⟩ <;> rfl
  induction p with
  | done =>
    refine ⟨?_, fun h => absurd h (by simp [Pt.wf])⟩
    intro _ s s' k m _ _ hk f hf
    exact hk f (by simp only [Pt.render, List.length_nil] at hf; omega)
  | tok t p ih =>
    have hb : t.ok ∧ p.wf .rest → ∀ (s s' : List Char) (k : RE) (m : Nat), NoRep s → 1 ≤ m →
      (∀ f, m ≤ f → parseBranch f s = some (k, s')) →
      ∀ f, m + 3 * ((Pt.tok t p).render (fin fz)).length ≤ f →
        parseBranch f ((Pt.tok t p).render (fin fz) ++ s) = some ((Pt.tok t p).toREk fz k, s') := by
      intro hw s s' k m hs hm hk f hf
      obtain ⟨f, rfl⟩ : ∃ g, f = g + 1 := ⟨f - 1, by omega⟩
      have hl := fin_length hw.1 fz
      simp only [Pt.render, List.length_append, List.append_assoc] at hf ⊢
      obtain ⟨c, r, he, h1, h2, -⟩ := fin_head hw.1 fz (p.render (fin fz) ++ s)
      rw [he, parseBranch_item h1 h2, ← he]
      obtain ⟨f', rfl⟩ : ∃ g, f = g + 1 := ⟨f - 1, by omega⟩
      rw [parseItem_tok hw.1]
      simp only
      rw [repeats_none (Pt.rest_noRep hw.2 fz hs)]
      simp only
      rw [ih.1 (Or.inl hw.2) s s' k m hs hm hk _ (by omega)]
      rfl
    refine ⟨fun hw => hb (by rcases hw with hw | hw <;> exact hw), ?_⟩
    intro hw s hs
    obtain ⟨h1, h2⟩ := stop s (Or.inl hs)
    exact one _ s hs (hb hw s s .eps 1 h1 (Nat.le_refl 1) h2)
  | last t q =>
    refine ⟨?_, fun h => absurd h (by simp [Pt.wf])⟩
    intro hw s s' k m hs hm hk f hf
    have hw' : t.ok := by rcases hw with hw | hw <;> first | exact hw | exact absurd hw (by simp [Pt.wf])
    obtain ⟨f, rfl⟩ : ∃ g, f = g + 1 := ⟨f - 1, by omega⟩
    have hl := fin_length hw' fz
    simp only [Pt.render, List.length_append, List.append_assoc] at hf ⊢
    obtain ⟨c, r, he, h1, h2, -⟩ := fin_head hw' fz (Pt.qm q ++ s)
    rw [he, parseBranch_item h1 h2, ← he]
    obtain ⟨f', rfl⟩ : ∃ g, f = g + 1 := ⟨f - 1, by omega⟩
    rw [parseItem_tok hw']
    simp only
    rw [repeats_opt hs (by simp)]
    simp only
    rw [hk _ (by omega)]
    rfl
  | cls ts q =>
    refine ⟨?_, fun h => absurd h (by simp [Pt.wf])⟩
    intro hw s s' k m hs hm hk f hf
    have hw' : ts ≠ [] ∧ ∀ t ∈ ts, t.ok := by
      rcases hw with hw | hw <;> first | exact hw | exact absurd hw (by simp [Pt.wf])
    obtain ⟨f, rfl⟩ : ∃ g, f = g + 1 := ⟨f - 1, by omega⟩
    simp only [Pt.render, List.length_append, List.length_cons, List.append_assoc,
      List.cons_append] at hf ⊢
    rw [parseBranch_item (by decide) (by decide)]
    obtain ⟨f', rfl⟩ : ∃ g, f = g + 1 := ⟨f - 1, by omega⟩
    rw [parseItem, parseCls_toks ts hw'.2]
    obtain ⟨t, ts, rfl⟩ := List.exists_cons_of_ne_nil hw'.1
    simp only [List.map_cons]
    rw [repeats_opt hs (by simp)]
    simp only
    rw [hk _ (by omega)]
    rfl
  | grp a q ih =>
    refine ⟨?_, fun h => absurd h (by simp [Pt.wf])⟩
    intro hw s s' k m hs hm hk f hf
    have hw' : a.wf .alts := by
      rcases hw with hw | hw <;> first | exact hw | exact absurd hw (by simp [Pt.wf])
    obtain ⟨f, rfl⟩ : ∃ g, f = g + 1 := ⟨f - 1, by omega⟩
    simp only [Pt.render, List.length_append, List.length_cons, List.append_assoc,
      List.cons_append] at hf ⊢
    rw [parseBranch_item (by decide) (by decide)]
    obtain ⟨f', rfl⟩ : ∃ g, f = g + 1 := ⟨f - 1, by omega⟩
    rw [parseItem, ih.2 hw' _ (Or.inr ⟨_, rfl⟩) f' (by omega)]
    simp only
    rw [repeats_opt hs (Pt.toRE_ne_bound hw' fz)]
    simp only
    rw [hk _ (by omega)]
    simp [Pt.toREk, Pt.toREk_eps]
  | alt x y ihx ihy =>
    refine ⟨fun h => absurd h (by simp [Pt.wf]), ?_⟩
    intro hw s hs f hf
    obtain ⟨f, rfl⟩ : ∃ g, f = g + 1 := ⟨f - 1, by omega⟩
    simp only [Pt.render, List.length_append, List.length_cons, List.append_assoc,
      List.cons_append] at hf ⊢
    obtain ⟨h1, h2⟩ := stop ('|' :: (y.render (fin fz) ++ s)) (Or.inr ⟨_, rfl⟩)
    rw [parseAlts, ihx.1 (Or.inr hw.1) _ _ .eps 1 h1 (Nat.le_refl 1) h2 f (by omega)]
    simp only
    rw [ihy.2 hw.2 s hs f (by omega)]
    simp [Pt.toRE, Pt.toREk_eps]

/-- The meaning of the whole pattern. -/
def Pt.whole (fz boundary : Bool) (p : Pt) : RE :=
  .seq (if boundary then .seq .bound (p.toREk fz (.seq .bound .eps)) else p.toRE fz) .eps

theorem parse_brackets {p : Pt} (hw : p.wf .rest) (fz boundary : Bool) :
    parse (brackets boundary (p.render (fin fz))) = some (p.whole fz boundary) := by
  have hstop : ∀ f, 1 ≤ f → parseBranch f [')'] = some (.eps, [')']) := by
    intro f hf
    obtain ⟨f, rfl⟩ : ∃ g, f = g + 1 := ⟨f - 1, by omega⟩
    rw [parseBranch]
  have hnr : NoRep [')'] := by intro r; simp
  have hb := (parse_aux fz p).1 (Or.inl hw)
  -- the text inside the brackets
  have inner : ∀ F, 3 * (brackets boundary (p.render (fin fz))).length - 3 ≤ F →
      parseBranch F ((brackets boundary (p.render (fin fz))).drop 3) =
        some (if boundary then .seq .bound (p.toREk fz (.seq .bound .eps)) else p.toRE fz, [')']) := by
    intro F hF
    cases boundary with
    | false =>
      simp only [brackets, Bool.false_eq_true, if_false, List.length_cons, List.length_append,
        List.length_nil] at hF ⊢
      simp only [List.drop_succ_cons, List.drop_zero]
      rw [hb [')'] [')'] .eps 1 hnr (Nat.le_refl 1) hstop F (by omega), Pt.toREk_eps]
    | true =>
      simp only [brackets, if_true, List.length_cons, List.length_append, List.length_nil] at hF ⊢
      simp only [List.drop_succ_cons, List.drop_zero]
      have hk : ∀ f, 3 ≤ f → parseBranch f ['\\', 'b', ')'] = some (.seq .bound .eps, [')']) := by
        intro f hf
        obtain ⟨f, rfl⟩ : ∃ g, f = g + 1 := ⟨f - 1, by omega⟩
        rw [parseBranch_item (by decide) (by decide)]
        obtain ⟨f, rfl⟩ : ∃ g, f = g + 1 := ⟨f - 1, by omega⟩
        rw [parseItem]
        simp only
        rw [repeats_none hnr]
        simp only
        rw [hstop _ (by omega)]
        rfl
      obtain ⟨F, rfl⟩ : ∃ g, F = g + 1 := ⟨F - 1, by omega⟩
      rw [parseBranch_item (by decide) (by decide)]
      obtain ⟨F, rfl⟩ : ∃ g, F = g + 1 := ⟨F - 1, by omega⟩
      rw [parseItem]
      simp only
      have hnr' : NoRep ['\\', 'b', ')'] := by intro r; simp
      rw [repeats_none (Pt.rest_noRep hw fz hnr')]
      simp only
      rw [hb _ _ _ 3 hnr' (by omega) hk _ (by omega)]
      rfl
  have hshape : brackets boundary (p.render (fin fz)) =
      '(' :: '?' :: ':' :: (brackets boundary (p.render (fin fz))).drop 3 := by
    unfold brackets
    cases boundary <;> simp
  have hlen : 4 ≤ (brackets boundary (p.render (fin fz))).length := by
    unfold brackets
    cases boundary <;> simp
  unfold parse
  generalize hN : (brackets boundary (p.render (fin fz))).length = N at *
  obtain ⟨N, rfl⟩ : ∃ g, N = g + 4 := ⟨N - 4, by omega⟩
  rw [hshape]
  rw [show 3 * (N + 4) + 3 = (3 * N + 10 + 1 + 1 + 1) + 1 + 1 by omega, parseAlts,
    parseBranch_item (by decide) (by decide), parseItem, parseAlts]
  rw [inner _ (by omega)]
  unfold Pt.whole
  generalize (if boundary = true then RE.seq .bound (p.toREk fz (.seq .bound .eps))
    else p.toRE fz) = R
  simp [repeats, parseBranch]

end Regex
end Verif
