import Verif.Regex.Build
import Verif.Regex.TrieSem

/-!
# From `to_regex` to what its pattern matches

Helper lemmas only; the property theorems are in `Verif.Regex.Props`.
-/

namespace Verif
namespace Regex

open RegexSpec
open Trie (Node)

variable {ν : Type} (sp : Char → Bool) (o : Opts)

/-- The pattern tree of a trie. -/
def treeOf (root : Node Char ν) : Pt :=
  if o.simplify then (contPt (tk sp o) root).simp else contPt (tk sp o) root

theorem treeOf_wf (root : Node Char ν) : (treeOf sp o root).wf .rest := by
  unfold treeOf
  split_ifs
  · exact Pt.simp_wf (contPt_wf _ (tk_ok sp o) _)
  · exact contPt_wf _ (tk_ok sp o) _

/-- The result for any trie. -/
theorem toRegex_general (root : Node Char ν) :
    toRegex sp true o root =
      .ok (let s := brackets o.boundary ((treeOf sp o root).render (fin o.fuzzySpaces))
        if o.fuzzySpaces then collapse s.length s else s) := by
  have hw := treeOf_wf sp o root
  have h1 : rawPattern (keyText sp o) root = .ok ((contPt (tk sp o) root).render Tk.text) := by
    rw [show keyText sp o = fun c => (tk sp o c).text from funext (keyText_eq sp o)]
    exact rawPattern_eq _ _
  have h2 : (if o.simplify = true then simplified ((contPt (tk sp o) root).render Tk.text)
      else .ok ((contPt (tk sp o) root).render Tk.text)) =
      .ok ((treeOf sp o root).render Tk.text) := by
    unfold treeOf
    split_ifs
    · exact simplified_eq (contPt_raw _ _) (contPt_wf _ (tk_ok sp o) _)
    · rfl
  have h3 : spaced o.fuzzySpaces (brackets o.boundary ((treeOf sp o root).render Tk.text)) =
      .ok (let s := brackets o.boundary ((treeOf sp o root).render (fin o.fuzzySpaces))
        if o.fuzzySpaces then collapse s.length s else s) := by
    cases hf : o.fuzzySpaces with
    | false => exact spaced_false hw _
    | true => exact spaced_true hw _
  unfold toRegex
  simp only [Bool.not_true, Bool.false_eq_true, if_false, h1]
  by_cases hs : o.simplify = true
  · rw [if_pos hs] at h2
    simp only [bind, Except.bind, if_pos hs, h2, wrapped_eq hw, h3]
  · rw [if_neg hs, Except.ok.injEq] at h2
    simp only [bind, Except.bind, if_neg hs, h2, wrapped_eq hw, h3]

theorem toRegex_eq (root : Node Char ν)
    (hc : o.fuzzySpaces = true → (treeOf sp o root).clean none none) :
    toRegex sp true o root =
      .ok (brackets o.boundary ((treeOf sp o root).render (fin o.fuzzySpaces))) := by
  rw [toRegex_general]
  cases hf : o.fuzzySpaces with
  | false => rfl
  | true =>
    simp only [if_true]
    exact congrArg Except.ok
      (collapse_noop (dbl_brackets (treeOf_wf sp o root) (hc hf) o.boundary) _)

/-! ## Tokens -/

/-- The three kinds of tokens. -/
theorem tk_cases (h1 : sp ' ' = true) (k : Char) :
    (o.fuzzySpaces = true ∧ sp k = true ∧ tk sp o k = .esc ' ') ∨
    (¬ (o.fuzzySpaces = true ∧ sp k = true) ∧ o.fffdAny = true ∧ k = '�' ∧ tk sp o k = .dot) ∨
    (¬ (o.fuzzySpaces = true ∧ sp k = true) ∧ ¬ (o.fffdAny = true ∧ k = '�') ∧
      ¬ (o.fuzzySpaces = true ∧ k = ' ') ∧ (tk sp o k = .esc k ∨ tk sp o k = .plain k)) := by
  unfold tk
  by_cases h : o.fuzzySpaces = true ∧ sp k = true
  · left
    refine ⟨h.1, h.2, ?_⟩
    simp only [h.1, h.2, if_true]
    rw [if_pos (by decide)]
  · right
    have hk : (if o.fuzzySpaces = true then (if sp k = true then ' ' else k) else k) = k := by
      split_ifs with ha hb
      · exact absurd ⟨ha, hb⟩ h
      · rfl
      · rfl
    simp only [hk]
    by_cases hd : o.fffdAny = true ∧ k = '�'
    · left
      refine ⟨h, hd.1, hd.2, ?_⟩
      rw [if_neg (by rw [hd.2]; decide), if_pos hd]
    · right
      refine ⟨h, hd, ?_, ?_⟩
      · rintro ⟨ha, rfl⟩
        exact h ⟨ha, h1⟩
      · split_ifs
        · exact Or.inl rfl
        · exact Or.inr rfl

theorem tk_test (u : Classes) (hu : u.space = sp) (h1 : sp ' ' = true) (h2 : sp '�' = false)
    (k c : Char) : ((tk sp o k).atom o.fuzzySpaces).test u c = true ↔
      Agrees sp o.fuzzySpaces o.fffdAny k c := by
  unfold Agrees
  rcases tk_cases sp o h1 k with ⟨ha, hb, ht⟩ | ⟨ha, hb, rfl, ht⟩ | ⟨ha, hb, hc, ht⟩
  · rw [ht]
    simp only [Tk.atom, ha, true_and, if_true, Atom.test, hu, hb]
    constructor
    · exact fun h => Or.inr (Or.inl h)
    · rintro (rfl | h | ⟨-, rfl, -⟩)
      · exact hb
      · exact h
      · rw [h2] at hb; exact absurd hb (by simp)
  · rw [ht]
    simp only [Tk.atom, Atom.test, hb, true_and, decide_eq_true_eq]
    constructor
    · exact fun h => Or.inr (Or.inr h)
    · rintro (rfl | ⟨-, h, -⟩ | h)
      · decide
      · rw [h2] at h; exact absurd h (by simp)
      · exact h
  · have : ((tk sp o k).atom o.fuzzySpaces) = .chr k := by
      rcases ht with ht | ht <;> rw [ht]
      · simp only [Tk.atom]
        rw [if_neg hc]
      · rfl
    rw [this]
    simp only [Atom.test, decide_eq_true_eq]
    constructor
    · exact Or.inl
    · rintro (h | ⟨h, h', -⟩ | ⟨h, h', -⟩)
      · exact h
      · exact absurd ⟨h, h'⟩ ha
      · exact absurd ⟨h, h'⟩ hb

theorem tk_sp (h1 : sp ' ' = true) (hf : o.fuzzySpaces = true) {k : Char}
    (h : tk sp o k = Tk.sp) : sp k = true := by
  rcases tk_cases sp o h1 k with ⟨_, hb, _⟩ | ⟨_, _, _, ht⟩ | ⟨_, _, hc, ht⟩
  · exact hb
  · rw [ht] at h; exact absurd h (by simp [Tk.sp])
  · rcases ht with ht | ht <;> rw [ht] at h
    · simp only [Tk.sp, Tk.esc.injEq] at h
      exact absurd ⟨hf, h⟩ hc
    · exact absurd h (by simp [Tk.sp])

theorem tk_plain (h1 : sp ' ' = true) {k : Char} {d : Char}
    (h : tk sp o k = .plain d) : k = d := by
  rcases tk_cases sp o h1 k with ⟨_, _, ht⟩ | ⟨_, _, _, ht⟩ | ⟨_, _, _, ht | ht⟩ <;> rw [ht] at h <;>
    simp at h
  exact h

theorem tk_esc (h1 : sp ' ' = true) {k : Char} {d : Char} (hd : d ≠ ' ')
    (h : tk sp o k = .esc d) : k = d := by
  rcases tk_cases sp o h1 k with ⟨_, _, ht⟩ | ⟨_, _, _, ht⟩ | ⟨_, _, _, ht | ht⟩ <;> rw [ht] at h <;>
    simp at h
  · exact absurd h.symm hd
  · exact h

theorem tk_dot (h1 : sp ' ' = true) {k : Char} (h : tk sp o k = .dot) :
    o.fffdAny = true ∧ k = '�' := by
  rcases tk_cases sp o h1 k with ⟨_, _, ht⟩ | ⟨_, ha, hb, ht⟩ | ⟨_, _, _, ht | ht⟩ <;> rw [ht] at h <;>
    simp at h
  exact ⟨ha, hb⟩

/-! ## Conditions on keys -/

/-- The keys of a node. -/
abbrev keysOf (n : Node Char ν) (key : List Char) : Prop := n.get key ≠ none

variable {sp o} {root : Node Char ν} (hn : root.WF) (h1 : sp ' ' = true) (h2 : sp '�' = false)
include hn h1 h2

omit h2 in
theorem tree_lone (h : o.fffdAny = true → LoneWildcard (keysOf root)) :
    (contPt (tk sp o) root).lone := by
  refine contPt_lone _ hn ?_
  intro p m hw hlen k hk hd
  obtain ⟨hf, rfl⟩ := tk_dot sp o h1 hd
  obtain ⟨a, ha⟩ := key_through hn hw hk
  have hnd := (Node.walk_wf hn hw).nodup
  unfold Dict.keys at hnd
  have hall : ∀ x ∈ m.kids.map Prod.fst, x = '�' := by
    intro x hx
    obtain ⟨b, hb⟩ := key_through hn hw hx
    exact h hf p x a b ha hb
  generalize m.kids.map Prod.fst = l at hlen hnd hall
  match l with
  | [] => simp at hlen
  | [_] => simp at hlen
  | x :: y :: l =>
    rw [hall x (by simp), hall y (by simp)] at hnd
    simp at hnd

theorem tree_det (u : Classes) (hu : u.space = sp)
    (hd : o.fffdAny = true → LoneWildcard (keysOf root))
    (hs : o.fuzzySpaces = true → NoSpaceFork sp (keysOf root)) :
    (contPt (tk sp o) root).det u o.fuzzySpaces := by
  refine contPt_det u _ _ hn ?_
  intro p m hw
  have hnd := (Node.walk_wf hn hw).nodup
  unfold Dict.keys at hnd
  refine List.Pairwise.imp_of_mem ?_ hnd
  intro a b ha hb hne c hc
  obtain ⟨qa, hqa⟩ := key_through hn hw ha
  obtain ⟨qb, hqb⟩ := key_through hn hw hb
  rw [tk_test sp o u hu h1 h2, tk_test sp o u hu h1 h2] at hc
  obtain ⟨hca, hcb⟩ := hc
  have wild : o.fffdAny = true → a = '�' ∨ b = '�' → False := by
    rintro ho (rfl | rfl)
    · exact hne (hd ho p b qa qb hqa hqb).symm
    · exact hne (hd ho p a qb qa hqb hqa)
  rcases hca with rfl | ⟨hf, ha1, hc1⟩ | ⟨ho, hx, -⟩
  · rcases hcb with rfl | ⟨hf, hb1, hc1⟩ | ⟨ho, hx, -⟩
    · exact hne rfl
    · exact hne (hs hf p a b qa qb hqa hqb hc1 hb1)
    · exact wild ho (Or.inr hx)
  · rcases hcb with rfl | ⟨-, hb1, -⟩ | ⟨ho, hx, -⟩
    · exact hne (hs hf p a b qa qb hqa hqb ha1 hc1)
    · exact hne (hs hf p a b qa qb hqa hqb ha1 hb1)
    · exact wild ho (Or.inr hx)
  · exact wild ho (Or.inl hx)

omit hn h2 in
/-- A token list without a doubled space. -/
theorem cleanList_of {ts : List Char} (hf : o.fuzzySpaces = true)
    (hA : ∀ a x y b, ts = a ++ x :: y :: b → ¬ (sp x = true ∧ sp y = true))
    (hB : ∀ a y b, ts = a ++ '\\' :: 's' :: y :: b → ¬ sp y = true) :
    cleanList none none (ts.map (tk sp o)) := by
  have main : ∀ (ts pre : List Char) (a b : Option Tk), (∀ t, a = some t → ∃ q x, pre = q ++ [x] ∧ tk sp o x = t ∧
      ∀ t', b = some t' → ∃ q' x', q = q' ++ [x'] ∧ tk sp o x' = t') →
      (∀ q x y r, pre ++ ts = q ++ x :: y :: r → ¬ (sp x = true ∧ sp y = true)) →
      (∀ q y r, pre ++ ts = q ++ '\\' :: 's' :: y :: r → ¬ sp y = true) →
      cleanList a b (ts.map (tk sp o)) := by
    intro ts
    induction ts with
    | nil => intros; trivial
    | cons t ts ih =>
      intro pre a b hab hA hB
      refine ⟨?_, ih (pre ++ [t]) _ _ ?_ (by simpa using hA) (by simpa using hB)⟩
      · rintro ⟨ht, hl⟩
        have hst := tk_sp sp o h1 hf ht
        rcases hl with hl | ⟨hl, hl'⟩
        · obtain ⟨q, x, rfl, hx, -⟩ := hab _ hl
          exact hA q x t ts (by simp) ⟨tk_sp sp o h1 hf hx, hst⟩
        · obtain ⟨q, x, rfl, hx, hb⟩ := hab _ hl
          obtain ⟨q', x', rfl, hx'⟩ := hb _ hl'
          have e1 := tk_plain sp o h1 hx
          have e2 := tk_esc sp o h1 (by decide) hx'
          subst e1 e2
          exact hB q' t ts (by simp) hst
      · intro t' ht'
        injection ht' with ht'
        refine ⟨pre, t, rfl, ht', ?_⟩
        intro t'' hb
        obtain ⟨q, x, h3, h4, -⟩ := hab t'' hb
        exact ⟨q, x, h3, h4⟩
  exact main ts [] none none (by simp) (by simpa using hA) (by simpa using hB)

omit h2 in
theorem tree_clean (hf : o.fuzzySpaces = true) (hd : NoDoubleSpace sp (keysOf root))
    (hs : o.simplify = true → NoSpaceFork sp (keysOf root) ∧ NoEscapeFork sp (keysOf root)) :
    (treeOf sp o root).clean none none := by
  have ht : (contPt (tk sp o) root).tight none none := by
    refine contPt_tight _ hn ?_
    intro p hp
    by_cases hp0 : p = []
    · subst hp0; trivial
    · obtain ⟨q, hq⟩ := key_extends hn hp hp0
      refine cleanList_of h1 hf ?_ ?_
      · rintro a x y b rfl
        exact hd.1 a x y (b ++ q) (by simpa using hq)
      · rintro a y b rfl
        exact hd.2 a y (b ++ q) (by simpa using hq)
  unfold treeOf
  split_ifs with hsi
  · obtain ⟨hs1, hs2⟩ := hs hsi
    refine Pt.tight_clean (Pt.simp_tight (contPt_neat _ hn ?_) ht)
    intro p m hw
    have hnd := (Node.walk_wf hn hw).nodup
    unfold Dict.keys at hnd
    have hmem : ∀ x ∈ (m.kids.map Prod.fst).reverse, ∃ q, root.get (p ++ x :: q) ≠ none :=
      fun x hx => key_through hn hw (List.mem_reverse.1 hx)
    have hnd' : (m.kids.map Prod.fst).reverse.Nodup := List.nodup_reverse.2 hnd
    generalize (m.kids.map Prod.fst).reverse = l at hmem hnd'
    refine cleanList_of h1 hf ?_ ?_
    · rintro a x y b rfl ⟨hx, hy⟩
      obtain ⟨qx, hqx⟩ := hmem x (by simp)
      obtain ⟨qy, hqy⟩ := hmem y (by simp)
      have := hs1 p x y qx qy hqx hqy hx hy
      subst this
      rw [List.nodup_append] at hnd'
      simp at hnd'
    · rintro a y b rfl hy
      obtain ⟨q1, hq1⟩ := hmem '\\' (by simp)
      obtain ⟨q2, hq2⟩ := hmem 's' (by simp)
      obtain ⟨q3, hq3⟩ := hmem y (by simp)
      exact hs2 p y q1 q2 q3 hq1 hq2 hq3 hy
  · exact Pt.tight_clean ht

omit hn h1 h2 in
/-- The ends of the whole pattern. -/
theorem whole_ends (u : Classes) (fz boundary : Bool) {p : Pt} (hw : p.wf .rest) (text : List Char)
    (i : Nat) :
    (p.whole fz boundary).ends u text i =
      if boundary then
        (if RegexSpec.boundary u text i then (p.E u fz text i).filter (RegexSpec.boundary u text)
          else [])
      else p.E u fz text i := by
  unfold Pt.whole
  rw [ends_seq_eps]
  cases boundary with
  | false => rfl
  | true =>
    simp only [if_true]
    rw [RE.ends, RE.ends]
    split_ifs with hb
    · simp only [List.flatMap_cons, List.flatMap_nil, List.append_nil]
      rw [Pt.ends_toREk u fz _ text (Or.inl hw)]
      generalize p.E u fz text i = l
      induction l with
      | nil => rfl
      | cons a l ih =>
        rw [List.flatMap_cons, ih, List.filter_cons]
        simp only [RE.ends]
        split_ifs <;> simp
    · rfl

end Regex
end Verif
