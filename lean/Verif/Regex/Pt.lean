import Verif.Regex.Model
import Verif.Regex.Spec
import Verif.Trie.Node
import Mathlib.Data.List.Basic

/-!
# The shape of the patterns that `to_regex` writes

Helper definitions and lemmas only; the property theorems are in `Verif.Regex.Props`. `Pt` is the
tree behind a pattern text; `Pt.render` writes it, `Pt.toRE` is what `RegexSpec.parse` reads.
-/

namespace Verif
namespace Regex

open Trie (Node frameWeight frameWeight_reverse)
open RegexSpec

/-- What one trie token becomes: a plain character, an escaped one, or the wildcard. -/
inductive Tk where
  | plain (c : Char)
  | esc (c : Char)
  | dot
deriving DecidableEq

namespace Tk

/-- Text of a token until line 564. -/
def text : Tk → List Char
  | plain c => [c]
  | esc c => ['\\', c]
  | dot => ['.']

/-- Text of a token at the end: an escaped space becomes `x`. -/
def final (x : List Char) : Tk → List Char
  | esc c => if c = ' ' then x else ['\\', c]
  | t => t.text

/-- Tokens that `keyText` produces. -/
def ok : Tk → Prop
  | plain c => c ∉ specials
  | esc c => c ∈ specials
  | dot => True

instance (t : Tk) : Decidable t.ok := by cases t <;> unfold ok <;> infer_instance

/-- Tokens that `_char` matches. -/
def single (t : Tk) : Bool := t ≠ esc '\n'

/-- What the final text of a token means. -/
def atom (fz : Bool) : Tk → Atom
  | plain c => .chr c
  | esc c => if fz = true ∧ c = ' ' then .space else .chr c
  | dot => .any

/-- What it means inside a class. -/
def clsAtom (fz : Bool) : Tk → Atom
  | dot => .chr '.'
  | t => t.atom fz

end Tk

/-- Pattern trees. Groups, classes and optional characters stand only at the end of a branch. -/
inductive Pt where
  /-- the end of a branch -/
  | done
  /-- a token and the rest of the branch -/
  | tok (t : Tk) (k : Pt)
  /-- `t` or `t?` at the end of a branch -/
  | last (t : Tk) (q : Bool)
  /-- `[…]` or `[…]?` -/
  | cls (ts : List Tk) (q : Bool)
  /-- `(?:…)` or `(?:…)?` -/
  | grp (a : Pt) (q : Bool)
  /-- `x|y` -/
  | alt (x y : Pt)

namespace Pt

/-- An optional question mark. -/
def qm (q : Bool) : List Char := if q then ['?'] else []

/-- The text of a pattern tree. -/
def render (g : Tk → List Char) : Pt → List Char
  | done => []
  | tok t k => g t ++ render g k
  | last t q => g t ++ qm q
  | cls ts q => '[' :: (ts.flatMap g ++ ']' :: qm q)
  | grp a q => '(' :: '?' :: ':' :: (render g a ++ ')' :: qm q)
  | alt x y => render g x ++ '|' :: render g y

/-- Kinds of subtrees: the rest of a branch, a branch, alternatives. -/
inductive Kind where
  | rest
  | branch
  | alts

/-- Well-formed pattern trees. -/
def wf : Kind → Pt → Prop
  | .rest, done => True
  | _, tok t k => t.ok ∧ wf .rest k
  | .rest, last t _ => t.ok
  | .rest, cls ts _ => ts ≠ [] ∧ ∀ t ∈ ts, t.ok
  | .rest, grp a _ => wf .alts a
  | .alts, alt x y => wf .branch x ∧ wf .alts y
  | _, _ => False

/-- An optional item. -/
def optRE (q : Bool) (r : RE) : RE := if q then .opt r else r

/-- What the final text means. -/
def toRE (fz : Bool) : Pt → RE
  | done => .eps
  | tok t k => .seq (.atom (t.atom fz)) (toRE fz k)
  | last t q => .seq (optRE q (.atom (t.atom fz))) .eps
  | cls ts q => .seq (optRE q (.cls (ts.map (Tk.clsAtom fz)))) .eps
  | grp a q => .seq (optRE q (toRE fz a)) .eps
  | alt x y => .alt (toRE fz x) (toRE fz y)

/-- The first tokens of the alternatives. -/
def heads : Pt → List Tk
  | tok t _ => [t]
  | alt x y => heads x ++ heads y
  | _ => []

end Pt

/-! ## The pattern tree of a node -/

/-- The token of a character (lines 444–465). -/
def tk (sp : Char → Bool) (o : Opts) (c : Char) : Tk :=
  let c := if o.fuzzySpaces then (if sp c then ' ' else c) else c
  if c ∈ specials then .esc c else if o.fffdAny ∧ c = '�' then .dot else .plain c

section
variable {ν : Type}

/-- The pattern tree of the children of a node. -/
def kidsPt (g : Char → Tk) (f : List (Char × Node Char ν)) : Pt :=
  match f with
  | [] => .done
  | (k, c) :: rest =>
    let sub := kidsPt g c.kids.reverse
    let b := Pt.tok (g k)
      (if c.kids = [] then .done
        else if c.val.isSome then .grp sub true
        else if c.kids.length ≠ 1 then .grp sub false
        else sub)
    if rest = [] then b else .alt b (kidsPt g rest)
termination_by frameWeight f
decreasing_by
  · have h := Node.weight_eq c
    simp only [frameWeight_reverse]
    simp only [frameWeight, List.map_cons, List.sum_cons] at *
    omega
  · have h := Node.weight_eq c
    simp only [frameWeight, List.map_cons, List.sum_cons] at *
    omega

/-- The pattern tree below a node. -/
def contPt (g : Char → Tk) (c : Node Char ν) : Pt :=
  if c.kids = [] then .done
  else if c.val.isSome then .grp (kidsPt g c.kids.reverse) true
  else if c.kids.length ≠ 1 then .grp (kidsPt g c.kids.reverse) false
  else kidsPt g c.kids.reverse

theorem kidsPt_nil (g : Char → Tk) : kidsPt g ([] : List (Char × Node Char ν)) = .done := by
  rw [kidsPt]

theorem kidsPt_cons (g : Char → Tk) (k : Char) (c : Node Char ν) (rest : List (Char × Node Char ν)) :
    kidsPt g ((k, c) :: rest) =
      if rest = [] then .tok (g k) (contPt g c)
      else .alt (.tok (g k) (contPt g c)) (kidsPt g rest) := by
  rw [kidsPt]
  rfl

/-- Induction over the children of a node. -/
theorem kids_induct {P : List (Char × Node Char ν) → Prop} (h0 : P [])
    (h1 : ∀ k (c : Node Char ν) rest, P c.kids.reverse → P rest → P ((k, c) :: rest)) :
    ∀ f, P f := by
  intro f
  induction hw : frameWeight f using Nat.strongRecOn generalizing f with
  | _ w ih =>
    cases f with
    | nil => exact h0
    | cons x rest =>
      obtain ⟨k, c⟩ := x
      have h := Node.weight_eq c
      simp only [frameWeight, List.map_cons, List.sum_cons] at hw
      refine h1 k c rest (ih _ ?_ _ rfl) (ih _ ?_ _ rfl)
      · rw [frameWeight_reverse]
        omega
      · simp only [frameWeight]
        omega

theorem kidsPt_wf (g : Char → Tk) (hg : ∀ c, (g c).ok) (f : List (Char × Node Char ν)) :
    f ≠ [] → (kidsPt g f).wf .alts ∧ (f.length = 1 → (kidsPt g f).wf .branch) := by
  induction f using kids_induct with
  | h0 => simp
  | h1 k c rest ih1 ih2 =>
    intro _
    have hc : (contPt g c).wf .rest := by
      unfold contPt
      split_ifs with h1 h2 h3
      · trivial
      · exact (ih1 (by simpa using h1)).1
      · exact (ih1 (by simpa using h1)).1
      · have := (ih1 (by simpa using h1)).2 (by simpa using h3)
        revert this
        cases kidsPt g c.kids.reverse <;> simp [Pt.wf]
    rw [kidsPt_cons]
    by_cases hr : rest = []
    · simp [hr, Pt.wf, hg, hc]
    · simp [hr, Pt.wf, hg, hc, (ih2 hr).1]

theorem contPt_wf (g : Char → Tk) (hg : ∀ c, (g c).ok) (n : Node Char ν) :
    (contPt g n).wf .rest := by
  have := (kidsPt_wf g hg [('a', n)] (by simp)).1
  rw [kidsPt_cons] at this
  simp only [if_true, Pt.wf] at this
  exact this.2

/-! ## The text of a token -/

theorem tk_ok (sp : Char → Bool) (o : Opts) (c : Char) : (tk sp o c).ok := by
  unfold tk
  simp only
  split_ifs <;> simp_all [Tk.ok]

theorem quotes_noop (c : Char) :
    quotes.foldl (fun s q => pyReplace ['\\', q.1] ['[', '\\', q.1, q.2, ']'] s) (reEscape c) =
      reEscape c := by
  have h : ∀ q ∈ quotes, pyReplace ['\\', q.1] ['[', '\\', q.1, q.2, ']'] (reEscape c) =
      reEscape c := by
    intro q hq
    have hne : ∀ d ∈ specials, q.1 ≠ d := by
      revert q
      decide
    unfold reEscape
    split_ifs with hc
    · have := hne c hc
      simp [pyReplace, replaceLoop, List.isPrefixOf, this]
    · simp [pyReplace, replaceLoop, List.isPrefixOf]
  generalize hQ : quotes = Q at h ⊢
  clear hQ
  induction Q with
  | nil => rfl
  | cons q Q ih =>
    rw [List.foldl_cons, h q (by simp)]
    exact ih (fun q' h' => h q' (by simp [h']))

theorem keyText_eq (sp : Char → Bool) (o : Opts) (c : Char) : keyText sp o c = (tk sp o c).text := by
  unfold keyText tk
  simp only [quotes_noop, ite_self]
  generalize (if o.fuzzySpaces = true then (if sp c = true then ' ' else c) else c) = d
  by_cases hd : d ∈ specials
  · have : d ≠ '�' := by rintro rfl; revert hd; decide
    simp [hd, reEscape, Tk.text, pyReplace, replaceLoop, List.isPrefixOf, this.symm]
  · by_cases ho : o.fffdAny = true
    · by_cases he : d = '�'
      · subst he
        simp [hd, ho, reEscape, Tk.text, pyReplace, replaceLoop, List.isPrefixOf]
      · simp [hd, ho, he, reEscape, Tk.text, pyReplace, replaceLoop, List.isPrefixOf, Ne.symm he]
    · simp [hd, ho, reEscape, Tk.text]

theorem keyText_quotes (sp : Char → Bool) (o : Opts) (b : Bool) (c : Char) :
    keyText sp { o with fuzzyQuotes := b } c = keyText sp o c := by
  rw [keyText_eq, keyText_eq]
  rfl

end

end Regex
end Verif
