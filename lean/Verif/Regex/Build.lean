import Verif.Regex.Pt

/-!
# The raw pattern is the text of the pattern tree

Helper lemmas only; the property theorems are in `Verif.Regex.Props`.
-/

namespace Verif
namespace Regex

open Trie (Node frameWeight frameWeight_reverse)

variable {ν : Type}

/-- What the children `f` add to the parts `cur` of their node. -/
def added (text : Tk → List Char) (g : Char → Tk) (cur : List (List Char))
    (f : List (Char × Node Char ν)) : List Char :=
  if f = [] then [] else (if cur = [] then [] else ['|']) ++ (kidsPt g f).render text

theorem partsLoop_frame (g : Char → Tk) (f : List (Char × Node Char ν)) :
    ∀ (head : Node Char ν) stack cur parts,
      ∃ cur', partsLoop (fun c => (g c).text) ((head, f) :: stack) (cur :: parts) =
          partsLoop (fun c => (g c).text) ((head, []) :: stack) (cur' :: parts) ∧
        cur'.flatten = cur.flatten ++ added Tk.text g cur f ∧
        (f = [] → cur' = cur) ∧ (f ≠ [] → cur' ≠ []) := by
  induction f using kids_induct with
  | h0 =>
    intro head stack cur parts
    exact ⟨cur, rfl, by simp [added], fun _ => rfl, by simp⟩
  | h1 k c rest ih1 ih2 =>
    intro head stack cur parts
    rw [partsLoop]
    generalize hT : (if cur.isEmpty then cur else cur ++ [['|']]) ++ [(g k).text] = top
    have hTf : top.flatten = cur.flatten ++ ((if cur = [] then [] else ['|']) ++ (g k).text) := by
      rw [← hT]
      cases cur <;> simp
    have hTn : top ≠ [] := by rw [← hT]; simp
    obtain ⟨sub, h1, h2, h3, h4⟩ := ih1 c ((head, rest) :: stack) [] (top :: parts)
    rw [h1]
    have hpop : ∃ top', partsLoop (fun c => (g c).text) ((c, []) :: (head, rest) :: stack)
          (sub :: top :: parts) =
        partsLoop (fun c => (g c).text) ((head, rest) :: stack) (top' :: parts) ∧
        top'.flatten = top.flatten ++ (contPt g c).render Tk.text ∧ top' ≠ [] := by
      rw [partsLoop]
      by_cases hk : c.kids = []
      · have : sub = [] := h3 (by simpa using hk)
        exact ⟨top, by simp [this], by simp [contPt, hk, Pt.render], hTn⟩
      · have hs : sub ≠ [] := h4 (by simpa using hk)
        have hsf : sub.flatten = (kidsPt g c.kids.reverse).render Tk.text := by
          rw [h2]
          simp [added, hk]
        refine ⟨_, by simp only [List.isEmpty_iff, hs, if_false]; rfl, ?_, by simp [hTn]⟩
        rw [List.flatten_append]
        congr 1
        unfold contPt
        split_ifs <;> simp_all [Pt.render, Pt.qm]
    obtain ⟨top', h5, h6, h7⟩ := hpop
    rw [h5]
    obtain ⟨cur', h8, h9, h10, h11⟩ := ih2 head stack top' parts
    refine ⟨cur', h8, ?_, by simp, ?_⟩
    · rw [h9, h6, hTf]
      simp only [added, kidsPt_cons, h7, if_false]
      by_cases hr : rest = [] <;> simp [hr, Pt.render]
    · intro _
      by_cases hr : rest = []
      · rw [h10 hr]; exact h7
      · exact h11 hr

theorem rawPattern_eq (g : Char → Tk) (root : Node Char ν) :
    rawPattern (fun c => (g c).text) root = .ok ((contPt g root).render Tk.text) := by
  unfold rawPattern
  obtain ⟨cur, h1, h2, h3, h4⟩ := partsLoop_frame g root.kids.reverse root [] [] [[]]
  rw [h1, partsLoop]
  by_cases hk : root.kids = []
  · have : cur = [] := h3 (by simpa using hk)
    simp [this, partsLoop, contPt, hk, Pt.render]
  · have hs : cur ≠ [] := h4 (by simpa using hk)
    simp only [List.isEmpty_iff, hs, if_false, partsLoop, List.nil_append]
    have hcf : cur.flatten = (kidsPt g root.kids.reverse).render Tk.text := by
      rw [h2]
      simp [added, hk]
    unfold contPt
    split_ifs <;> simp_all [Pt.render, Pt.qm]

end Regex
end Verif
