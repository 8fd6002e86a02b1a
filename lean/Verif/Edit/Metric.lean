import Verif.Edit.Lemmas

/-!
# Edit scripts and sequences of single edits

Helper lemmas only.
-/

namespace Verif
namespace Edit

open EditSpec

variable {α : Type}

theorem Steps.trans {β : Type} {r : β → β → Prop} {n m : Nat} {u v w : β} (h : Steps r n u v)
    (h' : Steps r m v w) : Steps r (n + m) u w := by
  induction h with
  | zero => simpa using h'
  | step hr _ ih =>
    rw [Nat.add_right_comm]
    exact .step hr (ih h')

theorem Steps.map {β γ : Type} {r : β → β → Prop} {r' : γ → γ → Prop} (f : β → γ)
    (hf : ∀ a b, r a b → r' (f a) (f b)) {n : Nat} {u v : β} (h : Steps r n u v) :
    Steps r' n (f u) (f v) := by
  induction h with
  | zero => exact .zero _
  | step hr _ ih => exact .step (hf _ _ hr) ih

theorem OneEdit.cons {u v : List α} (a : α) (h : OneEdit u v) : OneEdit (a :: u) (a :: v) := by
  cases h with
  | ins p b q => exact .ins (a :: p) b q
  | del p b q => exact .del (a :: p) b q
  | sub p b d q => exact .sub (a :: p) b d q

theorem OneEditT.cons {u v : List α} (a : α) (h : OneEditT u v) : OneEditT (a :: u) (a :: v) := by
  cases h with
  | edit h => exact .edit (OneEdit.cons a h)
  | swap p b d q => exact .swap (a :: p) b d q

theorem OneEdit.symm {u v : List α} (h : OneEdit u v) : OneEdit v u := by
  cases h with
  | ins p b q => exact .del p b q
  | del p b q => exact .ins p b q
  | sub p b d q => exact .sub p d b q

/-- A script is carried out by as many single edits as it costs. -/
theorem steps_of_edit {u v : List α} {x : Nat} (h : EditSpec.Edit unitCosts u v x) :
    Steps OneEdit x u v := by
  induction h with
  | nil => exact .zero _
  | keep a _ ih => exact Steps.map (a :: ·) (fun _ _ => OneEdit.cons a) ih
  | @ins u v x b _ ih =>
    exact .step (.ins [] b u) (Steps.map (b :: ·) (fun _ _ => OneEdit.cons b) ih)
  | @del u v x a _ ih => exact .step (.del [] a u) ih
  | @sub u v x a b _ _ ih =>
    exact .step (.sub [] a b u) (Steps.map (b :: ·) (fun _ _ => OneEdit.cons b) ih)
  | swap _ _ h => cases h

theorem stepsT_of_edit {u v : List α} {x : Nat} (h : EditSpec.Edit unitCostsT u v x) :
    Steps OneEditT x u v := by
  induction h with
  | nil => exact .zero _
  | keep a _ ih => exact Steps.map (a :: ·) (fun _ _ => OneEditT.cons a) ih
  | @ins u v x b _ ih =>
    exact .step (.edit (.ins [] b u)) (Steps.map (b :: ·) (fun _ _ => OneEditT.cons b) ih)
  | @del u v x a _ ih => exact .step (.edit (.del [] a u)) ih
  | @sub u v x a b _ _ ih =>
    exact .step (.edit (.sub [] a b u)) (Steps.map (b :: ·) (fun _ _ => OneEditT.cons b) ih)
  | @swap u v x t a b h _ ih =>
    cases h
    exact .step (.swap [] a b u) (Steps.map (fun w => b :: a :: w)
      (fun _ _ h => OneEditT.cons b (OneEditT.cons a h)) ih)

/-- Scripts compose. -/
theorem edit_comp [DecidableEq α] (n : Nat) : ∀ {u v w : List α} {x y : Nat},
    u.length + v.length + w.length ≤ n → EditSpec.Edit unitCosts u v x →
    EditSpec.Edit unitCosts v w y → ∃ z, z ≤ x + y ∧ EditSpec.Edit unitCosts u w z := by
  have e1 : unitCosts.ins = 1 := rfl
  have e2 : unitCosts.del = 1 := rfl
  have e3 : unitCosts.sub = 1 := rfl
  induction n with
  | zero =>
    intro u v w x y hn h1 h2
    have hu : u = [] := List.eq_nil_of_length_eq_zero (by omega)
    have hv : v = [] := List.eq_nil_of_length_eq_zero (by omega)
    subst hu hv
    exact ⟨y, by omega, h2⟩
  | succ n ih =>
    intro u v w x y hn h1 h2
    -- an insertion by the second script comes last in any case
    have hins : ∀ (b : α) (w' : List α) (y' : Nat), w = b :: w' → y = y' + unitCosts.ins →
        EditSpec.Edit unitCosts v w' y' → ∃ z, z ≤ x + y ∧ EditSpec.Edit unitCosts u w z := by
      intro b w' y' hw hy h
      subst hw hy
      obtain ⟨z, hz, hz'⟩ := ih (by simp only [List.length_cons] at hn; omega) h1 h
      exact ⟨z + unitCosts.ins, by omega, .ins b hz'⟩
    cases h1 with
    | nil => exact ⟨y, by omega, h2⟩
    | @del u v x a h1 =>
      obtain ⟨z, hz, hz'⟩ := ih (by simp only [List.length_cons] at hn; omega) h1 h2
      exact ⟨z + unitCosts.del, by omega, .del a hz'⟩
    | @ins u v x b h1 =>
      cases h2 with
      | @ins _ w y b' h2 => exact hins b' w y rfl rfl h2
      | @keep _ w _ _ h2 =>
        obtain ⟨z, hz, hz'⟩ := ih (by simp only [List.length_cons] at hn; omega) h1 h2
        exact ⟨z + unitCosts.ins, by omega, .ins b hz'⟩
      | @del _ w y _ h2 =>
        obtain ⟨z, hz, hz'⟩ := ih (by simp only [List.length_cons] at hn; omega) h1 h2
        exact ⟨z, by omega, hz'⟩
      | @sub _ w y _ b' hne h2 =>
        obtain ⟨z, hz, hz'⟩ := ih (by simp only [List.length_cons] at hn; omega) h1 h2
        exact ⟨z + unitCosts.ins, by omega, .ins b' hz'⟩
      | swap _ _ h => cases h
    | @keep u v _ a h1 =>
      cases h2 with
      | @ins _ w y b' h2 => exact hins b' w y rfl rfl h2
      | @keep _ w _ _ h2 =>
        obtain ⟨z, hz, hz'⟩ := ih (by simp only [List.length_cons] at hn; omega) h1 h2
        exact ⟨z, by omega, .keep a hz'⟩
      | @del _ w y _ h2 =>
        obtain ⟨z, hz, hz'⟩ := ih (by simp only [List.length_cons] at hn; omega) h1 h2
        exact ⟨z + unitCosts.del, by omega, .del a hz'⟩
      | @sub _ w y _ b' hne h2 =>
        obtain ⟨z, hz, hz'⟩ := ih (by simp only [List.length_cons] at hn; omega) h1 h2
        exact ⟨z + unitCosts.sub, by omega, .sub a b' hne hz'⟩
      | swap _ _ h => cases h
    | @sub u v x a b hab h1 =>
      cases h2 with
      | @ins _ w y b' h2 => exact hins b' w y rfl rfl h2
      | @keep _ w _ _ h2 =>
        obtain ⟨z, hz, hz'⟩ := ih (by simp only [List.length_cons] at hn; omega) h1 h2
        exact ⟨z + unitCosts.sub, by omega, .sub a b hab hz'⟩
      | @del _ w y _ h2 =>
        obtain ⟨z, hz, hz'⟩ := ih (by simp only [List.length_cons] at hn; omega) h1 h2
        exact ⟨z + unitCosts.del, by omega, .del a hz'⟩
      | @sub _ w y _ b' hne h2 =>
        obtain ⟨z, hz, hz'⟩ := ih (by simp only [List.length_cons] at hn; omega) h1 h2
        by_cases hb : a = b'
        · subst hb
          exact ⟨z, by omega, .keep a hz'⟩
        · exact ⟨z + unitCosts.sub, by omega, .sub a b' hb hz'⟩
      | swap _ _ h => cases h
    | swap _ _ h => cases h

variable [DecidableEq α]

theorem unit_triangle (u v w : List α) :
    dist unitCosts u w ≤ dist unitCosts u v + dist unitCosts v w := by
  obtain ⟨z, hz, hz'⟩ := edit_comp _ (le_refl _) (edit_dist unitCosts u v) (edit_dist unitCosts v w)
  exact (dist_le hz').trans hz

omit [DecidableEq α] in
theorem edit_refl (c : Costs Nat) (u : List α) : EditSpec.Edit c u u 0 := by
  induction u with
  | nil => exact .nil
  | cons a u ih => exact .keep a ih

theorem unit_self (u : List α) : dist unitCosts u u = 0 :=
  Nat.le_zero.mp (dist_le (edit_refl unitCosts u))

theorem unit_oneEdit {u v : List α} (h : OneEdit u v) : dist unitCosts u v ≤ 1 := by
  have key : ∀ (p q q' : List α) (x : Nat), EditSpec.Edit unitCosts q q' x →
      EditSpec.Edit unitCosts (p ++ q) (p ++ q') x := by
    intro p q q' x h
    induction p with
    | nil => exact h
    | cons a p ih => exact .keep a ih
  cases h with
  | ins p b q => exact dist_le (key p _ _ _ (.ins b (edit_refl _ q)))
  | del p a q => exact dist_le (key p _ _ _ (.del a (edit_refl _ q)))
  | sub p a b q =>
    by_cases hab : a = b
    · subst hab
      rw [unit_self]
      omega
    · exact dist_le (key p _ _ _ (.sub a b hab (edit_refl _ q)))

theorem unit_le_steps {u v : List α} {n : Nat} (h : Steps OneEdit n u v) :
    dist unitCosts u v ≤ n := by
  induction h with
  | zero u => rw [unit_self]
  | @step n u v w hr _ ih =>
    have h1 := unit_oneEdit hr
    have h2 := unit_triangle u v w
    omega

theorem unit_isLeast (u v : List α) : IsLeast {n | Steps OneEdit n u v} (dist unitCosts u v) :=
  ⟨steps_of_edit (edit_dist unitCosts u v), fun _ h => unit_le_steps h⟩

omit [DecidableEq α] in
theorem edit_zero {c : Costs Nat} (h1 : 0 < c.ins) (h2 : 0 < c.del) (h3 : 0 < c.sub)
    (h4 : ∀ t, c.swap = some t → 0 < t) {u v : List α} {x : Nat} (h : EditSpec.Edit c u v x) :
    x = 0 → u = v := by
  induction h with
  | nil => intro _; rfl
  | keep a _ ih => intro hx; rw [ih hx]
  | ins b _ ih => intro hx; omega
  | del a _ ih => intro hx; omega
  | sub a b _ _ ih => intro hx; omega
  | swap a b hs _ ih => intro hx; have := h4 _ hs; omega

theorem unit_eq_zero (u v : List α) : dist unitCosts u v = 0 ↔ u = v := by
  constructor
  · intro h
    exact edit_zero (by decide) (by decide) (by decide) (by simp [unitCosts])
      (edit_dist unitCosts u v) h
  · rintro rfl; exact unit_self u

theorem unitT_eq_zero (u v : List α) : dist unitCostsT u v = 0 ↔ u = v := by
  constructor
  · intro h
    exact edit_zero (by decide) (by decide) (by decide) (by simp [unitCostsT])
      (edit_dist unitCostsT u v) h
  · rintro rfl; exact Nat.le_zero.mp (dist_le (edit_refl unitCostsT u))

theorem unitT_symm (u v : List α) : dist unitCostsT u v = dist unitCostsT v u :=
  dist_symm unitCostsT v u

theorem unitT_le_unit (u v : List α) : dist unitCostsT u v ≤ dist unitCosts u v := by
  have : ∀ {u v : List α} {x : Nat}, EditSpec.Edit unitCosts u v x →
      EditSpec.Edit unitCostsT u v x := by
    intro u v x h
    induction h with
    | nil => exact .nil
    | keep a _ ih => exact .keep a ih
    | ins b _ ih => exact .ins b ih
    | del a _ ih => exact .del a ih
    | sub a b h _ ih => exact .sub a b h ih
    | swap _ _ h => cases h
  exact dist_le (this (edit_dist unitCosts u v))

/-- A transposition is worth at most two edits. -/
theorem unit_le_two_unitT (u v : List α) : dist unitCosts u v ≤ 2 * dist unitCostsT u v := by
  have : ∀ {u v : List α} {x : Nat}, EditSpec.Edit unitCostsT u v x →
      ∃ y, y ≤ 2 * x ∧ EditSpec.Edit unitCosts u v y := by
    have e1 : unitCostsT.ins = 1 := rfl
    have e2 : unitCostsT.del = 1 := rfl
    have e3 : unitCostsT.sub = 1 := rfl
    have f1 : unitCosts.ins = 1 := rfl
    have f2 : unitCosts.del = 1 := rfl
    have f3 : unitCosts.sub = 1 := rfl
    intro u v x h
    induction h with
    | nil => exact ⟨0, by omega, .nil⟩
    | keep a _ ih => obtain ⟨y, h, h'⟩ := ih; exact ⟨y, h, .keep a h'⟩
    | ins b _ ih => obtain ⟨y, h, h'⟩ := ih; exact ⟨_, by omega, .ins b h'⟩
    | del a _ ih => obtain ⟨y, h, h'⟩ := ih; exact ⟨_, by omega, .del a h'⟩
    | sub a b hab _ ih => obtain ⟨y, h, h'⟩ := ih; exact ⟨_, by omega, .sub a b hab h'⟩
    | swap a b hs _ ih =>
      obtain ⟨y, h, h'⟩ := ih
      cases hs
      refine ⟨y + unitCosts.ins + unitCosts.del, by omega, ?_⟩
      exact .del a (.keep b (.ins a h'))
  obtain ⟨y, hy, hy'⟩ := this (edit_dist unitCostsT u v)
  exact (dist_le hy').trans hy

omit [DecidableEq α] in
/-- Length bounds. -/
theorem edit_length {c : Costs Nat} (h1 : 0 < c.ins) (h2 : 0 < c.del) {u v : List α} {x : Nat}
    (h : EditSpec.Edit c u v x) : u.length ≤ v.length + x ∧ v.length ≤ u.length + x := by
  induction h with
  | nil => simp
  | keep a _ ih => simp only [List.length_cons]; omega
  | ins b _ ih => simp only [List.length_cons]; omega
  | del a _ ih => simp only [List.length_cons]; omega
  | sub a b _ _ ih => simp only [List.length_cons]; omega
  | swap a b _ _ ih => simp only [List.length_cons]; omega

theorem unit_le_max (u v : List α) : dist unitCosts u v ≤ max u.length v.length := by
  have e1 : unitCosts.ins = 1 := rfl
  have e2 : unitCosts.del = 1 := rfl
  have e3 : unitCosts.sub = 1 := rfl
  induction u generalizing v with
  | nil => rw [unit_nil_left]; simp
  | cons a u ih =>
    cases v with
    | nil => rw [unit_nil_right]; simp
    | cons b v =>
      have h1 := ih v
      simp only [List.length_cons]
      by_cases hab : a = b
      · subst hab
        have := dist_keep unitCosts u v a
        omega
      · have := dist_sub unitCosts u v hab
        omega

end Edit
end Verif
