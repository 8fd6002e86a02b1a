import Verif.Cy.Model

/-!
# Lemmas about the heap programs
-/

namespace Verif
namespace Cy

open Fp

variable {R : Rounding}

theorem bind_ok {α β : Type} {c : M α} {f : α → M β} {h h' : Heap} {a : α}
    (e : c.run h = (.ok a, h')) : (c >>= f).run h = (f a).run h' := by
  change (M.bind c f).run h = _
  unfold M.bind
  simp only [e]

theorem bind_err {α β : Type} {c : M α} {f : α → M β} {h h' : Heap} {e : Stop}
    (he : c.run h = (.error e, h')) : (c >>= f).run h = (.error e, h') := by
  change (M.bind c f).run h = _
  unfold M.bind
  simp only [he]

theorem foldM_append {σ : Type} (body : σ → ℕ → M σ) (s : σ) (as bs : List ℕ) (h : Heap) :
    (foldM body s (as ++ bs)).run h = (foldM body s as >>= fun s => foldM body s bs).run h := by
  induction as generalizing s h with
  | nil => rfl
  | cons a as ih =>
    change (M.bind (body s a) _).run h = (M.bind (M.bind (body s a) _) _).run h
    unfold M.bind
    simp only
    rcases (body s a).run h with ⟨r, h'⟩
    cases r with
    | error e => rfl
    | ok s' => exact ih s' h'

theorem foldM_snoc_ok {σ : Type} {body : σ → ℕ → M σ} {s s' : σ} {as : List ℕ} {b : ℕ}
    {h h' : Heap} (e : (foldM body s as).run h = (.ok s', h')) :
    (foldM body s (as ++ [b])).run h = (body s' b).run h' := by
  rw [foldM_append, bind_ok e]
  change (M.bind _ _).run _ = _
  unfold M.bind
  simp only
  rcases (body s' b).run h' with ⟨r, h''⟩
  cases r <;> rfl

theorem foldM_snoc_err {σ : Type} {body : σ → ℕ → M σ} {s : σ} {as bs : List ℕ}
    {h h' : Heap} {e : Stop} (he : (foldM body s as).run h = (.error e, h')) :
    (foldM body s (as ++ bs)).run h = (.error e, h') := by
  rw [foldM_append, bind_err he]

/-- A heap with the blocks of the caller and those of this call. -/
def hp (base : List (Option Block)) (l : List (Option Block)) (c : ℕ) : Heap := ⟨base ++ l, c⟩

variable {base l : List (Option Block)} {c : ℕ}

theorem hp_get {k : ℕ} {b : Block} (h : l[k]? = some (some b)) :
    (hp base l c).blocks[base.length + k]? = some (some b) := by
  unfold hp
  rw [List.getElem?_append_right (by omega)]
  simpa using h

theorem hp_set (k : ℕ) (v : Option Block) :
    (⟨(hp base l c).blocks.set (base.length + k) v, c⟩ : Heap) = hp base (l.set k v) c := by
  simp [hp]

theorem load_ok {k i : ℕ} {b : Block} {v : ℚ} (h : l[k]? = some (some b))
    (hv : b[i]? = some (some v)) :
    (load (some (base.length + k)) (i : ℤ)).run (hp base l c) = (.ok v, hp base l c) := by
  unfold load
  simp only [hp_get h]
  rw [if_neg (by omega)]
  simp [hv]

theorem load_ok_pred {k i : ℕ} {b : Block} {v : ℚ} (h : l[k]? = some (some b))
    (hv : b[i]? = some (some v)) :
    (load (some (base.length + k)) (((1 + i : ℕ) : ℤ) - 1)).run (hp base l c) = (.ok v, hp base l c) := by
  have : ((1 + i : ℕ) : ℤ) - 1 = (i : ℤ) := by omega
  rw [this]
  exact load_ok h hv

theorem store_ok {k i : ℕ} {b : Block} {v : ℚ} (h : l[k]? = some (some b)) (hi : i < b.length) :
    (store (some (base.length + k)) (i : ℤ) v).run (hp base l c) =
      (.ok (), hp base (l.set k (some (b.set i (some v)))) c) := by
  unfold store
  simp only [hp_get h]
  rw [if_neg (by simp; omega)]
  simp [hp]

theorem freeIf_ok {k : ℕ} {b : Block} (h : l[k]? = some (some b)) :
    (freeIf (some (base.length + k))).run (hp base l c) = (.ok (), hp base (l.set k none) c) := by
  unfold freeIf
  simp only [hp_get h]
  simp [hp]

theorem malloc_ok {env : Env} {size : ℕ} (h : env.mallocOk c size = true) :
    (malloc env size).run (hp base l c) = (.ok (some (base.length + l.length)),
      hp base (l ++ [some (List.replicate size none)]) (c + 1)) := by
  unfold malloc
  simp [hp, h]

theorem malloc_fail {env : Env} {size : ℕ} (h : env.mallocOk c size = false) :
    (malloc env size).run (hp base l c) = (.ok none, hp base l (c + 1)) := by
  unfold malloc
  simp [hp, h]

theorem set_same {α : Type} {l : List α} {k : ℕ} {a : α} (h : l[k]? = some a) : l.set k a = l := by
  obtain ⟨hk, rfl⟩ := List.getElem?_eq_some_iff.1 h
  exact List.set_getElem_self hk

/-! ## The conversion -/

/-- The first loop: writes the converted items. -/
theorem fill_spec (items : List (Option ℚ)) {k : ℕ} {b : Block} (h : l[k]? = some (some b))
    (hb : b.length = items.length) :
    ∀ t, t ≤ items.length → ∃ b', b'.length = items.length ∧
      (((foldM (putItem R (some (base.length + k)) items) () (List.range t)).run (hp base l c) =
          (.ok (), hp base (l.set k (some b')) c) ∧
        ∀ i, i < t → ∃ q, items[i]? = some (some q) ∧ b'[i]? = some (some (R.fl q))) ∨
       ((foldM (putItem R (some (base.length + k)) items) () (List.range t)).run (hp base l c) =
          (.error (.exc .typeError), hp base (l.set k (some b')) c) ∧ none ∈ items)) := by
  intro t
  have hk : k < l.length := (List.getElem?_eq_some_iff.1 h).1
  induction t with
  | zero =>
    intro _
    refine ⟨b, hb, .inl ⟨?_, by simp⟩⟩
    rw [set_same h]
    rfl
  | succ t ih =>
    intro ht
    obtain ⟨b', hb', hd⟩ := ih (by omega)
    rw [List.range_succ]
    rcases hd with ⟨e, hv⟩ | ⟨e, hn⟩
    · have hk' : (l.set k (some b'))[k]? = some (some b') := by simp [hk]
      cases hi : items[t]? with
      | none =>
        rw [List.getElem?_eq_none_iff] at hi
        omega
      | some o =>
        cases o with
        | none =>
          refine ⟨b', hb', .inr ⟨?_, List.mem_of_getElem? hi⟩⟩
          rw [foldM_snoc_ok e]
          unfold putItem
          simp only [hi]
          rfl
        | some q =>
          refine ⟨b'.set t (some (R.fl q)), by simpa using hb', .inl ⟨?_, ?_⟩⟩
          · rw [foldM_snoc_ok e]
            unfold putItem
            simp only [hi]
            rw [store_ok hk' (by omega)]
            simp
          · intro i hit
            by_cases hit' : i = t
            · subst hit'
              exact ⟨q, hi, by simp [show i < b'.length by omega]⟩
            · obtain ⟨q', h1, h2⟩ := hv i (by omega)
              exact ⟨q', h1, by rw [List.getElem?_set_ne (by omega)]; exact h2⟩
    · exact ⟨b', hb', .inr ⟨foldM_snoc_err e, hn⟩⟩

/-- The list comprehension: reads the block. -/
theorem read_spec {vs : List ℚ} {k : ℕ} (h : l[k]? = some (some (vs.map some))) :
    ∀ t, t ≤ vs.length →
      (foldM (getItem (some (base.length + k))) [] (List.range t)).run
        (hp base l c) = (.ok (vs.take t), hp base l c) := by
  intro t
  induction t with
  | zero => intro _; rfl
  | succ t ih =>
    intro ht
    rw [List.range_succ, foldM_snoc_ok (ih (by omega)), getItem,
      bind_ok (load_ok (v := vs[t]) h (by simp [show t < vs.length by omega]))]
    rw [List.take_succ_eq_append_getElem (by omega)]
    rfl

/-- The last loop: writes the sorted list. -/
theorem write_spec (vs : List ℚ) {k : ℕ} {b : Block} (h : l[k]? = some (some b))
    (hb : b.length = vs.length) :
    ∀ t, t ≤ vs.length →
      (foldM (putBack (some (base.length + k)) vs) () (List.range t)).run (hp base l c) =
        (.ok (), hp base (l.set k (some ((vs.take t).map some ++ b.drop t))) c) := by
  intro t
  have hk : k < l.length := (List.getElem?_eq_some_iff.1 h).1
  induction t with
  | zero =>
    intro _
    rw [show l.set k (some ((vs.take 0).map some ++ b.drop 0)) = l from by
      simp only [List.take_zero, List.map_nil, List.drop_zero, List.nil_append]
      exact set_same h]
    rfl
  | succ t ih =>
    intro ht
    rw [List.range_succ, foldM_snoc_ok (ih (by omega))]
    have hk' : (l.set k (some ((vs.take t).map some ++ b.drop t)))[k]? =
        some (some ((vs.take t).map some ++ b.drop t)) := by simp [hk]
    have hg : vs[t]? = some vs[t] := List.getElem?_eq_getElem (by omega)
    unfold putBack
    simp only [hg]
    rw [store_ok hk' (by simp; omega)]
    congr 2
    rw [List.set_set]
    congr 2
    rw [List.take_succ_eq_append_getElem (by omega), List.map_append, List.append_assoc,
      List.set_append_right _ _ (by simp), List.drop_eq_getElem_cons (show t < List.length b by omega)]
    simp [Nat.min_eq_left (show t ≤ vs.length by omega), -List.getElem_cons_drop]

/-- Both `try` bodies: the block holds the sorted converted numbers, or an exception has been
raised for a reason. -/
theorem convert_spec (items : List (Option ℚ)) (listOk : Bool) {k : ℕ} {b : Block}
    (h : l[k]? = some (some b)) (hb : b.length = items.length) :
    (∃ qs : List ℚ, items = qs.map some ∧ listOk = true ∧
      (convert R listOk (some (base.length + k)) items).run (hp base l c) =
        (.ok (), hp base (l.set k (some ((pySorted (qs.map R.fl)).map some))) c)) ∨
    (∃ b' e, (convert R listOk (some (base.length + k)) items).run (hp base l c) =
        (.error (.exc e), hp base (l.set k (some b')) c) ∧
      ((e = .typeError ∧ none ∈ items) ∨ (e = .memoryError ∧ listOk = false ∧ none ∉ items))) := by
  have hk : k < l.length := (List.getElem?_eq_some_iff.1 h).1
  obtain ⟨b', hb', hd⟩ := fill_spec (R := R) (base := base) (c := c) items h hb items.length le_rfl
  rcases hd with ⟨e, hv⟩ | ⟨e, hn⟩
  · obtain ⟨qs, hqs⟩ : ∃ qs : List ℚ, items = qs.map some := by
      refine ⟨items.filterMap id, ?_⟩
      apply List.ext_getElem?
      have hall : ∀ o ∈ items, ∃ q, o = some q := by
        intro o ho
        obtain ⟨i, hi⟩ := List.mem_iff_getElem?.1 ho
        obtain ⟨q, hq, _⟩ := hv i (List.getElem?_eq_some_iff.1 hi).1
        rw [hi] at hq
        exact ⟨q, Option.some.inj hq⟩
      have : items = (items.filterMap id).map some := by
        clear hv e hb hb'
        induction items with
        | nil => rfl
        | cons o os ih =>
          obtain ⟨q, rfl⟩ := hall _ List.mem_cons_self
          simpa using ih (fun o ho => hall o (List.mem_cons_of_mem _ ho))
      intro i
      rw [← this]
    have hbq : b' = (qs.map R.fl).map some := by
      subst hqs
      apply List.ext_getElem?
      intro i
      by_cases hi : i < qs.length
      · obtain ⟨q, h1, h2⟩ := hv i (by simpa using hi)
        rw [h2]
        simp [hi] at h1 ⊢
        rw [h1]
      · rw [List.getElem?_eq_none (by simp at hb'; omega), List.getElem?_eq_none (by simp; omega)]
    have hk' : (l.set k (some b'))[k]? = some (some ((qs.map R.fl).map some)) := by
      simp [hk, hbq]
    have hlen : items.length = (qs.map R.fl).length := by rw [hqs]; simp
    have e2 := read_spec (base := base) (c := c) hk' items.length hlen.le
    have hnone : none ∉ items := by rw [hqs]; simp
    unfold convert
    rw [bind_ok e, bind_ok e2, hlen, List.take_length]
    cases listOk with
    | false =>
      refine .inr ⟨b', .memoryError, ?_, .inr ⟨rfl, rfl, hnone⟩⟩
      exact bind_err rfl
    | true =>
      refine .inl ⟨qs, hqs, rfl, ?_⟩
      have hs : (pySorted (qs.map R.fl)).length = (qs.map R.fl).length :=
        (List.perm_insertionSort _ _).length_eq
      have e3 := write_spec (base := base) (c := c) (pySorted (qs.map R.fl)) hk'
        (by rw [List.length_map, hs]) (qs.map R.fl).length hs.ge
      rw [bind_ok (show (sortedList true (qs.map R.fl)).run _ = _ from rfl), e3]
      congr 2
      rw [List.set_set, List.take_of_length_le hs.le, List.drop_eq_nil_of_le (by simp),
        List.append_nil]
  · refine .inr ⟨b', .typeError, ?_, .inl ⟨rfl, hn⟩⟩
    unfold convert
    exact bind_err e

end Cy
end Verif
