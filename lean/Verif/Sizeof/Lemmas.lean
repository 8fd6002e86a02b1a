import Verif.Sizeof.Spec
import Verif.Py.Walk

/-!
# The loop of `deep_sizeof` is a walk
-/

namespace Verif
namespace Sizeof

open SizeofSpec

/-- One key added to the dictionary `stack`. -/
def pushOne (d s : List ℕ) (y : ℕ) : List ℕ := if y ∈ d then s else if y ∈ s then s else y :: s

/-- The way the dictionary `stack` is filled. -/
def pushSet (d s l : List ℕ) : List ℕ := l.foldl (pushOne d) s

theorem goodPush_pushSet : GoodPush pushSet := by
  have keep : ∀ (d l s : List ℕ) y, y ∈ s → y ∈ pushSet d s l := by
    intro d l
    induction l with
    | nil => intro s y h; exact h
    | cons a l ih =>
      intro s y h
      apply ih
      unfold pushOne
      split_ifs
      · exact h
      · exact h
      · exact List.mem_cons_of_mem _ h
  refine ⟨?_, fun d s l y h => keep d l s y h, ?_⟩
  · intro d s l
    induction l generalizing s with
    | nil => intro y h; exact Or.inl h
    | cons a l ih =>
      intro y h
      rcases ih _ y h with h | h
      · unfold pushOne at h
        split_ifs at h
        · exact Or.inl h
        · exact Or.inl h
        · rcases List.mem_cons.1 h with rfl | h
          · exact Or.inr List.mem_cons_self
          · exact Or.inl h
      · exact Or.inr (List.mem_cons_of_mem _ h)
  · intro d s l
    induction l generalizing s with
    | nil => intro y h; cases h
    | cons a l ih =>
      intro y h hd
      rcases List.mem_cons.1 h with rfl | h
      · apply keep d l (pushOne d s y)
        unfold pushOne
        rw [if_neg hd]
        split_ifs with hs
        · exact hs
        · exact List.mem_cons_self
      · exact ih _ y h hd

/-- The entries of `sizes` for some objects. -/
def szs (W : World) (d : List ℕ) : Dict ℕ ℕ := d.map fun x => (x, size (W.obj x))

theorem keys_szs (W : World) (d : List ℕ) : Dict.keys (szs W d) = d := by
  simp [Dict.keys, szs, Function.comp_def]

theorem has_szs (W : World) (d : List ℕ) (x : ℕ) : Dict.has (szs W d) x = true ↔ x ∈ d := by
  rw [Dict.has_iff, keys_szs]

theorem set_szs (W : World) (d : List ℕ) (x : ℕ) (hx : x ∉ d) :
    Dict.set (szs W d) x (size (W.obj x)) = szs W (d ++ [x]) := by
  induction d with
  | nil => rfl
  | cons a d ih =>
    rw [List.mem_cons, not_or] at hx
    have := ih hx.2
    simp only [szs, List.map_cons, List.cons_append] at this ⊢
    rw [Dict.set, if_neg (Ne.symm hx.1), this]

theorem addAll_eq (W : World) (d l : List ℕ) : ∀ s, addAll ⟨szs W d, s⟩ l = ⟨szs W d, pushSet d s l⟩ := by
  induction l with
  | nil => intro s; rfl
  | cons a l ih =>
    intro s
    have h1 : add ⟨szs W d, s⟩ a =
        ⟨szs W d, if a ∈ d then s else if a ∈ s then s else a :: s⟩ := by
      unfold add
      simp only
      by_cases h : a ∈ d
      · rw [if_pos ((has_szs W d a).2 h), if_pos h]
      · rw [if_neg (fun h' => h ((has_szs W d a).1 h')), if_neg h]
    have h2 : addAll ⟨szs W d, s⟩ (a :: l) = addAll (add ⟨szs W d, s⟩ a) l := rfl
    rw [h2, h1, ih]
    rfl

theorem pushSet_append (d s l l' : List ℕ) : pushSet d s (l ++ l') = pushSet d (pushSet d s l) l' := by
  unfold pushSet
  rw [List.foldl_append]

theorem plainName_iff (a : List Char) :
    plainName a = true ↔ ¬ ['_', '_'] <+: a ∧ ¬ ['_', '_'] <:+ a := by
  unfold plainName
  rw [Bool.and_eq_true, bne_iff_ne, bne_iff_ne, List.prefix_iff_eq_take, List.suffix_iff_eq_drop]
  simp only [List.length_cons, List.length_nil, Nat.zero_add, Nat.reduceAdd]
  exact and_congr (not_congr ⟨Eq.symm, Eq.symm⟩) (not_congr ⟨Eq.symm, Eq.symm⟩)

theorem seen_iff (a : Attr) : Seen a ↔ a.skipped = false ∧ plainName a.name = true := by
  rw [plainName_iff]
  rfl

/-- The values of the attributes looked at. -/
def attrVals (as : List Attr) : List ℕ :=
  as.filterMap fun a => if a.skipped then none else if plainName a.name then a.value else none

theorem attrs_ok (W : World) (d : List ℕ) (as : List Attr) : ∀ s,
    (as.foldlM attrStep ⟨szs W d, s⟩ = .error .mk ∧ ∃ a ∈ as, Seen a ∧ a.value = none) ∨
    (as.foldlM attrStep ⟨szs W d, s⟩ = .ok ⟨szs W d, pushSet d s (attrVals as)⟩ ∧
      ¬ ∃ a ∈ as, Seen a ∧ a.value = none) := by
  induction as with
  | nil => intro s; exact Or.inr ⟨rfl, by simp⟩
  | cons a as ih =>
    intro s
    rw [List.foldlM_cons]
    have hskip : ¬ Seen a → (as.foldlM attrStep ⟨szs W d, s⟩ = .error .mk ∧
          ∃ a' ∈ a :: as, Seen a' ∧ a'.value = none) ∨
        (as.foldlM attrStep ⟨szs W d, s⟩ = .ok ⟨szs W d, pushSet d s (attrVals as)⟩ ∧
          ¬ ∃ a' ∈ a :: as, Seen a' ∧ a'.value = none) := by
      intro hns
      rcases ih s with ⟨h1, a', h2, h3⟩ | ⟨h1, h2⟩
      · exact Or.inl ⟨h1, a', List.mem_cons_of_mem _ h2, h3⟩
      · refine Or.inr ⟨h1, ?_⟩
        rintro ⟨a', h3, h4⟩
        rcases List.mem_cons.1 h3 with rfl | h3
        · exact hns h4.1
        · exact h2 ⟨a', h3, h4⟩
    unfold attrStep
    by_cases hs : a.skipped = true
    · rw [if_pos hs]
      have hv : attrVals (a :: as) = attrVals as := by simp [attrVals, hs]
      rw [hv]
      exact hskip (fun h => by rw [h.1] at hs; cases hs)
    · rw [if_neg hs]
      by_cases hp : plainName a.name = true
      · rw [if_pos hp]
        have hseen : Seen a := (seen_iff a).2 ⟨by simpa using hs, hp⟩
        cases hv : a.value with
        | none => exact Or.inl ⟨rfl, a, List.mem_cons_self, hseen, hv⟩
        | some v =>
          have hvals : attrVals (a :: as) = v :: attrVals as := by simp [attrVals, hs, hp, hv]
          have hadd : add ⟨szs W d, s⟩ v = ⟨szs W d, pushSet d s [v]⟩ := addAll_eq W d [v] s
          have hpush : pushSet d s (v :: attrVals as) = pushSet d (pushSet d s [v]) (attrVals as) :=
            pushSet_append d s [v] _
          simp only
          rw [hvals, hadd, hpush]
          rcases ih (pushSet d s [v]) with ⟨h1, a', h2, h3⟩ | ⟨h1, h2⟩
          · exact Or.inl ⟨h1, a', List.mem_cons_of_mem _ h2, h3⟩
          · refine Or.inr ⟨h1, ?_⟩
            rintro ⟨a', h3, h4⟩
            rcases List.mem_cons.1 h3 with rfl | h3
            · rw [h4.2] at hv; cases hv
            · exact h2 ⟨a', h3, h4⟩
      · rw [if_neg hp]
        have hv : attrVals (a :: as) = attrVals as := by simp [attrVals, hs, hp]
        rw [hv]
        exact hskip (fun h => hp ((seen_iff a).1 h).2)

/-- Keys and values of a mapping. -/
def mapRefs : Option (List ℕ × List ℕ) → List ℕ
  | none => []
  | some (ks, vs) => ks ++ vs

/-- Everything an object refers to, in the order of the code. -/
def refsOf (W : World) (o : Obj) : List ℕ :=
  mapRefs o.mapping ++ o.elements.getD [] ++ (o.dict.1 ++ o.dict.2) ++
    (o.slots.map fun v => v.getD W.noneId) ++ attrVals o.attrs

theorem mem_refsOf (W : World) (o : Obj) (y : ℕ) : y ∈ refsOf W o ↔ Refers W o y := by
  unfold refsOf
  simp only [List.mem_append, List.mem_map]
  constructor
  · rintro ((((h | h) | h) | h) | h)
    · cases hm : o.mapping with
      | none => rw [hm] at h; cases h
      | some p =>
        obtain ⟨ks, vs⟩ := p
        rw [hm] at h
        rcases List.mem_append.1 h with h | h
        · exact .key ks vs hm h
        · exact .value ks vs hm h
    · cases hm : o.elements with
      | none => rw [hm] at h; cases h
      | some es => rw [hm] at h; exact .element es hm h
    · exact h.elim .dictKey .dictValue
    · obtain ⟨v, hv, rfl⟩ := h
      cases v with
      | none => exact .unset hv rfl
      | some v => exact .slot hv
    · obtain ⟨a, ha, hv⟩ := List.mem_filterMap.1 h
      split_ifs at hv with h1 h2
      exact .attr a ha ((seen_iff a).2 ⟨by simpa using h1, h2⟩) hv
  · intro h
    cases h with
    | key ks vs h hy => left; left; left; left; rw [h]; exact List.mem_append_left _ hy
    | value ks vs h hy => left; left; left; left; rw [h]; exact List.mem_append_right _ hy
    | element es h hy => left; left; left; right; rw [h]; exact hy
    | dictKey hy => left; left; right; exact Or.inl hy
    | dictValue hy => left; left; right; exact Or.inr hy
    | slot hy => left; right; exact ⟨_, hy, rfl⟩
    | unset h hy => left; right; exact ⟨_, h, hy.symm⟩
    | attr a ha hs hy =>
      right
      refine List.mem_filterMap.2 ⟨a, ha, ?_⟩
      obtain ⟨h1, h2⟩ := (seen_iff a).1 hs
      rw [h1, h2]
      exact hy

theorem expand_ok (W : World) (d s : List ℕ) (o : Obj) :
    (expand W ⟨szs W d, s⟩ o = .error .mk ∧ ∃ a ∈ o.attrs, Seen a ∧ a.value = none) ∨
    (expand W ⟨szs W d, s⟩ o = .ok ⟨szs W d, pushSet d s (refsOf W o)⟩ ∧
      ¬ ∃ a ∈ o.attrs, Seen a ∧ a.value = none) := by
  unfold expand refsOf
  have h1 : addMapping ⟨szs W d, s⟩ o.mapping = ⟨szs W d, pushSet d s (mapRefs o.mapping)⟩ := by
    rcases o.mapping with _ | ⟨ks, vs⟩
    · rfl
    · rw [addMapping, addAll_eq, addAll_eq, mapRefs, pushSet_append]
  have h2 : ∀ s, addElements ⟨szs W d, s⟩ o.elements =
      ⟨szs W d, pushSet d s (o.elements.getD [])⟩ := by
    intro s
    rcases o.elements with _ | es
    · rfl
    · rw [addElements, addAll_eq]
      rfl
  simp only
  rw [h1, h2, addAll_eq, addAll_eq, addAll_eq, pushSet_append, pushSet_append, pushSet_append,
    pushSet_append, pushSet_append]
  exact attrs_ok W d o.attrs _

open Classical in
/-- What is reached in one step. -/
noncomputable def refsAt (W : World) (x : ℕ) : List ℕ :=
  if Opened (W.obj x) then refsOf W (W.obj x) else []

theorem mem_refsAt (W : World) (x y : ℕ) :
    y ∈ refsAt W x ↔ Opened (W.obj x) ∧ Refers W (W.obj x) y := by
  unfold refsAt
  split_ifs with h
  · rw [mem_refsOf]; exact ⟨fun h' => ⟨h, h'⟩, fun h' => h'.2⟩
  · exact ⟨fun h' => (by cases h'), fun h' => absurd h'.1 h⟩

theorem reach_iff (W : World) (x y : ℕ) : Walk.Reach (refsAt W) x y ↔ Reach W x y := by
  unfold Reach Walk.Reach
  have : (fun x y => y ∈ refsAt W x) = fun x y => Opened (W.obj x) ∧ Refers W (W.obj x) y := by
    funext x y
    exact propext (mem_refsAt W x y)
  rw [this]

/-- A round for an object not yet counted. -/
theorem loop_new (W : World) (f x : ℕ) (s d : List ℕ) (hx : x ∉ d) :
    (loop W (f + 1) ⟨szs W d, x :: s⟩ = some (.error .mk) ∧ Broken (W.obj x)) ∨
    (loop W (f + 1) ⟨szs W d, x :: s⟩ =
        loop W f ⟨szs W (d ++ [x]), pushSet (d ++ [x]) s (refsAt W x)⟩ ∧ ¬ Broken (W.obj x)) := by
  have hh : ¬ Dict.has (szs W d) x = true := fun h => hx ((has_szs W d x).1 h)
  have hclosed : ¬ Opened (W.obj x) → pushSet (d ++ [x]) s (refsAt W x) = s := by
    intro h
    unfold refsAt
    rw [if_neg h]
    rfl
  rw [loop]
  simp only
  rw [if_neg hh]
  cases hn : (W.obj x).nbytes with
  | some n =>
    right
    have hs : size (W.obj x) = n := by simp [size, hn]
    have ho : ¬ Opened (W.obj x) := fun h => by rw [h.1] at hn; cases hn
    simp only
    rw [← hs, set_szs W d x hx, hclosed ho]
    exact ⟨rfl, fun h => ho h.1⟩
  | none =>
    simp only
    cases hm : (W.obj x).memory with
    | some n =>
      right
      have hs : size (W.obj x) = n := by simp [size, hn, hm]
      have ho : ¬ Opened (W.obj x) := fun h => by rw [h.2.1] at hm; cases hm
      simp only
      rw [← hs, set_szs W d x hx, hclosed ho]
      exact ⟨rfl, fun h => ho h.1⟩
    | none =>
      have hs : size (W.obj x) = (W.obj x).own := by simp [size, hn, hm]
      simp only
      rw [← hs, set_szs W d x hx]
      by_cases ha : (W.obj x).atom = true
      · right
        have ho : ¬ Opened (W.obj x) := fun h => by rw [h.2.2] at ha; cases ha
        rw [if_pos ha, hclosed ho]
        exact ⟨rfl, fun h => ho h.1⟩
      · have ho : Opened (W.obj x) := ⟨hn, hm, by simpa using ha⟩
        rw [if_neg ha]
        have hr : refsAt W x = refsOf W (W.obj x) := by unfold refsAt; rw [if_pos ho]
        rcases expand_ok W (d ++ [x]) s (W.obj x) with ⟨h1, h2⟩ | ⟨h1, h2⟩
        · left
          rw [h1]
          exact ⟨rfl, ho, h2⟩
        · right
          rw [h1, hr]
          exact ⟨rfl, fun h => h2 h.2⟩

theorem loop_walk (W : World) (Q : ℕ → Prop) (hQ : ∀ x, Q x → ∀ y ∈ refsAt W x, Q y) (f : ℕ) :
    ∀ s d, (∀ x ∈ s, Q x) →
    (loop W f ⟨szs W d, s⟩ = some (.error .mk) ∧ ∃ x, Q x ∧ Broken (W.obj x)) ∨
    (loop W f ⟨szs W d, s⟩ =
        (walk (refsAt W) pushSet f s d).map (fun r => .ok (szs W r)) ∧
      ∀ r, walk (refsAt W) pushSet f s d = some r → ∀ x ∈ r, x ∉ d → ¬ Broken (W.obj x)) := by
  induction f with
  | zero =>
    intro s d _
    cases s with
    | nil => exact Or.inr ⟨rfl, fun r hr x hx hd => by cases hr; exact absurd hx hd⟩
    | cons x s => exact Or.inr ⟨rfl, fun r hr => by cases hr⟩
  | succ f ih =>
    intro s d hs
    cases s with
    | nil => exact Or.inr ⟨rfl, fun r hr x hx hd => by rw [walk] at hr; cases hr; exact absurd hx hd⟩
    | cons x s =>
      have hs' : ∀ y ∈ s, Q y := fun y hy => hs y (List.mem_cons_of_mem _ hy)
      by_cases hx : x ∈ d
      · have h1 : loop W (f + 1) ⟨szs W d, x :: s⟩ = loop W f ⟨szs W d, s⟩ := by
          rw [loop]
          simp only
          rw [if_pos ((has_szs W d x).2 hx)]
        have h2 : walk (refsAt W) pushSet (f + 1) (x :: s) d = walk (refsAt W) pushSet f s d := by
          rw [walk, if_pos hx]
        rw [h1, h2]
        exact ih s d hs'
      · have h2 : walk (refsAt W) pushSet (f + 1) (x :: s) d =
            walk (refsAt W) pushSet f (pushSet (d ++ [x]) s (refsAt W x)) (d ++ [x]) := by
          rw [walk, if_neg hx]
        rcases loop_new W f x s d hx with ⟨h1, hb⟩ | ⟨h1, hb⟩
        · exact Or.inl ⟨h1, x, hs x List.mem_cons_self, hb⟩
        · rw [h1, h2]
          rcases ih (pushSet (d ++ [x]) s (refsAt W x)) (d ++ [x]) (fun y hy =>
            (goodPush_pushSet.sub _ _ _ y hy).elim (hs' y)
              (fun h => hQ x (hs x List.mem_cons_self) y h)) with h | ⟨h3, h4⟩
          · exact Or.inl h
          · refine Or.inr ⟨h3, fun r hr y hy hyd => ?_⟩
            by_cases hyx : y = x
            · rw [hyx]; exact hb
            · exact h4 r hr y hy (by simp [hyd, hyx])

theorem loop_more (W : World) (f f' : ℕ) (hf : f ≤ f') (s : St)
    (r : Except AttributeError (Dict ℕ ℕ)) (h : loop W f s = some r) : loop W f' s = some r := by
  induction f generalizing f' s with
  | zero =>
    obtain ⟨z, st⟩ := s
    cases st with
    | nil => cases f' <;> exact h
    | cons x st => cases h
  | succ f ih =>
    obtain ⟨z, st⟩ := s
    obtain ⟨f', rfl⟩ : ∃ k, f' = k + 1 := ⟨f' - 1, by omega⟩
    cases st with
    | nil => exact h
    | cons x st =>
      rw [loop] at h ⊢
      simp only at h ⊢
      by_cases h1 : Dict.has z x = true
      · rw [if_pos h1] at h ⊢
        exact ih f' (by omega) _ h
      rw [if_neg h1] at h ⊢
      cases hn : (W.obj x).nbytes with
      | some n =>
        rw [hn] at h
        exact ih f' (by omega) _ h
      | none =>
        cases hm : (W.obj x).memory with
        | some n =>
          rw [hn, hm] at h
          exact ih f' (by omega) _ h
        | none =>
          rw [hn, hm] at h
          simp only at h ⊢
          by_cases ha : (W.obj x).atom = true
          · rw [if_pos ha] at h ⊢
            exact ih f' (by omega) _ h
          rw [if_neg ha] at h ⊢
          cases he : expand W ⟨Dict.set z x (W.obj x).own, st⟩ (W.obj x) with
          | error e =>
            rw [he] at h
            exact h
          | ok s' =>
            rw [he] at h
            exact ih f' (by omega) _ h

end Sizeof
end Verif
