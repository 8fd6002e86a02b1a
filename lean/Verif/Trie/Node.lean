import Verif.Trie.Model

/-!
# Lemmas about trie nodes

Helper lemmas only; the property theorems are in `Verif.Trie.MapProps`.
-/

namespace Verif
namespace Trie

variable {τ ν : Type}

namespace Node

/-- Well-formed nodes: distinct child tokens, well-formed children, and no dead child. -/
inductive WF : Node τ ν → Prop where
  | mk {v : Option ν} {ks : List (τ × Node τ ν)} :
      (ks.map Prod.fst).Nodup → (∀ k c, (k, c) ∈ ks → WF c) →
      (∀ k c, (k, c) ∈ ks → c.kids ≠ [] ∨ c.val ≠ none) → WF (.mk v ks)

theorem WF.nodup {n : Node τ ν} (h : WF n) : (Dict.keys n.kids).Nodup := by
  cases h with
  | mk h1 _ _ => exact h1

theorem WF.child {n : Node τ ν} (h : WF n) {k : τ} {c : Node τ ν} (hm : (k, c) ∈ n.kids) :
    WF c := by
  cases h with
  | mk _ h2 _ => exact h2 k c hm

theorem WF.live {n : Node τ ν} (h : WF n) {k : τ} {c : Node τ ν} (hm : (k, c) ∈ n.kids) :
    c.kids ≠ [] ∨ c.val ≠ none := by
  cases h with
  | mk _ _ h3 => exact h3 k c hm

theorem WF.intro {n : Node τ ν} (h1 : (Dict.keys n.kids).Nodup)
    (h2 : ∀ k c, (k, c) ∈ n.kids → WF c)
    (h3 : ∀ k c, (k, c) ∈ n.kids → c.kids ≠ [] ∨ c.val ≠ none) : WF n := by
  cases n with
  | mk v ks => exact WF.mk h1 h2 h3

theorem wf_empty : WF (empty : Node τ ν) := by
  refine WF.intro ?_ ?_ ?_ <;> simp [empty, kids]

@[simp] theorem kids_empty : (empty : Node τ ν).kids = [] := rfl
@[simp] theorem val_empty : (empty : Node τ ν).val = none := rfl
@[simp] theorem kids_mk (v : Option ν) (ks : List (τ × Node τ ν)) : (Node.mk v ks).kids = ks := rfl
@[simp] theorem val_mk (v : Option ν) (ks : List (τ × Node τ ν)) : (Node.mk v ks).val = v := rfl

variable [DecidableEq τ]

@[simp] theorem walk_nil (n : Node τ ν) : n.walk [] = some n := by simp [walk]

theorem walk_cons (n : Node τ ν) (t : τ) (ts : List τ) :
    n.walk (t :: ts) = (Dict.get? n.kids t).bind (walk · ts) := by simp [walk]

theorem walk_append (n : Node τ ν) (xs ys : List τ) :
    n.walk (xs ++ ys) = (n.walk xs).bind (walk · ys) := by
  induction xs generalizing n with
  | nil => simp
  | cons x xs ih =>
    rw [List.cons_append, walk_cons, walk_cons]
    cases Dict.get? n.kids x with
    | none => simp
    | some c => simp [ih]

@[simp] theorem get_nil (n : Node τ ν) : n.get [] = n.val := by simp [get]

theorem get_cons (n : Node τ ν) (t : τ) (ts : List τ) :
    n.get (t :: ts) = (Dict.get? n.kids t).bind (fun c => c.get ts) := by
  simp only [get, walk_cons]
  cases Dict.get? n.kids t <;> simp

theorem get_empty (ts : List τ) : (empty : Node τ ν).get ts = none := by
  cases ts with
  | nil => simp
  | cons t ts => simp [get_cons]

theorem get_eq_none_of_kids {n : Node τ ν} (hk : n.kids = []) (hv : n.val = none) (ts : List τ) :
    n.get ts = none := by
  cases ts with
  | nil => simpa using hv
  | cons t ts => simp [get_cons, hk]

theorem walk_wf {n : Node τ ν} (h : WF n) {ts : List τ} {m : Node τ ν} (hw : n.walk ts = some m) :
    WF m := by
  induction ts generalizing n with
  | nil => simp at hw; exact hw ▸ h
  | cons t ts ih =>
    rw [walk_cons] at hw
    cases hg : Dict.get? n.kids t with
    | none => simp [hg] at hw
    | some c =>
      simp only [hg, Option.bind_some] at hw
      exact ih (h.child (Dict.mem_of_get? hg)) hw

/-! ### `put` -/

theorem get_put (v : ν) (n : Node τ ν) (ts ts' : List τ) :
    (put v n ts).get ts' = if ts' = ts then some v else n.get ts' := by
  induction ts generalizing n ts' with
  | nil =>
    cases ts' with
    | nil => simp [put]
    | cons t' ts' => simp [put, get_cons]
  | cons t ts ih =>
    cases ts' with
    | nil => simp [put]
    | cons t' ts' =>
      rw [put, get_cons, get_cons, kids_mk, Dict.get?_set]
      by_cases ht : t = t'
      · subst ht
        simp only [↓reduceIte, Option.bind_some, ih, List.cons.injEq, true_and]
        cases hg : Dict.get? n.kids t with
        | none => simp [get_empty]
        | some c => simp
      · have ht' : ¬ t' = t := fun h => ht h.symm
        simp [ht, ht']

theorem put_live (v : ν) (n : Node τ ν) (ts : List τ) :
    (put v n ts).kids ≠ [] ∨ (put v n ts).val ≠ none := by
  cases ts with
  | nil => right; simp [put]
  | cons t ts =>
    left
    rw [put, kids_mk]
    intro h
    have : t ∈ Dict.keys (Dict.set n.kids t (put v ((Dict.get? n.kids t).getD empty) ts)) := by
      rw [Dict.mem_keys_set]; left; rfl
    rw [h] at this
    simp at this

theorem put_wf (v : ν) {n : Node τ ν} (h : WF n) (ts : List τ) : WF (put v n ts) := by
  induction ts generalizing n with
  | nil =>
    refine WF.intro ?_ ?_ ?_ <;> simp only [put, kids_mk]
    · exact h.nodup
    · exact fun k c hm => h.child hm
    · exact fun k c hm => h.live hm
  | cons t ts ih =>
    have hc : WF ((Dict.get? n.kids t).getD empty) := by
      cases hg : Dict.get? n.kids t with
      | none => exact wf_empty
      | some c => exact h.child (Dict.mem_of_get? hg)
    have hn : (Dict.keys (Dict.set n.kids t (put v ((Dict.get? n.kids t).getD empty) ts))).Nodup :=
      Dict.nodup_keys_set h.nodup _ _
    have hmem : ∀ k c, (k, c) ∈ Dict.set n.kids t (put v ((Dict.get? n.kids t).getD empty) ts) →
        c = put v ((Dict.get? n.kids t).getD empty) ts ∨ (k, c) ∈ n.kids := by
      intro k c hm
      have := Dict.get?_of_mem hn hm
      rw [Dict.get?_set] at this
      split at this
      · left; simpa using this.symm
      · right; exact Dict.mem_of_get? this
    refine WF.intro ?_ ?_ ?_ <;> simp only [put, kids_mk]
    · exact hn
    · intro k c hm
      rcases hmem k c hm with rfl | hm
      · exact ih hc
      · exact h.child hm
    · intro k c hm
      rcases hmem k c hm with rfl | hm
      · exact put_live _ _ _
      · exact h.live hm

/-! ### `remove` -/

theorem remove_none_iff (n : Node τ ν) (ts : List τ) :
    n.remove ts = none ↔ n.get ts = none := by
  induction ts generalizing n with
  | nil =>
    cases n with
    | mk v ks => cases v <;> simp [remove]
  | cons t ts ih =>
    cases n with
    | mk v ks =>
      rw [remove, get_cons, kids_mk]
      cases hg : Dict.get? ks t with
      | none => simp
      | some c =>
        simp only [Option.bind_some, ← ih c]
        cases hr : remove c ts with
        | none => simp
        | some r =>
          obtain ⟨x, c', b⟩ := r
          simp only [reduceCtorEq, iff_false]
          split <;> simp

theorem remove_val {n n' : Node τ ν} {ts : List τ} {x : ν} {b : Bool}
    (h : n.remove ts = some (x, n', b)) : n.get ts = some x := by
  induction ts generalizing n n' b x with
  | nil =>
    cases n with
    | mk v ks => cases v <;> simp_all [remove]
  | cons t ts ih =>
    cases n with
    | mk v ks =>
      rw [remove] at h
      rw [get_cons, kids_mk]
      cases hg : Dict.get? ks t with
      | none => simp [hg] at h
      | some c =>
        simp only [hg] at h
        cases hr : remove c ts with
        | none => simp [hr] at h
        | some r =>
          obtain ⟨y, c', b'⟩ := r
          simp only [hr] at h
          have := ih hr
          simp only [Option.bind_some, this]
          split at h <;> simp_all

theorem remove_flag {n n' : Node τ ν} {ts : List τ} {x : ν} {b : Bool}
    (h : n.remove ts = some (x, n', b)) :
    (b = true → n'.val = none) ∧ (b = false → n'.kids ≠ [] ∨ n'.val ≠ none) := by
  cases ts with
  | nil =>
    cases n with
    | mk v ks => cases v with
      | none => simp [remove] at h
      | some y => simp [remove] at h; obtain ⟨_, rfl, rfl⟩ := h; simp
  | cons t ts =>
    cases n with
    | mk v ks =>
      rw [remove] at h
      cases hg : Dict.get? ks t with
      | none => simp [hg] at h
      | some c =>
        simp only [hg] at h
        cases hr : remove c ts with
        | none => simp [hr] at h
        | some r =>
          obtain ⟨y, c', b'⟩ := r
          simp only [hr] at h
          split at h
          · simp only [Option.some.injEq, Prod.mk.injEq] at h
            obtain ⟨_, rfl, rfl⟩ := h
            cases v <;> simp
          · simp only [Option.some.injEq, Prod.mk.injEq] at h
            obtain ⟨_, rfl, rfl⟩ := h
            simp only [Bool.false_eq_true, false_implies, kids_mk, true_implies, true_and]
            left
            intro he
            have : t ∈ Dict.keys (Dict.set ks t c') := by rw [Dict.mem_keys_set]; left; rfl
            rw [he] at this
            simp at this

theorem get_remove {n n' : Node τ ν} {ts : List τ} {x : ν} {b : Bool}
    (h : n.remove ts = some (x, n', b)) (ts' : List τ) :
    n'.get ts' = if ts' = ts then none else n.get ts' := by
  induction ts generalizing n n' b x ts' with
  | nil =>
    cases n with
    | mk v ks => cases v with
      | none => simp [remove] at h
      | some y =>
        simp [remove] at h; obtain ⟨_, rfl, rfl⟩ := h
        cases ts' with
        | nil => simp
        | cons t' ts' => simp [get_cons]
  | cons t ts ih =>
    cases n with
    | mk v ks =>
      rw [remove] at h
      cases hg : Dict.get? ks t with
      | none => simp [hg] at h
      | some c =>
        simp only [hg] at h
        cases hr : remove c ts with
        | none => simp [hr] at h
        | some r =>
          obtain ⟨y, c', b'⟩ := r
          simp only [hr] at h
          split at h
          · rename_i hb
            simp only [Bool.and_eq_true, List.isEmpty_iff] at hb
            have hv : c'.val = none := (remove_flag hr).1 hb.1
            simp only [Option.some.injEq, Prod.mk.injEq] at h
            obtain ⟨_, rfl, rfl⟩ := h
            cases ts' with
            | nil => simp
            | cons t' ts' =>
              rw [get_cons, get_cons, kids_mk, kids_mk, Dict.get?_erase]
              by_cases ht : t' = t
              · subst ht
                have h1 := ih hr ts'
                rw [get_eq_none_of_kids hb.2 hv] at h1
                simp only [hg, Option.bind_some, List.cons.injEq, true_and]
                rw [← h1]
                simp
              · have ht' : ¬ t = t' := fun h => ht h.symm
                simp [ht, ht']
          · simp only [Option.some.injEq, Prod.mk.injEq] at h
            obtain ⟨_, rfl, rfl⟩ := h
            cases ts' with
            | nil => simp
            | cons t' ts' =>
              rw [get_cons, get_cons, kids_mk, kids_mk, Dict.get?_set]
              by_cases ht : t' = t
              · subst ht
                simp [hg, ih hr ts']
              · have ht' : ¬ t = t' := fun h => ht h.symm
                simp [ht, ht']

theorem remove_wf {n n' : Node τ ν} (hn : WF n) {ts : List τ} {x : ν} {b : Bool}
    (h : n.remove ts = some (x, n', b)) : WF n' := by
  induction ts generalizing n n' b x with
  | nil =>
    cases n with
    | mk v ks => cases v with
      | none => simp [remove] at h
      | some y =>
        simp [remove] at h; obtain ⟨_, rfl, rfl⟩ := h
        exact WF.intro hn.nodup (fun k c hm => hn.child hm) (fun k c hm => hn.live hm)
  | cons t ts ih =>
    cases n with
    | mk v ks =>
      rw [remove] at h
      cases hg : Dict.get? ks t with
      | none => simp [hg] at h
      | some c =>
        simp only [hg] at h
        cases hr : remove c ts with
        | none => simp [hr] at h
        | some r =>
          obtain ⟨y, c', b'⟩ := r
          simp only [hr] at h
          have hc : WF c := hn.child (Dict.mem_of_get? hg)
          split at h
          · simp only [Option.some.injEq, Prod.mk.injEq] at h
            obtain ⟨_, rfl, rfl⟩ := h
            have hsub : ∀ k c, (k, c) ∈ Dict.erase ks t → (k, c) ∈ ks := by
              intro k c hm
              exact List.mem_of_mem_filter hm
            exact WF.intro (Dict.nodup_keys_erase hn.nodup t)
              (fun k c hm => hn.child (hsub k c hm)) (fun k c hm => hn.live (hsub k c hm))
          · rename_i hb
            simp only [Option.some.injEq, Prod.mk.injEq] at h
            obtain ⟨_, rfl, rfl⟩ := h
            have hlive : c'.kids ≠ [] ∨ c'.val ≠ none := by
              cases b' with
              | false => exact (remove_flag hr).2 rfl
              | true =>
                left
                simpa using hb
            have hnd : (Dict.keys (Dict.set ks t c')).Nodup := Dict.nodup_keys_set hn.nodup _ _
            have hmem : ∀ k d, (k, d) ∈ Dict.set ks t c' → d = c' ∨ (k, d) ∈ ks := by
              intro k d hm
              have := Dict.get?_of_mem hnd hm
              rw [Dict.get?_set] at this
              split at this
              · left; simpa using this.symm
              · right; exact Dict.mem_of_get? this
            refine WF.intro hnd ?_ ?_
            · intro k d hm
              rcases hmem k d hm with rfl | hm
              · exact ih hc hr
              · exact hn.child hm
            · intro k d hm
              rcases hmem k d hm with rfl | hm
              · exact hlive
              · exact hn.live hm

end Node

/-! ### `items` -/

/-- What a frame of the stack of `items` still yields. -/
def frameItems (path : List τ) (f : List (τ × Node τ ν)) : List (List τ × ν) :=
  match f with
  | [] => []
  | (k, c) :: rest =>
    (match c.val with
      | none => []
      | some v => [(path ++ [k], v)]) ++
    (frameItems (path ++ [k]) c.kids.reverse ++ frameItems path rest)
termination_by frameWeight f
decreasing_by
  · have h := Node.weight_eq c
    simp only [frameWeight_reverse]
    simp only [frameWeight, List.map_cons, List.sum_cons] at *
    omega
  · have h := Node.weight_eq c
    simp only [frameWeight, List.map_cons, List.sum_cons] at *
    omega

theorem itemsLoop_cons (path : List τ) (f : List (τ × Node τ ν))
    (stack : List (List (τ × Node τ ν))) :
    itemsLoop path (f :: stack) = frameItems path f ++ itemsLoop path.dropLast stack := by
  induction path, f using frameItems.induct generalizing stack with
  | case1 path => rw [itemsLoop, frameItems]; simp
  | case2 path k c rest ih1 ih2 =>
    rw [itemsLoop, frameItems]
    simp only [ih1, ih2, List.dropLast_concat, List.append_assoc]
    all_goals rfl

theorem Node.items_eq (n : Node τ ν) : n.items = frameItems [] n.kids.reverse := by
  rw [Node.items, itemsLoop_cons, itemsLoop, List.append_nil]

theorem mem_frameItems [DecidableEq τ] (path : List τ) (f : List (τ × Node τ ν))
    (hf : ∀ k c, (k, c) ∈ f → Node.WF c) (p : List τ) (v : ν) :
    (p, v) ∈ frameItems path f ↔
      ∃ k c q, (k, c) ∈ f ∧ p = path ++ k :: q ∧ c.get q = some v := by
  induction path, f using frameItems.induct with
  | case1 path => simp [frameItems]
  | case2 path k c rest ih1 ih2 =>
    have hc : Node.WF c := hf k c (by simp)
    rw [frameItems, List.mem_append, List.mem_append, ih1, ih2]
    · constructor
      · rintro (h | ⟨k', c', q, hm, rfl, hq⟩ | ⟨k', c', q, hm, rfl, hq⟩)
        · refine ⟨k, c, [], by simp, ?_⟩
          cases hv : c.val with
          | none => simp [hv] at h
          | some w => simp only [hv, List.mem_singleton, Prod.mk.injEq] at h; simp [hv, h]
        · refine ⟨k, c, k' :: q, by simp, by simp, ?_⟩
          rw [List.mem_reverse] at hm
          rw [Node.get_cons, Dict.get?_of_mem hc.nodup hm]
          simpa using hq
        · exact ⟨k', c', q, by simp [hm], rfl, hq⟩
      · rintro ⟨k', c', q, hm, rfl, hq⟩
        rcases List.mem_cons.mp hm with he | hm
        · obtain ⟨rfl, rfl⟩ := Prod.mk.injEq .. ▸ he
          cases q with
          | nil => left; rw [Node.get_nil] at hq; simp [hq]
          | cons k'' q =>
            right; left
            rw [Node.get_cons] at hq
            cases hg : Dict.get? c'.kids k'' with
            | none => simp [hg] at hq
            | some c'' =>
              exact ⟨k'', c'', q, List.mem_reverse.mpr (Dict.mem_of_get? hg), by simp,
                by simpa [hg] using hq⟩
        · right; right
          exact ⟨k', c', q, hm, rfl, hq⟩
    · exact fun k' c' hm => hf k' c' (by simp [hm])
    · exact fun k' c' hm => hc.child (List.mem_reverse.mp hm)

theorem nodup_frameItems [DecidableEq τ] (path : List τ) (f : List (τ × Node τ ν))
    (hf : ∀ k c, (k, c) ∈ f → Node.WF c) (hn : (f.map Prod.fst).Nodup) :
    ((frameItems path f).map Prod.fst).Nodup := by
  induction path, f using frameItems.induct with
  | case1 path => simp [frameItems]
  | case2 path k c rest ih1 ih2 =>
    have hc : Node.WF c := hf k c (by simp)
    have hr : ∀ k' c', (k', c') ∈ rest → Node.WF c' := fun k' c' hm => hf k' c' (by simp [hm])
    have hcr : ∀ k' c', (k', c') ∈ c.kids.reverse → Node.WF c' :=
      fun k' c' hm => hc.child (List.mem_reverse.mp hm)
    simp only [List.map_cons, List.nodup_cons] at hn
    have i1 := ih1 hcr (by rw [List.map_reverse, List.nodup_reverse]; exact hc.nodup)
    have i2 := ih2 hr hn.2
    have hd : ∀ p, p ∈ (frameItems (path ++ [k]) c.kids.reverse).map Prod.fst →
        ∃ k' q, p = path ++ k :: k' :: q := by
      intro p hp
      obtain ⟨⟨p, v⟩, hq, rfl⟩ := List.mem_map.mp hp
      obtain ⟨k', c', q, _, rfl, _⟩ := (mem_frameItems _ _ hcr _ _).mp hq
      exact ⟨k', q, by simp⟩
    have he : ∀ p, p ∈ (frameItems path rest).map Prod.fst →
        ∃ k' q, k' ≠ k ∧ p = path ++ k' :: q := by
      intro p hp
      obtain ⟨⟨p, v⟩, hq, rfl⟩ := List.mem_map.mp hp
      obtain ⟨k', c', q, hm, rfl, _⟩ := (mem_frameItems _ _ hr _ _).mp hq
      refine ⟨k', q, ?_, rfl⟩
      rintro rfl
      exact hn.1 (List.mem_map.mpr ⟨_, hm, rfl⟩)
    rw [frameItems, List.map_append, List.map_append]
    refine List.Nodup.append ?_ (List.Nodup.append i1 i2 ?_) ?_
    · cases c.val <;> simp
    · intro p h1 h2
      obtain ⟨k', q, rfl⟩ := hd p h1
      obtain ⟨k'', q', hne, h⟩ := he _ h2
      simp only [List.append_cancel_left_eq, List.cons.injEq] at h
      exact hne h.1.symm
    · intro p h1 h2
      have hp : p = path ++ [k] := by
        cases hv : c.val with
        | none => simp [hv] at h1
        | some w => simpa [hv] using h1
      subst hp
      rcases List.mem_append.mp h2 with h2 | h2
      · obtain ⟨k', q, h⟩ := hd _ h2
        simp at h
      · obtain ⟨k'', q', hne, h⟩ := he _ h2
        simp only [List.append_cancel_left_eq, List.cons.injEq] at h
        exact hne h.1.symm

theorem Node.mem_items [DecidableEq τ] {n : Node τ ν} (h : Node.WF n) (p : List τ) (v : ν) :
    (p, v) ∈ n.items ↔ p ≠ [] ∧ n.get p = some v := by
  rw [Node.items_eq, mem_frameItems _ _ (fun k c hm => h.child (List.mem_reverse.mp hm))]
  constructor
  · rintro ⟨k, c, q, hm, rfl, hq⟩
    refine ⟨by simp, ?_⟩
    rw [List.nil_append, Node.get_cons, Dict.get?_of_mem h.nodup (List.mem_reverse.mp hm)]
    simpa using hq
  · rintro ⟨hp, hg⟩
    cases p with
    | nil => simp at hp
    | cons k q =>
      rw [Node.get_cons] at hg
      cases hk : Dict.get? n.kids k with
      | none => simp [hk] at hg
      | some c =>
        exact ⟨k, c, q, List.mem_reverse.mpr (Dict.mem_of_get? hk), rfl, by simpa [hk] using hg⟩

theorem Node.nodup_items [DecidableEq τ] {n : Node τ ν} (h : Node.WF n) :
    (n.items.map Prod.fst).Nodup := by
  rw [Node.items_eq]
  refine nodup_frameItems _ _ (fun k c hm => h.child (List.mem_reverse.mp hm)) ?_
  rw [List.map_reverse, List.nodup_reverse]
  exact h.nodup

/-- A well-formed node with a child has an item. -/
theorem Node.frameItems_ne_nil (path : List τ) (f : List (τ × Node τ ν))
    (hf : ∀ k c, (k, c) ∈ f → Node.WF c)
    (hl : ∀ k c, (k, c) ∈ f → c.kids ≠ [] ∨ c.val ≠ none) (hne : f ≠ []) :
    frameItems path f ≠ [] := by
  induction path, f using frameItems.induct with
  | case1 path => simp at hne
  | case2 path k c rest ih1 ih2 =>
    have hc : Node.WF c := hf k c (by simp)
    rw [frameItems]
    rcases hl k c (by simp) with h | h
    · have := ih1 (fun k' c' hm => hc.child (List.mem_reverse.mp hm))
        (fun k' c' hm => hc.live (List.mem_reverse.mp hm)) (by simpa using h)
      simp [this]
    · cases hv : c.val with
      | none => exact absurd hv h
      | some v => simp

end Trie
end Verif
