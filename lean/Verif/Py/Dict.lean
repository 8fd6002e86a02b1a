import Mathlib.Data.List.Nodup
import Mathlib.Data.List.Dedup
import Mathlib.Data.List.Induction

/-!
# Python dictionaries

A `dict` is modelled as the list of its items in insertion order. Assigning to an existing key
keeps its place, assigning to a new key appends.
-/

set_option linter.unusedSectionVars false

namespace Verif

/-- Items of a Python `dict` in insertion order. -/
abbrev Dict (κ ν : Type) := List (κ × ν)

namespace Dict

variable {κ ν : Type} [DecidableEq κ]

/-- `d.get(k)`. -/
def get? (d : Dict κ ν) (k : κ) : Option ν :=
  match d with
  | [] => none
  | (k', v) :: d => if k' = k then some v else get? d k

/-- `list(d)`. -/
def keys (d : Dict κ ν) : List κ := d.map Prod.fst

/-- `list(d.values())`. -/
def values (d : Dict κ ν) : List ν := d.map Prod.snd

/-- `k in d`. -/
def has (d : Dict κ ν) (k : κ) : Bool := (get? d k).isSome

/-- `d[k] = v`. -/
def set (d : Dict κ ν) (k : κ) (v : ν) : Dict κ ν :=
  match d with
  | [] => [(k, v)]
  | (k', v') :: d => if k' = k then (k, v) :: d else (k', v') :: set d k v

/-- `del d[k]` / `d.pop(k, None)` without the `KeyError`. -/
def erase (d : Dict κ ν) (k : κ) : Dict κ ν := d.filter (fun p => p.1 ≠ k)

/-- `d.setdefault(k, []).append(v)`. -/
def appendTo (d : Dict κ (List ν)) (k : κ) (v : ν) : Dict κ (List ν) :=
  set d k ((get? d k).getD [] ++ [v])

@[simp] theorem get?_nil (k : κ) : get? ([] : Dict κ ν) k = none := rfl

theorem get?_cons (k' : κ) (v : ν) (d : Dict κ ν) (k : κ) :
    get? ((k', v) :: d) k = if k' = k then some v else get? d k := rfl

@[simp] theorem keys_nil : keys ([] : Dict κ ν) = [] := rfl

@[simp] theorem keys_cons (p : κ × ν) (d : Dict κ ν) : keys (p :: d) = p.1 :: keys d := rfl

theorem get?_eq_none {d : Dict κ ν} {k : κ} : get? d k = none ↔ k ∉ keys d := by
  induction d with
  | nil => simp
  | cons p d ih =>
    obtain ⟨k', v⟩ := p
    rw [get?_cons]
    by_cases h : k' = k
    · simp [h]
    · simp [h, ih, Ne.symm h]

theorem has_iff {d : Dict κ ν} {k : κ} : has d k = true ↔ k ∈ keys d := by
  unfold has
  rw [Option.isSome_iff_ne_none, Ne, get?_eq_none, not_not]

theorem has_eq_decide (d : Dict κ ν) (k : κ) : has d k = decide (k ∈ keys d) := by
  rw [Bool.eq_iff_iff, has_iff]; simp

theorem mem_of_get? {d : Dict κ ν} {k : κ} {v : ν} (h : get? d k = some v) : (k, v) ∈ d := by
  induction d with
  | nil => simp at h
  | cons p d ih =>
    obtain ⟨k', v'⟩ := p
    rw [get?_cons] at h
    by_cases hk : k' = k
    · simp [hk] at h; simp [hk, h]
    · simp [hk] at h; simp [ih h]

theorem mem_keys_of_mem {d : Dict κ ν} {k : κ} {v : ν} (h : (k, v) ∈ d) : k ∈ keys d :=
  List.mem_map.2 ⟨(k, v), h, rfl⟩

theorem get?_of_mem {d : Dict κ ν} (hn : (keys d).Nodup) {k : κ} {v : ν} (h : (k, v) ∈ d) :
    get? d k = some v := by
  induction d with
  | nil => simp at h
  | cons p d ih =>
    obtain ⟨k', v'⟩ := p
    rw [keys_cons, List.nodup_cons] at hn
    rw [get?_cons]
    rcases List.mem_cons.1 h with h | h
    · injection h with h1 h2; simp [h1, h2]
    · have : k' ≠ k := by
        rintro rfl
        exact hn.1 (mem_keys_of_mem h)
      simp [this, ih hn.2 h]

theorem mem_iff_get? {d : Dict κ ν} (hn : (keys d).Nodup) {k : κ} {v : ν} :
    (k, v) ∈ d ↔ get? d k = some v :=
  ⟨get?_of_mem hn, mem_of_get?⟩

theorem mem_keys_iff {d : Dict κ ν} {k : κ} : k ∈ keys d ↔ ∃ v, get? d k = some v := by
  rw [← has_iff, has, Option.isSome_iff_exists]

theorem get?_set (d : Dict κ ν) (k : κ) (v : ν) (k' : κ) :
    get? (set d k v) k' = if k = k' then some v else get? d k' := by
  induction d with
  | nil => simp [set, get?_cons]
  | cons p d ih =>
    obtain ⟨k1, v1⟩ := p
    simp only [set]
    by_cases h : k1 = k
    · subst h
      simp only [if_true, get?_cons]
      by_cases h2 : k1 = k' <;> simp [h2]
    · simp only [h, if_false, get?_cons, ih]
      by_cases h2 : k1 = k'
      · subst h2; simp [Ne.symm h]
      · simp [h2]

theorem keys_set (d : Dict κ ν) (k : κ) (v : ν) :
    keys (set d k v) = if k ∈ keys d then keys d else keys d ++ [k] := by
  induction d with
  | nil => simp [set]
  | cons p d ih =>
    obtain ⟨k1, v1⟩ := p
    simp only [set]
    by_cases h : k1 = k
    · subst h; simp
    · simp only [h, if_false, keys_cons, ih, List.mem_cons, Ne.symm h, false_or]
      split <;> simp

theorem nodup_keys_set {d : Dict κ ν} (hn : (keys d).Nodup) (k : κ) (v : ν) :
    (keys (set d k v)).Nodup := by
  rw [keys_set]
  split
  · exact hn
  · rename_i h
    rw [List.nodup_append]
    refine ⟨hn, by simp, ?_⟩
    intro a ha b hb
    rw [List.mem_singleton] at hb
    rintro rfl
    exact h (hb ▸ ha)

theorem mem_keys_set {d : Dict κ ν} {k k' : κ} {v : ν} :
    k' ∈ keys (set d k v) ↔ k' = k ∨ k' ∈ keys d := by
  rw [keys_set]
  split
  · rename_i h
    constructor
    · exact Or.inr
    · rintro (rfl | h') <;> assumption
  · simp [or_comm]

theorem get?_erase (d : Dict κ ν) (k k' : κ) :
    get? (erase d k) k' = if k = k' then none else get? d k' := by
  induction d with
  | nil => simp [erase]
  | cons p d ih =>
    obtain ⟨k1, v1⟩ := p
    unfold erase at *
    by_cases h : k1 = k
    · subst h
      by_cases h2 : k1 = k'
      · simpa [h2] using ih
      · simpa [h2, get?_cons] using ih
    · by_cases h2 : k1 = k'
      · subst h2
        simp [h, get?_cons, Ne.symm h]
      · simpa [h, h2, get?_cons] using ih

theorem keys_erase (d : Dict κ ν) (k : κ) : keys (erase d k) = (keys d).filter (· ≠ k) := by
  induction d with
  | nil => rfl
  | cons p d ih =>
    obtain ⟨k1, v1⟩ := p
    unfold erase at *
    by_cases h : k1 = k <;> simp_all [keys]

theorem nodup_keys_erase {d : Dict κ ν} (hn : (keys d).Nodup) (k : κ) :
    (keys (erase d k)).Nodup := by
  rw [keys_erase]; exact hn.filter _

/-- Group the second components by first component with `setdefault(k, []).append(v)`. -/
def group (l : List (κ × ν)) : Dict κ (List ν) :=
  l.foldl (fun d p => appendTo d p.1 p.2) []

/-- Second components of the entries with key `k`, in order. -/
def locs (l : List (κ × ν)) (k : κ) : List ν :=
  (l.filter (fun p => p.1 = k)).map Prod.snd

theorem locs_append (l l' : List (κ × ν)) (k : κ) : locs (l ++ l') k = locs l k ++ locs l' k := by
  simp [locs]

theorem locs_eq_nil {l : List (κ × ν)} {k : κ} : locs l k = [] ↔ k ∉ l.map Prod.fst := by
  simp only [locs, List.map_eq_nil_iff, List.filter_eq_nil_iff, decide_eq_true_eq, List.mem_map,
    not_exists, not_and]

theorem mem_locs {l : List (κ × ν)} {k : κ} {v : ν} : v ∈ locs l k ↔ (k, v) ∈ l := by
  simp only [locs, List.mem_map, List.mem_filter, decide_eq_true_eq]
  constructor
  · rintro ⟨⟨a, b⟩, ⟨h, rfl⟩, rfl⟩; exact h
  · intro h; exact ⟨(k, v), ⟨h, rfl⟩, rfl⟩

theorem group_append_singleton (l : List (κ × ν)) (p : κ × ν) :
    group (l ++ [p]) = appendTo (group l) p.1 p.2 := by
  simp [group]

theorem get?_group (l : List (κ × ν)) (k : κ) :
    get? (group l) k = if k ∈ l.map Prod.fst then some (locs l k) else none := by
  induction l using List.reverseRecOn with
  | nil => simp [group]
  | append_singleton l p ih =>
    obtain ⟨k1, v1⟩ := p
    rw [group_append_singleton, appendTo, get?_set]
    by_cases h : k1 = k
    · subst h
      rw [if_pos rfl, ih, locs_append]
      by_cases h2 : k1 ∈ l.map Prod.fst
      · simp [h2, locs]
      · have := locs_eq_nil.2 h2
        rw [if_neg h2, this]
        simp [locs]
    · rw [if_neg h, ih, locs_append]
      by_cases h2 : k ∈ l.map Prod.fst
      · simp [h2, locs, h]
      · simp [h2, h, Ne.symm h]

theorem mem_keys_group {l : List (κ × ν)} {k : κ} : k ∈ keys (group l) ↔ k ∈ l.map Prod.fst := by
  rw [mem_keys_iff]
  constructor
  · rintro ⟨v, h⟩
    rw [get?_group] at h
    by_contra hc
    simp [hc] at h
  · intro h
    exact ⟨locs l k, by rw [get?_group, if_pos h]⟩

theorem nodup_keys_group (l : List (κ × ν)) : (keys (group l)).Nodup := by
  induction l using List.reverseRecOn with
  | nil => simp [group]
  | append_singleton l p ih =>
    rw [group_append_singleton]; exact nodup_keys_set ih _ _

/-- Items of a grouped dict: each key with its located values. -/
theorem group_eq_map (l : List (κ × ν)) :
    group l = (keys (group l)).map (fun k => (k, locs l k)) := by
  have h : ∀ p ∈ group l, p = (p.1, locs l p.1) := by
    rintro ⟨k, v⟩ hp
    have := get?_of_mem (nodup_keys_group l) hp
    rw [get?_group] at this
    split at this
    · injection this with h; simp [h]
    · cases this
  unfold keys
  rw [List.map_map]
  conv_lhs => rw [← List.map_id (group l)]
  exact List.map_congr_left h

end Dict

end Verif
