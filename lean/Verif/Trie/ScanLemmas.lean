import Verif.Trie.Scan
import Verif.Trie.ScanSpec
import Verif.Trie.Node
import Mathlib.Data.List.MinMax

/-!
# Lemmas about one token of the scanning loops

Helper lemmas only; the property theorems are in `Verif.Trie.ScanProps`.
-/

namespace Verif
namespace Trie

open TrieSpec

variable {κ τ ν σ μ : Type}

/-! ### Dictionaries with numeric keys -/

/-- Keys in strictly increasing order. -/
def Asc {α : Type} (l : List (Nat × α)) : Prop := l.Pairwise (fun a b => a.1 < b.1)

theorem Asc.nodup {α : Type} {l : List (Nat × α)} (h : Asc l) : (Dict.keys l).Nodup := by
  unfold Dict.keys List.Nodup
  rw [List.pairwise_map]
  exact h.imp (fun h => Nat.ne_of_lt h)

theorem get?_filter_key {α : Type} (d : Dict Nat α) (q : Nat → Bool) (s : Nat) :
    Dict.get? (d.filter (fun p => q p.1)) s = if q s then Dict.get? d s else none := by
  induction d with
  | nil => simp
  | cons p d ih =>
    obtain ⟨k, v⟩ := p
    rw [List.filter_cons, Dict.get?_cons]
    by_cases hk : k = s
    · subst hk
      by_cases hq : q k
      · simp [hq, Dict.get?_cons]
      · simp [hq, ih]
    · by_cases hq : q k
      · simp [hq, Dict.get?_cons, hk, ih]
      · simp [hq, hk, ih]

theorem nodup_filter {α : Type} {d : Dict Nat α} (h : (Dict.keys d).Nodup) (q : Nat × α → Bool) :
    (Dict.keys (d.filter q)).Nodup :=
  List.Nodup.sublist (List.Sublist.map _ List.filter_sublist) h

theorem set_append_new {α : Type} (d : Dict Nat α) (k : Nat) (v : α) (h : k ∉ Dict.keys d) :
    Dict.set d k v = d ++ [(k, v)] := by
  induction d with
  | nil => rfl
  | cons p d ih =>
    obtain ⟨k', v'⟩ := p
    simp only [Dict.keys_cons, List.mem_cons, not_or] at h
    rw [Dict.set, if_neg (fun e => h.1 e.symm), ih h.2]
    rfl

theorem set_middle {α : Type} (A B : Dict Nat α) (k : Nat) (v v' : α) (h : k ∉ Dict.keys A) :
    Dict.set (A ++ (k, v) :: B) k v' = A ++ (k, v') :: B := by
  induction A with
  | nil => simp [Dict.set]
  | cons p A ih =>
    obtain ⟨k', w⟩ := p
    simp only [Dict.keys_cons, List.mem_cons, not_or] at h
    rw [List.cons_append, Dict.set, if_neg (fun e => h.1 e.symm), ih h.2]
    rfl

theorem get?_append {α : Type} (A B : Dict Nat α) (k : Nat) :
    Dict.get? (A ++ B) k = (Dict.get? A k).or (Dict.get? B k) := by
  induction A with
  | nil => simp
  | cons p A ih =>
    obtain ⟨k', v⟩ := p
    rw [List.cons_append, Dict.get?_cons, Dict.get?_cons]
    split <;> simp [ih]

/-- Two dictionaries with the same contents. -/
def DEq {α : Type} (d d' : Dict Nat α) : Prop := ∀ s, Dict.get? d s = Dict.get? d' s

theorem DEq.keys {α : Type} {d d' : Dict Nat α} (h : DEq d d') (s : Nat) :
    s ∈ Dict.keys d ↔ s ∈ Dict.keys d' := by
  rw [Dict.mem_keys_iff, Dict.mem_keys_iff]
  simp only [h s]

theorem DEq.perm {α : Type} {d d' : Dict Nat α} (h : DEq d d') (hd : (Dict.keys d).Nodup)
    (hd' : (Dict.keys d').Nodup) : d.Perm d' := by
  rw [List.perm_ext_iff_of_nodup hd.of_map hd'.of_map]
  rintro ⟨k, v⟩
  rw [Dict.mem_iff_get? hd, Dict.mem_iff_get? hd', h k]

theorem DEq.min {α : Type} {d : Dict Nat α} {s : Nat} {v : α} {l : List (Nat × α)}
    (h : DEq d ((s, v) :: l)) (ha : Asc ((s, v) :: l)) : (Dict.keys d).min? = some s := by
  rw [List.min?_eq_some_iff]
  constructor
  · rw [h.keys]; simp
  · intro b hb
    rw [h.keys] at hb
    simp only [Dict.keys_cons, List.mem_cons] at hb
    rcases hb with rfl | hb
    · exact le_refl _
    · obtain ⟨x, hx, rfl⟩ := List.mem_map.mp hb
      exact le_of_lt ((List.pairwise_cons.mp ha).1 x hx)

theorem DEq.nil {α : Type} {d : Dict Nat α} (h : DEq d []) : d = [] := by
  cases d with
  | nil => rfl
  | cons p d =>
    have := (h.keys p.1).mp (by simp)
    simp at this

theorem DEq.erase {α : Type} {d : Dict Nat α} {s : Nat} {v : α} {l : List (Nat × α)}
    (h : DEq d ((s, v) :: l)) (ha : Asc ((s, v) :: l)) : DEq (Dict.erase d s) l := by
  intro k
  rw [Dict.get?_erase, h k, Dict.get?_cons]
  by_cases hk : k = s
  · subst hk
    symm
    simp only [↓reduceIte]
    rw [Dict.get?_eq_none]
    intro hm
    obtain ⟨x, hx, he⟩ := List.mem_map.mp hm
    have := (List.pairwise_cons.mp ha).1 x hx
    simp only at this
    omega
  · have : ¬ s = k := fun h => hk h.symm
    simp [this]

theorem length_erase_lt {α : Type} {d : Dict Nat α} {s : Nat} (h : s ∈ Dict.keys d) :
    (Dict.erase d s).length < d.length := by
  unfold Dict.erase
  obtain ⟨x, hx, rfl⟩ := List.mem_map.mp h
  exact List.length_filter_lt_length_iff_exists.mpr ⟨x, hx, by simp⟩

theorem sortedItems_eq {α : Type} {d : Dict Nat α} {l : List (Nat × α)} (h : DEq d l)
    (hd : (Dict.keys d).Nodup) (ha : Asc l) : sortedItems d = l := by
  unfold sortedItems
  have hp : (d.insertionSort (fun a b => a.1 ≤ b.1)).Perm l :=
    (List.perm_insertionSort _ _).trans (h.perm hd ha.nodup)
  have hnd : (Dict.keys (d.insertionSort (fun a b => a.1 ≤ b.1))).Nodup :=
    ((hp.map Prod.fst).nodup_iff).mpr ha.nodup
  have hs : (d.insertionSort (fun a b : Nat × α => a.1 ≤ b.1)).Pairwise (fun a b => a.1 ≤ b.1) := by
    have : Std.Total (fun a b : Nat × α => a.1 ≤ b.1) := ⟨fun a b => le_total a.1 b.1⟩
    have : IsTrans (Nat × α) (fun a b : Nat × α => a.1 ≤ b.1) := ⟨fun a b c h1 h2 => le_trans h1 h2⟩
    exact List.pairwise_insertionSort _ _
  have hlt : Asc (d.insertionSort (fun a b => a.1 ≤ b.1)) := by
    have hne : (d.insertionSort (fun a b : Nat × α => a.1 ≤ b.1)).Pairwise
        (fun a b => a.1 ≠ b.1) := by
      rw [← List.pairwise_map (f := Prod.fst) (R := (· ≠ ·))]
      exact hnd
    exact (hs.and hne).imp (fun h => lt_of_le_of_ne h.1 h.2)
  exact List.Perm.eq_of_pairwise (fun a b _ _ h1 h2 => absurd h1 (not_lt.mpr (le_of_lt h2))) hlt ha hp

/-! ### The inner loop -/

variable [DecidableEq τ]

section
variable (head : σ → Node τ ν) (next : σ → Node τ ν → σ) (record : σ → ν → μ) (index : Nat)
  (item : τ)

/-- New spans after one token, when matches may not overlap. -/
def stepSpans : List (Nat × σ) → List (Nat × σ)
  | [] => []
  | p :: rest =>
    match Dict.get? (head p.2).kids item with
    | none => stepSpans rest
    | some n => (p.1, next p.2 n) :: (if n.val.isSome then [] else stepSpans rest)

/-- The leftmost span that becomes a match. -/
def firstHit : List (Nat × σ) → Option (Nat × μ)
  | [] => none
  | p :: rest =>
    match Dict.get? (head p.2).kids item with
    | none => firstHit rest
    | some n =>
      match n.val with
      | none => firstHit rest
      | some v => some (p.1, record (next p.2 n) v)

/-- The updated span. -/
def advSpan (p : Nat × σ) : Nat × σ :=
  match Dict.get? (head p.2).kids item with
  | none => p
  | some n => (p.1, next p.2 n)

/-- The positions forbidden by a span. -/
def spanRange (forbid : Bool) (p : Nat × σ) : List Nat :=
  match Dict.get? (head p.2).kids item with
  | none => []
  | some n =>
    match n.val with
    | none => []
    | some _ => if forbid then List.range' (p.1 + 1) (index - p.1) else []

/-- The position of a span that dies. -/
def spanDead (p : Nat × σ) : List Nat :=
  match Dict.get? (head p.2).kids item with
  | none => [p.1]
  | some _ => []

/-- The matches after one span. -/
def spanMatch (ms : Dict Nat μ) (p : Nat × σ) : Dict Nat μ :=
  match Dict.get? (head p.2).kids item with
  | none => ms
  | some n =>
    match n.val with
    | none => ms
    | some v => Dict.set ms p.1 (record (next p.2 n) v)

theorem spanBody_eq (forbid : Bool) (w : Work σ μ) (A B : Dict Nat σ) (p : Nat × σ)
    (hw : w.spans = A ++ p :: B) (hA : p.1 ∉ Dict.keys A) :
    spanBody head next record forbid index item w p =
      ⟨A ++ advSpan head next item p :: B, spanMatch head next record item w.matches_ p,
       w.matchesToRemove ++ spanRange head index item forbid p,
       w.spansToRemove ++ spanDead head item p⟩ := by
  obtain ⟨k, s⟩ := p
  unfold spanBody advSpan spanMatch spanRange spanDead
  cases hg : Dict.get? (head s).kids item with
  | none => simp [hw]
  | some n =>
    have hset : Dict.set w.spans k (next s n) = A ++ (k, next s n) :: B := by
      rw [hw]; exact set_middle A B k s _ hA
    cases hv : n.val with
    | none => simp [hv, hset]
    | some v => cases forbid <;> simp [hv, hset]

theorem foldl_spanBody (forbid : Bool) (L A : Dict Nat σ) (w : Work σ μ)
    (hw : w.spans = A ++ L) (hnd : (Dict.keys (A ++ L)).Nodup) :
    L.foldl (spanBody head next record forbid index item) w =
      ⟨A ++ L.map (advSpan head next item), L.foldl (spanMatch head next record item) w.matches_,
       w.matchesToRemove ++ L.flatMap (spanRange head index item forbid),
       w.spansToRemove ++ L.flatMap (spanDead head item)⟩ := by
  induction L generalizing A w with
  | nil => cases w; simp_all
  | cons p L ih =>
    have hkey : (advSpan head next item p).1 = p.1 := by
      unfold advSpan; split <;> rfl
    have hA : p.1 ∉ Dict.keys A := by
      intro hm
      have h2 : (A.map Prod.fst ++ p.1 :: L.map Prod.fst).Nodup := by
        simpa [Dict.keys] using hnd
      exact (List.nodup_append.mp h2).2.2 _ hm _ (by simp) rfl
    have h3 : (Dict.keys ((A ++ [advSpan head next item p]) ++ L)).Nodup := by
      have : Dict.keys ((A ++ [advSpan head next item p]) ++ L) = Dict.keys (A ++ p :: L) := by
        simp [Dict.keys, hkey]
      rw [this]; exact hnd
    rw [List.foldl_cons, spanBody_eq head next record index item forbid w A L p hw hA,
      ih (A ++ [advSpan head next item p]) _ (by simp) h3]
    simp

theorem mem_spanRange {forbid : Bool} {p : Nat × σ} {s : Nat}
    (h : s ∈ spanRange head index item forbid p) : p.1 < s := by
  unfold spanRange at h
  split at h
  · simp at h
  · split at h
    · simp at h
    · split at h
      · rw [List.mem_range'_1] at h; omega
      · simp at h

theorem mem_spanDead {p : Nat × σ} {s : Nat} (h : s ∈ spanDead head item p) : s = p.1 := by
  unfold spanDead at h
  split at h <;> simp_all

theorem advSpan_fst (p : Nat × σ) : (advSpan head next item p).1 = p.1 := by
  unfold advSpan; split <;> rfl

/-- The spans that survive the removals. -/
theorem cleanup_spans (S : Dict Nat σ) (hS : Asc S) (hi : ∀ p ∈ S, p.1 ≤ index) :
    (S.map (advSpan head next item)).filter (fun p =>
      !((S.flatMap (spanRange head index item true)).contains p.1 ||
        (S.flatMap (spanDead head item)).contains p.1)) = stepSpans head next item S := by
  induction S with
  | nil => rfl
  | cons p S ih =>
    have hS' := List.pairwise_cons.mp hS
    have hi' : ∀ q ∈ S, q.1 ≤ index := fun q hq => hi q (by simp [hq])
    have ih := ih hS'.2 hi'
    -- positions in the lists of the tail
    have hr : ∀ s ∈ S.flatMap (spanRange head index item true), p.1 < s := by
      intro s hs
      obtain ⟨q, hq, hm⟩ := List.mem_flatMap.mp hs
      exact lt_trans (hS'.1 q hq) (mem_spanRange head index item hm)
    have hd : ∀ s ∈ S.flatMap (spanDead head item), p.1 < s := by
      intro s hs
      obtain ⟨q, hq, hm⟩ := List.mem_flatMap.mp hs
      rw [mem_spanDead head item hm]
      exact hS'.1 q hq
    have htail : ∀ q ∈ S.map (advSpan head next item), p.1 < q.1 ∧ q.1 ≤ index := by
      intro q hq
      obtain ⟨r, hr, rfl⟩ := List.mem_map.mp hq
      rw [advSpan_fst]
      exact ⟨hS'.1 r hr, hi' r hr⟩
    rw [List.map_cons, List.filter_cons, List.flatMap_cons, List.flatMap_cons, stepSpans]
    have e1 : p.1 ∉ S.flatMap (spanRange head index item true) := fun h => absurd (hr _ h) (lt_irrefl _)
    have e2 : p.1 ∉ S.flatMap (spanDead head item) := fun h => absurd (hd _ h) (lt_irrefl _)
    rw [advSpan_fst]
    cases hg : Dict.get? (head p.2).kids item with
    | none =>
      have h1 : spanRange head index item true p = [] := by simp [spanRange, hg]
      have h2 : spanDead head item p = [p.1] := by simp [spanDead, hg]
      rw [h1, h2]
      simp only [List.nil_append]
      have hc : ([p.1] ++ S.flatMap (spanDead head item)).contains p.1 = true := by simp
      rw [hc]
      simp only [Bool.or_true, Bool.not_true, Bool.false_eq_true, if_false]
      rw [← ih]
      apply List.filter_congr
      intro q hq
      have hne : q.1 ≠ p.1 := Nat.ne_of_gt (htail q hq).1
      have hb : (q.1 == p.1) = false := by simpa using hne
      simp only [List.singleton_append, List.contains_cons, hb, Bool.false_or]
    | some n =>
      have h2 : spanDead head item p = [] := by simp [spanDead, hg]
      have hadv : advSpan head next item p = (p.1, next p.2 n) := by simp [advSpan, hg]
      rw [h2, hadv]
      simp only [List.nil_append]
      cases hv : n.val with
      | none =>
        have h1 : spanRange head index item true p = [] := by simp [spanRange, hg, hv]
        rw [h1]
        simp only [List.nil_append]
        have c1 : (S.flatMap (spanRange head index item true)).contains p.1 = false := by
          simpa using e1
        have c2 : (S.flatMap (spanDead head item)).contains p.1 = false := by simpa using e2
        rw [c1, c2, ih]
        simp
      | some v =>
        have h1 : spanRange head index item true p = List.range' (p.1 + 1) (index - p.1) := by
          simp [spanRange, hg, hv]
        rw [h1]
        have c1 : (List.range' (p.1 + 1) (index - p.1) ++
            S.flatMap (spanRange head index item true)).contains p.1 = false := by
          rw [← Bool.not_eq_true, List.contains_iff_mem, List.mem_append, not_or]
          refine ⟨?_, e1⟩
          rw [List.mem_range'_1]; omega
        have c2 : (S.flatMap (spanDead head item)).contains p.1 = false := by simpa using e2
        rw [c1, c2]
        simp only [Bool.or_self, Bool.not_false, if_true, Option.isSome_some, List.cons.injEq,
          true_and]
        rw [List.filter_eq_nil_iff]
        intro q hq
        have hq' := htail q hq
        have : (List.range' (p.1 + 1) (index - p.1) ++
            S.flatMap (spanRange head index item true)).contains q.1 = true := by
          rw [List.contains_iff_mem, List.mem_append]
          left
          rw [List.mem_range'_1]; omega
        rw [this]
        simp

theorem foldl_spanMatch_get? (S : Dict Nat σ) (ms : Dict Nat μ) (s : Nat) (h : s ∉ Dict.keys S) :
    Dict.get? (S.foldl (spanMatch head next record item) ms) s = Dict.get? ms s := by
  induction S generalizing ms with
  | nil => rfl
  | cons p S ih =>
    simp only [Dict.keys_cons, List.mem_cons, not_or] at h
    rw [List.foldl_cons, ih _ h.2]
    unfold spanMatch
    split
    · rfl
    · split
      · rfl
      · rw [Dict.get?_set, if_neg (fun e => h.1 e.symm)]

theorem nodup_foldl_spanMatch (S : Dict Nat σ) {ms : Dict Nat μ} (h : (Dict.keys ms).Nodup) :
    (Dict.keys (S.foldl (spanMatch head next record item) ms)).Nodup := by
  induction S generalizing ms with
  | nil => exact h
  | cons p S ih =>
    rw [List.foldl_cons]
    apply ih
    unfold spanMatch
    split
    · exact h
    · split
      · exact h
      · exact Dict.nodup_keys_set h _ _

/-- The matches that survive the removals. -/
theorem cleanup_matches (S : Dict Nat σ) (hS : Asc S) (hi : ∀ p ∈ S, p.1 ≤ index)
    (ms : Dict Nat μ) (hm : ∀ s ∈ Dict.keys ms, s ≤ index) (s : Nat) :
    Dict.get? ((S.foldl (spanMatch head next record item) ms).filter (fun p =>
      !(S.flatMap (spanRange head index item true)).contains p.1)) s =
    match firstHit head next record item S with
    | none => Dict.get? ms s
    | some (s0, r) => if s < s0 then Dict.get? ms s else if s = s0 then some r else none := by
  rw [get?_filter_key _ (fun k => !(S.flatMap (spanRange head index item true)).contains k)]
  induction S generalizing ms with
  | nil => simp [firstHit]
  | cons p S ih =>
    have hS' := List.pairwise_cons.mp hS
    have hi' : ∀ q ∈ S, q.1 ≤ index := fun q hq => hi q (by simp [hq])
    have hr : ∀ s ∈ S.flatMap (spanRange head index item true), p.1 < s := by
      intro s hs
      obtain ⟨q, hq, hm⟩ := List.mem_flatMap.mp hs
      exact lt_trans (hS'.1 q hq) (mem_spanRange head index item hm)
    rw [List.flatMap_cons, List.foldl_cons, firstHit]
    cases hg : Dict.get? (head p.2).kids item with
    | none =>
      have h1 : spanRange head index item true p = [] := by simp [spanRange, hg]
      have h2 : spanMatch head next record item ms p = ms := by simp [spanMatch, hg]
      rw [h1, h2, List.nil_append]
      exact ih hS'.2 hi' ms hm
    | some n =>
      cases hv : n.val with
      | none =>
        have h1 : spanRange head index item true p = [] := by simp [spanRange, hg, hv]
        have h2 : spanMatch head next record item ms p = ms := by simp [spanMatch, hg, hv]
        rw [h1, h2, List.nil_append]
        simp only [hv]
        exact ih hS'.2 hi' ms hm
      | some v =>
        have h1 : spanRange head index item true p = List.range' (p.1 + 1) (index - p.1) := by
          simp [spanRange, hg, hv]
        have h2 : spanMatch head next record item ms p = Dict.set ms p.1 (record (next p.2 n) v) := by
          simp [spanMatch, hg, hv]
        rw [h1, h2]
        simp only [hv]
        have hnot : s ≤ p.1 → s ∉ Dict.keys S := by
          intro hs hk
          obtain ⟨q, hq, rfl⟩ := List.mem_map.mp hk
          exact absurd (hS'.1 q hq) (not_lt.mpr hs)
        have hin : s ≤ p.1 → (List.range' (p.1 + 1) (index - p.1) ++
            S.flatMap (spanRange head index item true)).contains s = false := by
          intro hs
          rw [← Bool.not_eq_true, List.contains_iff_mem, List.mem_append, not_or]
          refine ⟨?_, fun h => absurd (hr _ h) (not_lt.mpr hs)⟩
          rw [List.mem_range'_1]; omega
        by_cases hlt : s < p.1
        · rw [hin (le_of_lt hlt), foldl_spanMatch_get? _ _ _ _ _ _ _ (hnot (le_of_lt hlt)),
            Dict.get?_set]
          have : ¬ p.1 = s := by omega
          simp [this, hlt]
        · by_cases heq : s = p.1
          · rw [hin (le_of_eq heq), foldl_spanMatch_get? _ _ _ _ _ _ _ (hnot (le_of_eq heq)),
              Dict.get?_set]
            simp [heq]
          · rw [if_neg hlt, if_neg heq]
            by_cases hle : s ≤ index
            · have : (List.range' (p.1 + 1) (index - p.1) ++
                  S.flatMap (spanRange head index item true)).contains s = true := by
                rw [List.contains_iff_mem, List.mem_append]
                left
                rw [List.mem_range'_1]; omega
              rw [this]
              simp
            · have hk : s ∉ Dict.keys S := by
                intro hk
                obtain ⟨q, hq, rfl⟩ := List.mem_map.mp hk
                exact hle (hi' q hq)
              rw [foldl_spanMatch_get? _ _ _ _ _ _ _ hk, Dict.get?_set]
              have h3 : ¬ p.1 = s := fun h => heq h.symm
              have h4 : Dict.get? ms s = none := by
                rw [Dict.get?_eq_none]
                exact fun h => hle (hm s h)
              simp [h3, h4]

end

/-- One token, when matches may not overlap. -/
theorem scanToken_forbid (head : σ → Node τ ν) (next : σ → Node τ ν → σ) (record : σ → ν → μ)
    (start : σ) (index : Nat) (item : τ) (S : Dict Nat σ) (ms : Dict Nat μ) (hS : Asc S)
    (hi : ∀ p ∈ S, p.1 < index) (hmi : ∀ s ∈ Dict.keys ms, s ≤ index)
    (hmn : (Dict.keys ms).Nodup) :
    (scanToken head next record true start index item S ms).1 =
      stepSpans head next item (S ++ [(index, start)]) ∧
    (Dict.keys (scanToken head next record true start index item S ms).2).Nodup ∧
    ∀ s, Dict.get? (scanToken head next record true start index item S ms).2 s =
      match firstHit head next record item (S ++ [(index, start)]) with
      | none => Dict.get? ms s
      | some (s0, r) => if s < s0 then Dict.get? ms s else if s = s0 then some r else none := by
  have hk : index ∉ Dict.keys S := by
    intro h
    obtain ⟨p, hp, he⟩ := List.mem_map.mp h
    exact absurd (hi p hp) (by omega)
  have hset := set_append_new S index start hk
  have hasc : Asc (S ++ [(index, start)]) := by
    unfold Asc
    rw [List.pairwise_append]
    exact ⟨hS, by simp, fun a ha b hb => by simp at hb; subst hb; exact hi a ha⟩
  have hle : ∀ p ∈ S ++ [(index, start)], p.1 ≤ index := by
    intro p hp
    rcases List.mem_append.mp hp with hp | hp
    · exact le_of_lt (hi p hp)
    · simp at hp; subst hp; exact le_refl _
  unfold scanToken
  simp only [hset]
  rw [foldl_spanBody head next record index item true (S ++ [(index, start)]) [] _ rfl
    (by simpa using hasc.nodup)]
  unfold cleanup
  simp only [List.nil_append]
  refine ⟨cleanup_spans head next index item _ hasc hle, ?_,
    cleanup_matches head next record index item _ hasc hle ms hmi⟩
  exact nodup_filter (nodup_foldl_spanMatch _ _ _ _ _ hmn) _

end Trie
end Verif
