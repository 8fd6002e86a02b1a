import Verif.Trie.ScanLoops

/-!
# `finditer(allow_overlapping=True)` and facts about leftmost-longest cuttings

Helper lemmas only; the property theorems are in `Verif.Trie.ScanProps`.
-/

namespace Verif
namespace Trie

open TrieSpec

variable {κ τ ν σ μ : Type} [DecidableEq τ]

section
variable (head : σ → Node τ ν) (next : σ → Node τ ν → σ) (record : σ → ν → μ) (index : Nat) (x : τ)

/-- A span after one more token. -/
def liveStep (p : Nat × σ) : Option (Nat × σ) :=
  (Dict.get? (head p.2).kids x).map (fun n => (p.1, next p.2 n))

/-- The match made by a span with one more token. -/
def hitStep (p : Nat × σ) : Option (Nat × μ) :=
  match Dict.get? (head p.2).kids x with
  | none => none
  | some n => n.val.map (fun v => (p.1, record (next p.2 n) v))

theorem cleanup_spans_ov (S : Dict Nat σ) (hS : Asc S) :
    (S.map (advSpan head next x)).filter (fun p =>
      !((S.flatMap (spanRange head index x false)).contains p.1 ||
        (S.flatMap (spanDead head x)).contains p.1)) = S.filterMap (liveStep head next x) := by
  have hr : S.flatMap (spanRange head index x false) = [] := by
    rw [List.flatMap_eq_nil_iff]
    intro p _
    unfold spanRange
    split
    · rfl
    · split <;> simp
  rw [hr]
  suffices h : ∀ A B : Dict Nat σ, S = A ++ B → (B.map (advSpan head next x)).filter (fun p =>
      !([].contains p.1 || (S.flatMap (spanDead head x)).contains p.1)) =
      B.filterMap (liveStep head next x) from h [] S rfl
  intro A B
  induction B generalizing A with
  | nil => intro _; rfl
  | cons p B ih =>
    intro hSe
    have ih' := ih (A ++ [p]) (by rw [hSe]; simp)
    have hmemp : p ∈ S := by rw [hSe]; simp
    rw [List.map_cons, List.filter_cons, ih', List.filterMap_cons]
    have huniq : ∀ q ∈ S, q.1 = p.1 → q = p := by
      intro q hq he
      exact List.inj_on_of_nodup_map hS.nodup hq hmemp he
    cases hg : Dict.get? (head p.2).kids x with
    | none =>
      have hmem : p.1 ∈ S.flatMap (spanDead head x) := by
        rw [List.mem_flatMap]
        exact ⟨p, hmemp, by unfold spanDead; rw [hg]; simp⟩
      simp [liveStep, hg, advSpan_fst, hmem]
    | some n =>
      have hmem : p.1 ∉ S.flatMap (spanDead head x) := by
        rw [List.mem_flatMap]
        rintro ⟨q, hq, hd⟩
        have := huniq q hq (mem_spanDead head x hd).symm
        subst this
        unfold spanDead at hd
        rw [hg] at hd
        simp at hd
      simp [liveStep, hg, advSpan, hmem]

theorem foldl_spanMatch_ov (S : Dict Nat σ) (hS : Asc S) (ms : Dict Nat μ)
    (hms : ∀ s ∈ Dict.keys ms, ∀ p ∈ S, s < p.1) :
    S.foldl (spanMatch head next record x) ms = ms ++ S.filterMap (hitStep head next record x) := by
  induction S generalizing ms with
  | nil => simp
  | cons p S ih =>
    have hS' := List.pairwise_cons.mp hS
    rw [List.foldl_cons, List.filterMap_cons]
    cases hg : Dict.get? (head p.2).kids x with
    | none =>
      have h1 : spanMatch head next record x ms p = ms := by unfold spanMatch; rw [hg]
      have h2 : hitStep head next record x p = none := by unfold hitStep; rw [hg]
      rw [h1, h2, ih hS'.2 ms (fun s hs q hq => hms s hs q (by simp [hq]))]
    | some n =>
      cases hv : n.val with
      | none =>
        have h1 : spanMatch head next record x ms p = ms := by
          unfold spanMatch; rw [hg]; simp only; rw [hv]
        have h2 : hitStep head next record x p = none := by
          unfold hitStep; rw [hg]; simp [hv]
        rw [h1, h2, ih hS'.2 ms (fun s hs q hq => hms s hs q (by simp [hq]))]
      | some v =>
        have hnew : p.1 ∉ Dict.keys ms := fun h => by
          have := hms p.1 h p (by simp)
          omega
        have h1 : spanMatch head next record x ms p = ms ++ [(p.1, record (next p.2 n) v)] := by
          unfold spanMatch; rw [hg]; simp only; rw [hv]
          exact set_append_new ms _ _ hnew
        have h2 : hitStep head next record x p = some (p.1, record (next p.2 n) v) := by
          unfold hitStep; rw [hg]; simp [hv]
        rw [h1, h2, ih hS'.2]
        · simp
        · intro s hs q hq
          unfold Dict.keys at hs
          rw [List.map_append, List.mem_append] at hs
          rcases hs with hs | hs
          · exact hms s hs q (by simp [hq])
          · simp at hs
            subst hs
            exact hS'.1 q hq

theorem scanToken_ov (start : σ) (S : Dict Nat σ) (hS : Asc S) (hi : ∀ p ∈ S, p.1 < index) :
    scanToken head next record false start index x S [] =
      ((S ++ [(index, start)]).filterMap (liveStep head next x),
       (S ++ [(index, start)]).filterMap (hitStep head next record x)) := by
  have hnew : index ∉ Dict.keys S := by
    intro h
    obtain ⟨p, hp, he⟩ := List.mem_map.mp h
    have := hi p hp
    omega
  have hasc : Asc (S ++ [(index, start)]) := by
    unfold Asc
    rw [List.pairwise_append]
    refine ⟨hS, by simp, ?_⟩
    intro a ha b hb
    simp at hb
    subst hb
    exact hi a ha
  unfold scanToken
  rw [set_append_new S index start hnew]
  simp only
  rw [foldl_spanBody head next record index x false (S ++ [(index, start)]) [] _ rfl
    (by simpa using hasc.nodup)]
  unfold cleanup
  simp only [List.nil_append]
  rw [cleanup_spans_ov head next index x _ hasc, foldl_spanMatch_ov head next record x _ hasc []
    (by simp)]
  congr 1
  have hr : (S ++ [(index, start)]).flatMap (spanRange head index x false) = [] := by
    rw [List.flatMap_eq_nil_iff]
    intro p _
    unfold spanRange
    split
    · rfl
    · split <;> simp
  rw [hr]
  simp

end

omit [DecidableEq τ] in
theorem emitHits_all (f : Nat) (L : List (Nat × Nat × List τ)) (fuel : Nat) (out : List (Hit τ))
    (ha : Asc L) (hfuel : L.length ≤ fuel) :
    emitHits true f fuel L out = .ok ([], out ++ L) := by
  induction L generalizing fuel out with
  | nil => cases fuel <;> simp [emitHits, Dict.keys]
  | cons q L ih =>
    obtain ⟨s, e, w⟩ := q
    obtain ⟨fuel, rfl⟩ : ∃ k, fuel = k + 1 := ⟨fuel - 1, by simp at hfuel; omega⟩
    have hd : DEq ((s, e, w) :: L) ((s, e, w) :: L) := fun _ => rfl
    have herase : Dict.erase ((s, e, w) :: L) s = L := by
      unfold Dict.erase
      rw [List.filter_cons]
      simp only [ne_eq, not_true_eq_false, decide_false]
      refine List.filter_eq_self.mpr ?_
      intro q hq
      have := (List.pairwise_cons.mp ha).1 q hq
      simp only at this
      simp; omega
    rw [emitHits, DEq.min hd ha]
    have hget : Dict.get? ((s, e, w) :: L) s = some (e, w) := by rw [Dict.get?_cons]; simp
    simp only [Bool.or_true, if_true, hget]
    rw [herase, ih fuel _ (List.pairwise_cons.mp ha).2 (by simp at hfuel; omega)]
    simp

/-- The spans alive after reading `P`. -/
def liveSpans (root : Node τ ν) (P : List τ) : Dict Nat (Node τ ν × List τ) :=
  (List.range P.length).filterMap
    (fun s => (root.walk (P.drop s)).map (fun n => (s, (n, P.drop s))))

theorem asc_filterMap_range {α : Type} (n : Nat) (f : Nat → Option (Nat × α))
    (hf : ∀ s p, f s = some p → p.1 = s) : Asc ((List.range n).filterMap f) := by
  unfold Asc
  rw [List.pairwise_filterMap]
  refine List.Pairwise.imp ?_ List.pairwise_lt_range
  intro a b hab p hp q hq
  rw [hf a p hp, hf b q hq]
  exact hab

theorem liveSpans_snoc (root : Node τ ν) (P : List τ) :
    liveSpans root P ++ [(P.length, (root, []))] =
      (List.range (P.length + 1)).filterMap
        (fun s => (root.walk (P.drop s)).map (fun n => (s, (n, P.drop s)))) := by
  unfold liveSpans
  rw [List.range_succ, List.filterMap_append]
  congr 1
  simp

theorem findToken_ov (root : Node τ ν) (P : List τ) (x : τ) (out : List (Hit τ)) :
    findToken root true ⟨P.length, liveSpans root P, [], out⟩ x =
      .ok ⟨(P ++ [x]).length, liveSpans root (P ++ [x]), [],
        out ++ (List.range (P.length + 1)).filterMap (fun s =>
          if (root.get ((P ++ [x]).drop s)).isSome then
            some (s, P.length + 1, (P ++ [x]).drop s) else none)⟩ := by
  have hasc : Asc (liveSpans root P) := by
    refine asc_filterMap_range _ _ ?_
    intro s p hp
    cases hw : root.walk (P.drop s) with
    | none => simp [hw] at hp
    | some n => simp [hw] at hp; rw [← hp]
  have hlt : ∀ p ∈ liveSpans root P, p.1 < P.length := by
    intro p hp
    unfold liveSpans at hp
    rw [List.mem_filterMap] at hp
    obtain ⟨s, hs, hp⟩ := hp
    rw [List.mem_range] at hs
    cases hw : root.walk (P.drop s) with
    | none => simp [hw] at hp
    | some n => simp [hw] at hp; rw [← hp]; exact hs
  have hdrop : ∀ s ∈ List.range (P.length + 1), (P ++ [x]).drop s = P.drop s ++ [x] := by
    intro s hs
    rw [List.mem_range] at hs
    exact List.drop_append_of_le_length (by omega)
  have hwalk : ∀ s ∈ List.range (P.length + 1), root.walk ((P ++ [x]).drop s) =
      (root.walk (P.drop s)).bind (fun n => Dict.get? n.kids x) := by
    intro s hs
    rw [hdrop s hs, Node.walk_append]
    cases root.walk (P.drop s) with
    | none => rfl
    | some n => simp [Node.walk]
  unfold findToken
  simp only [Bool.not_true]
  rw [scanToken_ov _ _ _ _ _ _ _ hasc hlt, liveSpans_snoc]
  simp only [List.filterMap_filterMap]
  have h1 : (List.range (P.length + 1)).filterMap (fun s =>
      ((root.walk (P.drop s)).map (fun n => (s, (n, P.drop s)))).bind
        (liveStep Prod.fst (fun q n => (n, q.2 ++ [x])) x)) = liveSpans root (P ++ [x]) := by
    unfold liveSpans
    rw [List.length_append, List.length_singleton]
    refine List.filterMap_congr ?_
    intro s hs
    rw [hwalk s hs, hdrop s hs]
    cases root.walk (P.drop s) with
    | none => rfl
    | some n => simp [liveStep]
  have h2 : (List.range (P.length + 1)).filterMap (fun s =>
      ((root.walk (P.drop s)).map (fun n => (s, (n, P.drop s)))).bind
        (hitStep Prod.fst (fun q n => (n, q.2 ++ [x])) (fun q (_ : ν) => (P.length + 1, q.2)) x)) =
      (List.range (P.length + 1)).filterMap (fun s =>
          if (root.get ((P ++ [x]).drop s)).isSome then
            some (s, P.length + 1, (P ++ [x]).drop s) else none) := by
    refine List.filterMap_congr ?_
    intro s hs
    unfold Node.get
    rw [hwalk s hs, hdrop s hs]
    cases root.walk (P.drop s) with
    | none => simp
    | some n =>
      simp only [Option.map_some, Option.bind_some, hitStep]
      obtain hk | ⟨n', hk⟩ := Option.eq_none_or_eq_some (Dict.get? n.kids x)
      · simp [hk]
      · cases hv : n'.val <;> simp [hk, hv]
  rw [h1, h2, emitHits_all]
  · simp
  · refine asc_filterMap_range _ _ ?_
    intro s p hp
    split at hp
    · simp at hp; rw [← hp]
    · simp at hp
  · exact le_refl _

/-- The occurrences that end at most at the end of `P`, in order. -/
structure AllHits (m : Map τ ν) (P : List τ) (out : List (Hit τ)) : Prop where
  mem : ∀ s e w, (s, e, w) ∈ out ↔ ∃ pre post, P = pre ++ w ++ post ∧ pre.length = s ∧
    e = s + w.length ∧ w ≠ [] ∧ m w ≠ none
  order : out.Pairwise (fun a b => a.2.1 < b.2.1 ∨ (a.2.1 = b.2.1 ∧ a.1 < b.1))

omit [DecidableEq τ] in
theorem allHits_snoc (m : Map τ ν) (P : List τ) (x : τ) (out : List (Hit τ)) (h : AllHits m P out) :
    AllHits m (P ++ [x]) (out ++ (List.range (P.length + 1)).filterMap (fun s =>
          if (m ((P ++ [x]).drop s)).isSome then
            some (s, P.length + 1, (P ++ [x]).drop s) else none)) := by
  have hnew : ∀ s e w, (s, e, w) ∈ (List.range (P.length + 1)).filterMap (fun s =>
          if (m ((P ++ [x]).drop s)).isSome then
            some (s, P.length + 1, (P ++ [x]).drop s) else none) ↔
      s ≤ P.length ∧ e = P.length + 1 ∧ w = (P ++ [x]).drop s ∧ m w ≠ none := by
    intro s e w
    rw [List.mem_filterMap]
    constructor
    · rintro ⟨s', hs', h'⟩
      rw [List.mem_range] at hs'
      split at h'
      · rename_i hsome
        simp only [Option.some.injEq, Prod.mk.injEq] at h'
        obtain ⟨rfl, rfl, rfl⟩ := h'
        exact ⟨by omega, rfl, rfl, Option.ne_none_iff_isSome.mpr hsome⟩
      · simp at h'
    · rintro ⟨hs, rfl, rfl, hm⟩
      refine ⟨s, by rw [List.mem_range]; omega, ?_⟩
      rw [if_pos (Option.ne_none_iff_isSome.mp hm)]
  constructor
  · intro s e w
    rw [List.mem_append, h.mem, hnew]
    constructor
    · rintro (⟨pre, post, rfl, h1, h2, h3, h4⟩ | ⟨hs, rfl, rfl, hm⟩)
      · exact ⟨pre, post ++ [x], by simp, h1, h2, h3, h4⟩
      · refine ⟨(P ++ [x]).take s, [], by simp, ?_, ?_, ?_, hm⟩
        · rw [List.length_take]; simp; omega
        · rw [List.length_drop]; simp; omega
        · rw [ne_eq, List.drop_eq_nil_iff]; simp; omega
    · rintro ⟨pre, post, he, h1, h2, h3, h4⟩
      rcases List.eq_nil_or_concat post with rfl | ⟨post, y, rfl⟩
      · right
        rw [List.append_nil] at he
        have hlen := congrArg List.length he
        rw [List.length_append, List.length_append, List.length_singleton] at hlen
        have := List.length_pos_of_ne_nil h3
        refine ⟨by omega, by omega, ?_, h4⟩
        rw [he, ← h1, List.drop_left]
      · left
        rw [List.concat_eq_append, ← List.append_assoc] at he
        obtain ⟨he, -⟩ := List.append_inj' he rfl
        exact ⟨pre, post, he, h1, h2, h3, h4⟩
  · rw [List.pairwise_append]
    refine ⟨h.order, ?_, ?_⟩
    · rw [List.pairwise_filterMap]
      refine List.Pairwise.imp ?_ List.pairwise_lt_range
      intro a b hab p hp q hq
      split at hp <;> simp at hp
      split at hq <;> simp at hq
      subst hp; subst hq
      right
      exact ⟨rfl, hab⟩
    · rintro ⟨s, e, w⟩ ha ⟨s', e', w'⟩ hb
      rw [hnew] at hb
      obtain ⟨pre, post, he, h1, h2, h3, h4⟩ := (h.mem s e w).mp ha
      left
      have hlen := congrArg List.length he
      rw [List.length_append, List.length_append] at hlen
      simp only
      omega

theorem findLoop_ov (root : Node τ ν) (ts P : List τ) (out : List (Hit τ))
    (h : AllHits root.get P out) :
    ∃ out', findLoop root true ts ⟨P.length, liveSpans root P, [], out⟩ =
      .ok ⟨(P ++ ts).length, liveSpans root (P ++ ts), [], out'⟩ ∧
      AllHits root.get (P ++ ts) out' := by
  induction ts generalizing P out with
  | nil => exact ⟨out, by simp [findLoop], by simpa using h⟩
  | cons t ts ih =>
    rw [findLoop, findToken_ov]
    obtain ⟨out', h1, h2⟩ := ih (P ++ [t]) _ (allHits_snoc _ P t out h)
    refine ⟨out', ?_, by simpa using h2⟩
    simp only
    rw [h1]
    simp

theorem findTokens_true (root : Node τ ν) (ts : List τ) :
    ∃ out, findTokens root true ts = .ok out ∧ AllHits root.get ts out := by
  have h0 : AllHits root.get [] ([] : List (Hit τ)) := by
    constructor
    · intro s e w
      simp only [List.not_mem_nil, false_iff]
      rintro ⟨pre, post, he, -, -, hw, -⟩
      simp at he
      exact hw he.2.1
    · simp
  obtain ⟨out, h1, h2⟩ := findLoop_ov root ts [] [] h0
  refine ⟨out, ?_, by simpa using h2⟩
  unfold findTokens
  have : liveSpans root [] = [] := rfl
  rw [this] at h1
  simp only [List.length_nil] at h1
  rw [h1]
  simp [sortedItems]

/-! ### Leftmost-longest cuttings -/

omit [DecidableEq τ] in
/-- There is at most one leftmost-longest cutting. -/
theorem ll_unique {m : Map τ ν} {ts : List τ} {a b : List (Seg τ ν)} (ha : LeftmostLongest m ts a)
    (hb : LeftmostLongest m ts b) : a = b := by
  induction ha generalizing b with
  | nil =>
    generalize hts : ([] : List τ) = ts at hb
    cases hb with
    | nil => rfl
    | hit h1 h2 h3 h4 => simp at hts; exact absurd hts.1 h1
    | tok h1 h2 => simp at hts
  | @hit w rest v segs h1 h2 h3 h4 ih =>
    generalize hts : w ++ rest = ts at hb
    cases hb with
    | nil => simp at hts; exact absurd hts.1 h1
    | @hit w' rest' v' segs' k1 k2 k3 k4 =>
      have hl1 : w'.length ≤ w.length := h3 w' (by rw [hts]; exact List.prefix_append _ _)
        (by rw [k2]; simp)
      have hl2 : w.length ≤ w'.length := k3 w (by rw [← hts]; exact List.prefix_append _ _)
        (by rw [h2]; simp)
      obtain ⟨rfl, rfl⟩ := List.append_inj hts (by omega)
      rw [h2] at k2
      obtain rfl := Option.some.inj k2
      rw [ih k4]
    | @tok t rest' segs' k1 k2 =>
      have := k1 w (by rw [← hts]; exact List.prefix_append _ _) h1
      rw [h2] at this
      simp at this
  | @tok t rest segs h1 h2 ih =>
    generalize hts : t :: rest = ts at hb
    cases hb with
    | nil => simp at hts
    | @hit w' rest' v' segs' k1 k2 k3 k4 =>
      have := h1 w' (by rw [hts]; exact List.prefix_append _ _) k1
      rw [k2] at this
      simp at this
    | @tok t' rest' segs' k1 k2 =>
      simp at hts
      obtain ⟨rfl, rfl⟩ := hts
      rw [ih k2]

omit [DecidableEq τ] in
/-- The occurrences of a cutting are what the text has at their positions, and do not overlap. -/
theorem occurrences_spec {m : Map τ ν} {ts : List τ} {gs : List (Seg τ ν)}
    (h : LeftmostLongest m ts gs) (b : Nat) :
    (∀ q ∈ occurrences b gs, b ≤ q.1 ∧ q.2.1 = q.1 + q.2.2.length ∧ q.2.2 ≠ [] ∧ m q.2.2 ≠ none ∧
      ∃ pre post, ts = pre ++ q.2.2 ++ post ∧ b + pre.length = q.1) ∧
    (occurrences b gs).Pairwise (fun p q => p.2.1 ≤ q.1) := by
  induction h generalizing b with
  | nil => simp [occurrences]
  | @hit w rest v segs h1 h2 h3 h4 ih =>
    obtain ⟨i1, i2⟩ := ih (b + w.length)
    rw [occurrences]
    refine ⟨?_, List.pairwise_cons.mpr ⟨fun q hq => (i1 q hq).1, i2⟩⟩
    intro q hq
    rw [List.mem_cons] at hq
    rcases hq with rfl | hq
    · exact ⟨le_refl _, rfl, h1, by rw [h2]; simp, [], rest, by simp, by simp⟩
    · obtain ⟨a1, a2, a3, a4, pre, post, a5, a6⟩ := i1 q hq
      exact ⟨by omega, a2, a3, a4, w ++ pre, post, by rw [a5]; simp,
        by rw [List.length_append]; omega⟩
  | @tok t rest segs h1 h2 ih =>
    obtain ⟨i1, i2⟩ := ih (b + 1)
    rw [occurrences]
    refine ⟨?_, i2⟩
    intro q hq
    obtain ⟨a1, a2, a3, a4, pre, post, a5, a6⟩ := i1 q hq
    exact ⟨by omega, a2, a3, a4, t :: pre, post, by rw [a5]; simp, by simp; omega⟩

omit [DecidableEq τ] in
/-- The first occurrence of a cutting starts leftmost and is longest there; there is none only if
no non-empty key occurs. -/
theorem occurrences_head {m : Map τ ν} {ts : List τ} {gs : List (Seg τ ν)}
    (h : LeftmostLongest m ts gs) (b : Nat) :
    (∀ q, (occurrences b gs).head? = some q → ∀ pre w post, ts = pre ++ w ++ post → w ≠ [] →
      m w ≠ none → q.1 ≤ b + pre.length ∧ (q.1 = b + pre.length → w.length ≤ q.2.2.length)) ∧
    ((occurrences b gs).head? = none → ∀ pre w post, ts = pre ++ w ++ post → w ≠ [] →
      m w = none) := by
  induction h generalizing b with
  | nil =>
    simp only [occurrences, List.head?_nil, reduceCtorEq, false_implies, implies_true, true_and]
    intro _ pre w post he hw
    simp at he
    exact absurd he.2.1 hw
  | @hit w0 rest v segs h1 h2 h3 h4 ih =>
    rw [occurrences]
    simp only [List.head?_cons, Option.some.injEq, reduceCtorEq, false_implies, and_true]
    rintro q rfl pre w post he hw hm
    refine ⟨by simp, ?_⟩
    intro hp
    simp at hp
    subst hp
    exact h3 w (by rw [he]; simp) hm
  | @tok t rest segs h1 h2 ih =>
    obtain ⟨i1, i2⟩ := ih (b + 1)
    rw [occurrences]
    constructor
    · intro q hq pre w post he hw hm
      cases pre with
      | nil =>
        exact absurd (h1 w (by rw [he]; simp) hw) hm
      | cons y pre =>
        simp at he
        have := i1 q hq pre w post (by rw [he.2]; simp) hw hm
        simp only [List.length_cons]
        exact ⟨by omega, fun h => this.2 (by omega)⟩
    · intro hq pre w post he hw
      cases pre with
      | nil => exact h1 w (by rw [he]; simp) hw
      | cons y pre =>
        simp at he
        exact i2 hq pre w post (by rw [he.2]; simp) hw

end Trie
end Verif
