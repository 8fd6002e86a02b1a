import Verif.Conc.ListFind
import Verif.Index.Props

/-!
# A `lookup` that no other thread disturbs: property C196
-/

namespace Verif
namespace ListConc

open IndexSpec

variable {cf : List Char → List Char} {S : Type} [LinearOrder S] {agg : List ℚ → S} {Q : Query} {m : WL}

/-- The steps of the reading thread alone lead from one place to another. -/
def Reaches (cf : List Char → List Char) (agg : List ℚ → S) (Q : Query) (m : WL) (p p' : RPc S) : Prop :=
  ∃ n, (rstep cf agg Q m)^[n] p = p'

theorem Reaches.refl (p : RPc S) : Reaches cf agg Q m p p := ⟨0, rfl⟩

theorem Reaches.step {p p' p'' : RPc S} (h : rstep cf agg Q m p = p') (h' : Reaches cf agg Q m p' p'') :
    Reaches cf agg Q m p p'' := by
  obtain ⟨n, hn⟩ := h'
  exact ⟨n + 1, by rw [Function.iterate_succ_apply, h, hn]⟩

theorem Reaches.trans {p p' p'' : RPc S} (h : Reaches cf agg Q m p p') (h' : Reaches cf agg Q m p' p'') :
    Reaches cf agg Q m p p'' := by
  obtain ⟨a, ha⟩ := h
  obtain ⟨b, hb⟩ := h'
  exact ⟨b + a, by rw [Function.iterate_add_apply, ha, hb]⟩

/-- From `p` the thread raises the exception of `x`, or gets to `f` of its value. -/
def Does {α : Type} (cf : List Char → List Char) (agg : List ℚ → S) (Q : Query) (m : WL) (p : RPc S)
    (x : Except PyErr α) (f : α → RPc S) : Prop :=
  match x with
  | .error e => Reaches cf agg Q m p (.done (.error e))
  | .ok v => Reaches cf agg Q m p (f v)

theorem Does.bind {α β : Type} {p : RPc S} {x : Except PyErr α} {f : α → RPc S} {y : α → Except PyErr β}
    {g : β → RPc S} (h : Does cf agg Q m p x f) (h' : ∀ v, x = .ok v → Does cf agg Q m (f v) (y v) g) :
    Does cf agg Q m p (x >>= y) g := by
  cases x with
  | error e => exact h
  | ok v =>
    have := h' v rfl
    change Does cf agg Q m p (y v) g
    revert this
    cases y v with
    | error e => exact fun this => Reaches.trans h this
    | ok u => exact fun this => Reaches.trans h this

theorem Does.step {α : Type} {p p' : RPc S} {x : Except PyErr α} {f : α → RPc S}
    (h : rstep cf agg Q m p = p') (h' : Does cf agg Q m p' x f) : Does cf agg Q m p x f := by
  cases x with
  | error e => exact Reaches.step h h'
  | ok v => exact Reaches.step h h'

theorem filter_alone {q : List Char} {k : ℕ} (gs : List (List Char)) (cand : List ℕ) :
    ∃ cand', (∀ i, i ∈ cand' ↔ i ∈ cand ∨ ∃ g ∈ gs, i ∈ filts m g) ∧
      Reaches cf agg Q m (.filterGet q k gs cand) (.countGet q k (countItems m.nList q) cand' []) := by
  induction gs generalizing cand with
  | nil => exact ⟨cand, by simp, Reaches.step rfl (Reaches.refl _)⟩
  | cons g gs ih =>
    by_cases hh : Dict.has m.ngramFilter g = true
    · obtain ⟨cand', h1, h2⟩ := ih (cand ++ filts m g)
      refine ⟨cand', fun i => ?_, ?_⟩
      · rw [h1, List.mem_append]
        simp [or_assoc]
      · refine Reaches.step (p' := .filterUpd q k g gs cand) ?_ (Reaches.step rfl h2)
        simp only [rstep]; rw [if_pos hh]
    · obtain ⟨cand', h1, h2⟩ := ih cand
      have hn := get_none_of_has hh
      refine ⟨cand', fun i => ?_, Reaches.step ?_ h2⟩
      · rw [h1]
        simp [filts, hn]
      · simp only [rstep]; rw [if_neg hh]

theorem count_list_alone {q : List Char} {k : ℕ} (it : CountItem) (todo : List CountItem) (cand : List ℕ)
    (es : List (ℕ × ℕ)) (pos : ℕ) (h : (cnts m it.g).drop pos = es) (ms : Dict ℕ (List ℚ)) :
    Does cf agg Q m (.countNext q k it pos todo cand ms)
      (es.foldlM (m.minStep q Q.normalize cand it.n it.k it.c) ms) (.countGet q k todo cand) := by
  induction es generalizing pos ms with
  | nil =>
    have hn : ((Dict.get? m.ngramCounts it.g).getD [])[pos]? = none :=
      List.getElem?_eq_none_iff.2 (List.drop_eq_nil_iff.1 h)
    refine Reaches.step (p' := .countGet q k todo cand ms) ?_ (Reaches.refl _)
    simp only [rstep, hn]
  | cons e es ih =>
    have he : ((Dict.get? m.ngramCounts it.g).getD [])[pos]? = some e := by
      have := congrArg (fun l => l[0]?) h
      simpa using this
    have ht : (cnts m it.g).drop (pos + 1) = es := by
      rw [← List.drop_drop, h]; rfl
    have hrec := fun ms => ih (pos + 1) ht ms
    rw [List.foldlM_cons]
    refine Does.bind (f := fun ms => .countNext q k it (pos + 1) todo cand ms) ?_
      (fun ms' _ => hrec ms')
    unfold WL.minStep
    by_cases hf : m.filterN ≠ 0 ∧ e.1 ∉ cand
    · rw [if_pos hf]
      refine Reaches.step ?_ (Reaches.refl _)
      simp only [rstep, he]; rw [if_pos hf]
    · rw [if_neg hf]
      by_cases hno : Q.normalize = true
      · rw [if_pos hno]
        refine Does.step (p' := .countNum q k it e pos todo cand ms) ?_ ?_
        · simp only [rstep, he]; rw [if_neg hf, if_pos hno]
        · cases h1 : pyGet m.wordNumGrams e.1 with
          | error x =>
            refine Reaches.step ?_ (Reaches.refl _)
            simp only [rstep, h1]
          | ok row =>
            cases h2 : pyGet row it.k with
            | error x =>
              simp only [bind, Except.bind, h2]
              refine Reaches.step ?_ (Reaches.refl _)
              simp only [rstep, h1, h2]
            | ok wn =>
              simp only [bind, Except.bind, h2]
              by_cases hz : numGrams q.length it.n + wn = 0
              · rw [if_pos hz]
                refine Reaches.step ?_ (Reaches.refl _)
                simp only [rstep, h1, h2]; rw [if_pos hz]
              · rw [if_neg hz]
                refine Reaches.step ?_ (Reaches.refl _)
                simp only [rstep, h1, h2]; rw [if_neg hz]
      · rw [if_neg hno]
        refine Reaches.step ?_ (Reaches.refl _)
        simp only [rstep, he]; rw [if_neg hf, if_neg hno]

theorem count_alone {q : List Char} {k : ℕ} (todo : List CountItem) (cand : List ℕ)
    (ms : Dict ℕ (List ℚ)) :
    Does cf agg Q m (.countGet q k todo cand ms)
      (todo.foldlM (fun ms it => (cnts m it.g).foldlM (m.minStep q Q.normalize cand it.n it.k it.c) ms) ms)
      (.countGet q k [] cand) := by
  induction todo generalizing ms with
  | nil => exact Reaches.refl _
  | cons it todo ih =>
    rw [List.foldlM_cons]
    refine Does.bind (f := .countGet q k todo cand) ?_ (fun ms' _ => ih ms')
    by_cases hh : Dict.has m.ngramCounts it.g = true
    · refine Does.step ?_ (count_list_alone it todo cand _ 0 rfl ms)
      simp only [rstep]; rw [if_pos hh]
    · have hn : cnts m it.g = [] := by
        unfold cnts; rw [get_none_of_has hh]; rfl
      rw [hn]
      refine Reaches.step ?_ (Reaches.refl _)
      simp only [rstep]; rw [if_neg hh]

theorem minScores_items {q : List Char} {cand : List ℕ}
    (hc : m.filterN ≠ 0 → ∀ i, i ∈ cand ↔ i ∈ m.filterCandidates q) (normalize : Bool) :
    m.minScores q normalize = (countItems m.nList q).foldlM (fun ms it =>
      (cnts m it.g).foldlM (m.minStep q normalize cand it.n it.k it.c) ms) [] := by
  have hstep : m.minStep q normalize (m.filterCandidates q) = m.minStep q normalize cand := by
    funext n k c ms e
    unfold WL.minStep
    by_cases hf : m.filterN ≠ 0
    · simp only [hc hf e.1]
    · simp only [hf, false_and]
  unfold WL.minScores countItems
  rw [hstep]
  generalize m.nList.zipIdx = l
  generalize ([] : Dict ℕ (List ℚ)) = ms
  induction l generalizing ms with
  | nil => rfl
  | cons nk l ih =>
    rw [List.foldlM_cons, List.flatMap_cons, List.foldlM_append, List.foldlM_map]
    congr 1
    funext ms
    exact ih ms

theorem pos_list_alone {q : List Char} {k : ℕ} (it : PosItem) (todo : List PosItem) (ns : List (ℤ × ℕ))
    (cand : List ℕ) (es : List (ℕ × List ℚ)) (pos : ℕ) (h : (poss m it.g).drop pos = es)
    (ms : Dict ℕ (List ℚ)) :
    Reaches cf agg Q m (.posNext q k it pos todo ns cand ms)
      (.posGet q k todo ns cand (es.foldl (m.matchStep cand it.k it.l) ms)) := by
  induction es generalizing pos ms with
  | nil =>
    have hn : ((Dict.get? m.ngramPositions it.g).getD [])[pos]? = none :=
      List.getElem?_eq_none_iff.2 (List.drop_eq_nil_iff.1 h)
    refine Reaches.step ?_ (Reaches.refl _)
    simp only [rstep, hn]; rfl
  | cons e es ih =>
    have he : ((Dict.get? m.ngramPositions it.g).getD [])[pos]? = some e := by
      have := congrArg (fun l => l[0]?) h
      simpa using this
    have ht : (poss m it.g).drop (pos + 1) = es := by
      rw [← List.drop_drop, h]; rfl
    refine Reaches.step ?_ (ih (pos + 1) ht _)
    simp only [rstep, he]

theorem pos_size_alone {q : List Char} {k : ℕ} (todo : List PosItem) (ns : List (ℤ × ℕ)) (cand : List ℕ)
    (ms : Dict ℕ (List ℚ)) :
    Reaches cf agg Q m (.posGet q k todo ns cand ms) (.posSize q k ns cand
      (todo.foldl (fun ms it => (poss m it.g).foldl (m.matchStep cand it.k it.l) ms) ms)) := by
  induction todo generalizing ms with
  | nil => exact Reaches.step rfl (Reaches.refl _)
  | cons it todo ih =>
    rw [List.foldl_cons]
    refine Reaches.trans ?_ (ih _)
    by_cases hh : Dict.has m.ngramPositions it.g = true
    · refine Reaches.step ?_ (pos_list_alone it todo ns cand _ 0 rfl ms)
      simp only [rstep]; rw [if_pos hh]
    · have hn : poss m it.g = [] := by
        unfold poss; rw [get_none_of_has hh]; rfl
      rw [hn]
      refine Reaches.step ?_ (Reaches.refl _)
      simp only [rstep]; rw [if_neg hh]; rfl

theorem pos_alone {q : List Char} {k : ℕ} (ns : List (ℤ × ℕ)) (cand : List ℕ) (ms : Dict ℕ (List ℚ)) :
    Does cf agg Q m (.posSize q k ns cand ms)
      (ns.foldlM (fun ms nk => do
        let locs ← queryLocations (getNGrams q nk.1)
        return locs.foldl (fun ms gl =>
          ((Dict.get? m.ngramPositions gl.1).getD []).foldl (m.matchStep cand nk.2 gl.2) ms) ms) ms)
      (fun ms => .lens q k ms []) := by
  induction ns generalizing ms with
  | nil => exact Reaches.step rfl (Reaches.refl _)
  | cons nk ns ih =>
    rw [List.foldlM_cons]
    refine Does.bind (f := fun ms => .posSize q k ns cand ms) ?_ (fun ms' _ => ih ms')
    cases hl : queryLocations (getNGrams q nk.1) with
    | error e =>
      refine Reaches.step ?_ (Reaches.refl _)
      simp only [rstep, hl]
    | ok locs =>
      refine Reaches.step (p' := .posGet q k (locs.map fun gl => ⟨nk.2, gl.1, gl.2⟩) ns cand ms) ?_ ?_
      · simp only [rstep, hl]
      · have := pos_size_alone (cf := cf) (agg := agg) (Q := Q) (m := m) (q := q) (k := k)
          (locs.map fun gl => ⟨nk.2, gl.1, gl.2⟩) ns cand ms
        rw [List.foldl_map] at this
        exact this

/-- A loop that appends to a list. -/
theorem mapM_alone {α β : Type} {h : α → Except PyErr β} {f : List α → List β → RPc S}
    (hstep : ∀ a todo acc, rstep cf agg Q m (f (a :: todo) acc) =
      match h a with
      | .error e => .done (.error e)
      | .ok b => f todo (acc ++ [b])) (todo : List α) (acc : List β) :
    Does cf agg Q m (f todo acc) (todo.mapM h) (fun bs => f [] (acc ++ bs)) := by
  induction todo generalizing acc with
  | nil =>
    rw [List.mapM_nil]
    change Reaches cf agg Q m (f [] acc) (f [] (acc ++ []))
    rw [List.append_nil]; exact Reaches.refl _
  | cons a todo ih =>
    rw [List.mapM_cons]
    refine Does.bind (f := fun b => f todo (acc ++ [b])) ?_ (fun b _ => ?_)
    · cases ha : h a with
      | error e =>
        refine Reaches.step ?_ (Reaches.refl _)
        rw [hstep, ha]
      | ok b =>
        refine Reaches.step ?_ (Reaches.refl _)
        rw [hstep, ha]
    · refine Does.bind (ih (acc ++ [b])) (fun bs _ => ?_)
      change Reaches cf agg Q m _ _
      rw [List.append_assoc]
      exact Reaches.refl _

theorem lookup_alone (hQ : ∀ l, (Q.grams l).Perm l) :
    Does cf agg Q m .enter (m.lookup agg cf Q.word Q.topK Q.normalize) (fun res => .done (.ok res)) := by
  unfold WL.lookup
  cases hc : m.checkLookup cf Q.word Q.topK with
  | error e =>
    refine Reaches.step ?_ (Reaches.refl _)
    simp only [rstep, hc]
  | ok r =>
    obtain ⟨q, k⟩ := r
    have hk := (checkLookup_pos hc).1
    have hstart : ∃ cand, (m.filterN ≠ 0 → ∀ i, i ∈ cand ↔ i ∈ m.filterCandidates q) ∧
        Reaches cf agg Q m .enter (.countGet q k (countItems m.nList q) cand []) := by
      by_cases hf : m.filterN ≠ 0
      · obtain ⟨cand, h1, h2⟩ := filter_alone (cf := cf) (agg := agg) (Q := Q) (m := m) (q := q) (k := k)
          (Q.grams (getNGrams q m.filterN).dedup) []
        refine ⟨cand, fun _ i => ?_, Reaches.step ?_ h2⟩
        · rw [h1]
          unfold WL.filterCandidates
          rw [if_pos hf, List.mem_flatMap]
          simp only [List.not_mem_nil, false_or]
          constructor
          · rintro ⟨g, hg, hi⟩; exact ⟨g, (hQ _).mem_iff.1 hg, hi⟩
          · rintro ⟨g, hg, hi⟩; exact ⟨g, (hQ _).mem_iff.2 hg, hi⟩
        · simp only [rstep, hc]; rw [if_pos hf]
      · refine ⟨[], fun h => absurd h hf, Reaches.step ?_ (Reaches.refl _)⟩
        simp only [rstep, hc]; rw [if_neg hf]
    obtain ⟨cand, hcand, hreach⟩ := hstart
    have hms : Does cf agg Q m .enter (m.minScores q Q.normalize) (.countGet q k [] cand) := by
      rw [minScores_items hcand]
      have := count_alone (cf := cf) (agg := agg) (Q := Q) (m := m) (q := q) (k := k)
        (countItems m.nList q) cand []
      revert this
      cases (countItems m.nList q).foldlM (fun ms it =>
          (cnts m it.g).foldlM (m.minStep q Q.normalize cand it.n it.k it.c) ms) [] with
      | error e => exact fun h => Reaches.trans hreach h
      | ok ms => exact fun h => Reaches.trans hreach h
    have ok_bind : ∀ {α β : Type} (x : α) (f : α → Except PyErr β), (Except.ok x >>= f) = f x :=
      fun _ _ => rfl
    simp only [ok_bind, WL.lookupSimilarity, if_neg (not_not.2 (show k ≥ 1 from hk)), bind_assoc]
    refine Does.bind (f := .countGet q k [] cand) hms (fun ms _ => ?_)
    by_cases hl : ms.length = 0
    · simp only [if_pos hl, pure_bind]
      have hnil : ∀ {T : Type} [LinearOrder T] (n : ℕ), mostCommon ([] : List (ℕ × T)) n = [] := by
        intro T _ n; simp [mostCommon, sortDesc]
      rw [hnil, List.mapM_nil, pure_bind, hnil, List.mapM_nil]
      change Reaches cf agg Q m (.countGet q k [] cand ms) (.done (.ok []))
      refine Reaches.step (p' := .done (.ok [])) ?_ (Reaches.refl _)
      simp only [rstep, afterCounts]; rw [if_pos hl]
    · simp only [if_neg hl, bind_assoc]
      cases hm : minAcceptable (ms.map fun p => agg p.2) k with
      | error e =>
        refine Reaches.step ?_ (Reaches.refl _)
        simp only [rstep, afterCounts, hm]; rw [if_neg hl]
      | ok t =>
        refine Does.step (p' := .posSize q k m.nList.zipIdx (survivors agg ms t) []) ?_ ?_
        · simp only [rstep, afterCounts, hm]; rw [if_neg hl]
        rw [ok_bind]
        refine Does.bind (pos_alone (cf := cf) (agg := agg) (Q := Q) m.nList.zipIdx (survivors agg ms t) [])
          (fun ms' _ => ?_)
        refine Does.bind (mapM_alone (f := fun todo acc => .lens q k todo acc)
          (h := m.normalizeRow q Q.normalize) (fun p todo acc => ?_) ms' []) (fun normed _ => ?_)
        · simp only [rstep]
          cases m.normalizeRow q Q.normalize p <;> rfl
        refine Does.step (p' := .words q k (mostCommon (normed.map fun p => (p.1, agg p.2)) (k * 2)) []) rfl ?_
        simp only [pure_bind]
        refine Does.bind (mapM_alone (f := fun todo acc => .words q k todo acc)
          (h := m.rescore q Q.normalize) (fun p todo acc => ?_) _ []) (fun items _ => ?_)
        · simp only [rstep]
          cases m.rescore q Q.normalize p <;> rfl
        refine Does.step (p' := .pick (mostCommon items k) []) rfl ?_
        have := mapM_alone (cf := cf) (agg := agg) (Q := Q) (m := m) (f := fun todo acc => .pick todo acc)
          (h := fun p : ℕ × (S ×ₗ ℚ) => do return (← pyGet m.wordList p.1, p.2)) (fun p todo acc => by
            simp only [rstep]
            cases pyGet m.wordList p.1 <;> rfl) (mostCommon items k) []
        revert this
        cases (mostCommon items k).mapM
          (fun p : ℕ × (S ×ₗ ℚ) => do return (← pyGet m.wordList p.1, p.2)) with
        | error e => exact fun h => h
        | ok res => exact fun h => Reaches.trans h (Reaches.step rfl (Reaches.refl _))

/-- C196. A lookup that no other thread disturbs ends, and returns or raises what the lookup of the
sequential model does, whatever state the list is in (even while other calls are half done). -/
theorem C196_lookup_undisturbed (hQ : ∀ l, (Q.grams l).Perm l) (C : ℕ → Call) (s : Sys) :
    ∃ n, ∀ n' ≥ n, RSys.run cf agg C Q ⟨s, .enter⟩ (List.replicate n' none) =
      ⟨s, .done (s.mem.lookup agg cf Q.word Q.topK Q.normalize)⟩ := by
  have h := lookup_alone (cf := cf) (agg := agg) (m := s.mem) hQ
  have hr : Reaches cf agg Q s.mem .enter (.done (s.mem.lookup agg cf Q.word Q.topK Q.normalize)) := by
    revert h
    cases s.mem.lookup agg cf Q.word Q.topK Q.normalize <;> exact fun h => h
  obtain ⟨n, hn⟩ := hr
  refine ⟨n, fun n' hn' => ?_⟩
  have hrun : ∀ (a : ℕ) (p : RPc S), RSys.run cf agg C Q ⟨s, p⟩ (List.replicate a none) =
      ⟨s, (rstep cf agg Q s.mem)^[a] p⟩ := by
    intro a
    induction a with
    | zero => intro p; rfl
    | succ a ih => intro p; exact ih _
  have hdone : ∀ (a : ℕ) (r : Except PyErr (List (List Char × (S ×ₗ ℚ)))),
      (rstep cf agg Q s.mem)^[a] (.done r) = .done r := by
    intro a r
    induction a with
    | zero => rfl
    | succ a ih => exact ih
  obtain ⟨d, rfl⟩ := Nat.exists_eq_add_of_le hn'
  rw [hrun, Nat.add_comm, Function.iterate_add_apply, hn, hdone]

/-- The list between two calls is not disturbed for 200 steps. -/
example : ((RSys.run id mean1 (fun _ => ⟨.int 0, id, id⟩) ⟨.str "bananas".toList, .int 2, true, id⟩
    ⟨Sys.start demo, .enter⟩ (List.replicate 200 none)).pc.outcome.map plain) =
    some (.ok [("banana", 1383 / 1820, 163 / 210), ("bandana", 43 / 84, 17 / 28)]) := by decide +kernel

end ListConc
end Verif
