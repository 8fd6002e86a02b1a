import Verif.Fp.IndexState
import Verif.Fp.IndexSpec
import Verif.Index.Lookup

/-!
# The two passes of the lookup in rounded arithmetic
-/

namespace Verif
namespace Fp

open GramSpec IndexSpec

variable {R : FOps} {cf : List Char → List Char}

/-! ## Applying updates -/

/-- An update applies a function to component `k` of the row of word `oi`. -/
abbrev Update := ℕ × ℕ × (ℚ → ℚ)

/-- Apply a list of updates. -/
def accumU (N : ℕ) (ms : Dict ℕ (List ℚ)) (ev : List Update) : Dict ℕ (List ℚ) :=
  ev.foldl (fun ms e => bumpWith N ms e.1 e.2.1 e.2.2) ms

/-- Apply the functions one after the other. -/
def applyAll (ev : List Update) (s : ℚ) : ℚ := ev.foldl (fun s e => e.2.2 s) s

/-- The updates of one cell. -/
def cellOf (oi k : ℕ) (e : Update) : Bool := e.1 = oi ∧ e.2.1 = k

/-- Row of word `oi` after all updates. -/
def rowU (N : ℕ) (ev : List Update) (oi : ℕ) : List ℚ :=
  (List.range N).map (fun k => applyAll (ev.filter (cellOf oi k)) 0)

theorem rowU_of_notMem {N : ℕ} {ev : List Update} {oi : ℕ} (h : oi ∉ ev.map Prod.fst) :
    rowU N ev oi = List.replicate N 0 := by
  unfold rowU
  have : ∀ k, ev.filter (cellOf oi k) = [] := by
    intro k
    rw [List.filter_eq_nil_iff]
    intro e he
    simp only [cellOf, decide_eq_true_eq]
    rintro ⟨h1, _⟩
    exact h (List.mem_map.2 ⟨e, he, h1⟩)
  simp [this, applyAll]

theorem accumU_append_singleton (N : ℕ) (ms : Dict ℕ (List ℚ)) (ev : List Update) (e : Update) :
    accumU N ms (ev ++ [e]) = bumpWith N (accumU N ms ev) e.1 e.2.1 e.2.2 := by
  simp [accumU]

theorem get?_accumU (N : ℕ) (ev : List Update) (oi : ℕ) :
    Dict.get? (accumU N [] ev) oi =
      if oi ∈ ev.map Prod.fst then some (rowU N ev oi) else none := by
  induction ev using List.reverseRecOn with
  | nil => simp [accumU]
  | append_singleton ev e ih =>
    obtain ⟨o, k, f⟩ := e
    rw [accumU_append_singleton, bumpWith, Dict.get?_set]
    by_cases h : o = oi
    · subst h
      have hv : (Dict.get? (accumU N [] ev) o).getD (List.replicate N 0) = rowU N ev o := by
        rw [ih]
        by_cases h2 : o ∈ ev.map Prod.fst
        · simp only [if_pos h2, Option.getD_some]
        · simp only [if_neg h2, Option.getD_none, rowU_of_notMem h2]
      simp only [if_true, hv]
      rw [if_pos (by simp)]
      congr 1
      apply List.ext_getElem
      · simp [rowU]
      · intro i h1 h2
        have hi : i < N := by simpa [rowU] using h2
        simp only [rowU, List.getElem_set, List.getElem_map, List.getElem_range, List.filter_append]
        by_cases hk : k = i
        · subst hk
          simp [hi, cellOf, applyAll]
        · simp [hk, cellOf]
    · rw [if_neg h, ih]
      have e1 : rowU N (ev ++ [(o, k, f)]) oi = rowU N ev oi := by
        simp [rowU, cellOf, h]
      rw [e1]
      have e2 : oi ∈ (ev ++ [(o, k, f)]).map Prod.fst ↔ oi ∈ ev.map Prod.fst := by
        rw [List.map_append, List.mem_append]
        simp [Ne.symm h]
      by_cases h2 : oi ∈ ev.map Prod.fst
      · rw [if_pos h2, if_pos (e2.2 h2)]
      · rw [if_neg h2, if_neg (fun h' => h2 (e2.1 h'))]

theorem nodup_keys_accumU (N : ℕ) (ev : List Update) : (Dict.keys (accumU N [] ev)).Nodup := by
  induction ev using List.reverseRecOn with
  | nil => simp [accumU]
  | append_singleton ev e ih =>
    rw [accumU_append_singleton]; exact Dict.nodup_keys_set ih _ _

/-! ## Lists -/

theorem flatMap_zipIdx_single {α β : Type} (l : List α) (F : α → List β) (k : ℕ)
    (hk : k < l.length) :
    l.zipIdx.flatMap (fun p => if p.2 = k then F p.1 else []) = F l[k] := by
  induction l using List.reverseRecOn with
  | nil => simp at hk
  | append_singleton l a ih =>
    rw [List.zipIdx_append, List.flatMap_append]
    simp only [List.zipIdx_cons, List.zipIdx_nil, List.flatMap_cons, List.flatMap_nil,
      List.append_nil, zero_add]
    by_cases h : k < l.length
    · rw [ih h, if_neg (by omega), List.append_nil, List.getElem_append_left h]
    · have hk' : k = l.length := by simp at hk; omega
      subst hk'
      have h0 : l.zipIdx.flatMap (fun p => if p.2 = l.length then F p.1 else []) = [] := by
        rw [List.flatMap_eq_nil_iff]
        rintro ⟨a', i⟩ hi
        have := List.mem_zipIdx hi
        rw [if_neg]
        simp only; omega
      rw [h0]; simp

/-- The part of a concatenation over the entries of `g` that belongs to word `oi`. -/
theorem flatMap_posEntries {β : Type} {ns : List ℤ} {ws : List (List Char)} {g w : List Char}
    {oi : ℕ} (hw : ws[oi]? = some w) (F : ℕ × List ℚ → List β) (hF : ∀ e, e.1 ≠ oi → F e = []) :
    (posEntries ns ws g).flatMap F =
      match posEntry ns g w oi with
      | some e => F e
      | none => [] := by
  have hidx : ∀ (v : List Char) (i : ℕ) e, posEntry ns g v i = some e → e.1 = i := by
    intro v i e he
    unfold posEntry at he
    split at he
    · injection he with he; rw [← he]
    · cases he
  induction ws using List.reverseRecOn with
  | nil => simp at hw
  | append_singleton ws v ih =>
    rw [posEntries_append, List.flatMap_append]
    by_cases h : oi < ws.length
    · rw [List.getElem?_append_left h] at hw
      rw [ih hw]
      have h0 : (posEntry ns g v ws.length).toList.flatMap F = [] := by
        cases hp : posEntry ns g v ws.length with
        | none => rfl
        | some e =>
          have := hidx _ _ _ hp
          simp only [Option.toList_some, List.flatMap_cons, List.flatMap_nil, List.append_nil]
          exact hF e (by omega)
      rw [h0, List.append_nil]
    · have hoi : oi = ws.length := by
        have := (List.getElem?_eq_some_iff.1 hw).1
        simp at this; omega
      subst hoi
      have hv : v = w := by simpa using hw
      subst hv
      have h0 : (posEntries ns ws g).flatMap F = [] := by
        rw [List.flatMap_eq_nil_iff]
        intro e he
        unfold posEntries at he
        obtain ⟨⟨u, i⟩, hi, he⟩ := List.mem_filterMap.1 he
        have h1 := List.mem_zipIdx hi
        have h2 := hidx _ _ _ he
        apply hF; simp only at h2; omega
      rw [h0, List.nil_append]
      cases posEntry ns g v ws.length <;> simp

/-- The same for any arrangement of the entries. -/
theorem flatMap_perm_posEntries {α β : Type} {ns : List ℤ} {ws : List (List Char)} {g w : List Char}
    {oi : ℕ} {f : ℕ × List ℚ → ℕ × α} (hf : ∀ e, (f e).1 = e.1) {l : List (ℕ × α)}
    (hl : l.Perm ((posEntries ns ws g).map f)) (hw : ws[oi]? = some w) (F : ℕ × α → List β)
    (hF : ∀ e, e.1 ≠ oi → F e = []) :
    l.flatMap F =
      match posEntry ns g w oi with
      | some e => F (f e)
      | none => [] := by
  have h0 : ∀ m : List (ℕ × α), m.flatMap F = (m.filter (fun e => e.1 = oi)).flatMap F := by
    intro m
    induction m with
    | nil => rfl
    | cons e m ih =>
      by_cases he : e.1 = oi
      · simp [he, ih]
      · simp [he, ih, hF e he]
  have h1 : (l.filter (fun e => e.1 = oi)).Perm ((posEntry ns g w oi).map f).toList := by
    refine (hl.filter _).trans (.of_eq ?_)
    have := flatMap_posEntries (ns := ns) (g := g) hw (fun e => if e.1 = oi then [f e] else [])
      (fun e he => if_neg he)
    have h2 : ∀ m : List (ℕ × List ℚ), (m.map f).filter (fun e => e.1 = oi) =
        m.flatMap (fun e => if e.1 = oi then [f e] else []) := by
      intro m
      induction m with
      | nil => rfl
      | cons e m ih =>
        by_cases he : e.1 = oi
        · simp [he, ih, hf]
        · simp [he, ih, hf]
    rw [h2, this]
    cases hp : posEntry ns g w oi with
    | none => rfl
    | some e =>
      have : e.1 = oi := by
        unfold posEntry at hp
        split at hp
        · injection hp with hp; rw [← hp]
        · cases hp
      simp [this]
  rw [h0]
  cases hp : posEntry ns g w oi with
  | none => rw [hp] at h1; rw [List.perm_nil.1 h1]; rfl
  | some e => rw [hp] at h1; rw [List.perm_singleton.1 h1]; simp

theorem keys_set_firsts {κ ν : Type} [DecidableEq κ] (d : Dict κ ν) (k : κ) (v : ν) :
    Dict.keys (Dict.set d k v) = if k ∈ Dict.keys d then Dict.keys d else Dict.keys d ++ [k] := by
  induction d with
  | nil => simp [Dict.set, Dict.keys]
  | cons p d ih =>
    obtain ⟨k', v'⟩ := p
    simp only [Dict.set]
    by_cases h : k' = k
    · subst h; simp
    · rw [if_neg h]
      simp only [Dict.keys_cons, ih, List.mem_cons, Ne.symm h, false_or]
      split <;> simp

theorem keys_counter_firsts {κ : Type} [DecidableEq κ] (xs : List κ) :
    Dict.keys (counter xs) = firsts xs := by
  unfold counter firsts
  have key : ∀ (d : Dict κ ℕ), Dict.keys (xs.foldl
      (fun d x => Dict.set d x ((Dict.get? d x).getD 0 + 1)) d) =
      xs.foldl (fun acc x => if x ∈ acc then acc else acc ++ [x]) (Dict.keys d) := by
    induction xs with
    | nil => intro d; rfl
    | cons x xs ih =>
      intro d
      rw [List.foldl_cons, List.foldl_cons, ih, keys_set_firsts]
  exact key []

theorem keys_foldl_appendTo {κ ν : Type} [DecidableEq κ] (L : List (κ × ν)) (d : Dict κ (List ν)) :
    Dict.keys (L.foldl (fun d p => Dict.appendTo d p.1 p.2) d) =
      (L.map Prod.fst).foldl (fun acc x => if x ∈ acc then acc else acc ++ [x]) (Dict.keys d) := by
  induction L generalizing d with
  | nil => rfl
  | cons x xs ih =>
    rw [List.foldl_cons, ih, Dict.appendTo, keys_set_firsts, List.map_cons, List.foldl_cons]

theorem keys_group_firsts {κ ν : Type} [DecidableEq κ] (L : List (κ × ν)) :
    Dict.keys (Dict.group L) = firsts (L.map Prod.fst) :=
  keys_foldl_appendTo L []

theorem mem_firsts {α : Type} [DecidableEq α] {l : List α} {x : α} : x ∈ firsts l ↔ x ∈ l := by
  rw [← keys_counter_firsts, mem_keys_counter]

theorem nodup_firsts {α : Type} [DecidableEq α] (l : List α) : (firsts l).Nodup := by
  rw [← keys_counter_firsts]; exact nodup_keys_counter _

/-! ## First pass -/

/-- What one shared n-gram does to the lower bound. -/
def minUpd (R : FOps) (normalize : Bool) (d : ℚ) (m : ℕ) (s : ℚ) : ℚ :=
  if normalize then R.fl (s + R.fl ((m : ℚ) / d)) else s + m

/-- Updates of the first pass. -/
def minUpdates (R : FOps) (st : WL) (q : List Char) (normalize : Bool) : List Update :=
  st.nList.zipIdx.flatMap (fun nk =>
    (counter (getNGrams q nk.1)).flatMap (fun gc =>
      ((Dict.get? st.ngramCounts gc.1).getD []).flatMap (fun e =>
        if st.skipped q e.1 then []
        else [(e.1, nk.2, minUpd R normalize (st.den q normalize nk.1 e.1) (min gc.2 e.2))])))

variable {st : WL}

theorem minScoresF_eq (hi : WLInv cf st) (q : List Char) (normalize : Bool) :
    minScoresF R st q normalize = .ok (accumU st.nList.length [] (minUpdates R st q normalize)) := by
  unfold minScoresF minUpdates accumU
  apply foldlM_flatMap_ok
  rintro ⟨n, k⟩ hnk ms
  have hk : st.nList[k]? = some n := List.mem_zipIdx_iff_getElem?.1 hnk
  have hn : 0 < n := hi.posN n (List.mem_of_getElem? hk)
  apply foldlM_flatMap_ok
  rintro ⟨g, c⟩ hgc ms
  obtain ⟨hg1, hg2, hg3⟩ := gram_len hn hgc
  apply foldlM_flatMap_ok
  rintro e he ms
  obtain ⟨w, hw, _, hgw, he2⟩ := mem_counts hi he
  simp only at hgw
  unfold minStepF
  by_cases hs : st.skipped q e.1
  · simp only [if_pos hs]
    rw [if_pos (show st.filterN ≠ 0 ∧ e.1 ∉ st.filterCandidates q from hs)]; rfl
  · simp only [if_neg hs]
    rw [if_neg (show ¬ (st.filterN ≠ 0 ∧ e.1 ∉ st.filterCandidates q) from hs)]
    cases normalize with
    | false => rfl
    | true =>
      have h1 : st.wordNumGrams[e.1]? = some (st.nList.map (numGrams w.length)) := by
        rw [hi.nums, List.getElem?_map, hw]; rfl
      have h2 : (st.nList.map (numGrams w.length))[k]? = some (numGrams w.length n) := by
        rw [List.getElem?_map, hk]; rfl
      have hsh : Shares n q w := by
        refine ⟨g, ?_, ?_⟩
        · rw [← getNGrams_eq_gramsOf]; exact hg2
        · rw [← getNGrams_eq_gramsOf, ← hg1]; exact hgw
      have hd := denom_pos_of_shares hsh
      rw [denom_eq] at hd
      have hden := den_eq hi hw q true n
      rw [denom_eq] at hden
      simp only [if_true] at hden
      simp only [if_true, pyGet_ok' h1, pyGet_ok' h2, bind, Except.bind, hd.ne', if_false,
        List.foldl_cons, List.foldl_nil, hden]
      rfl

/-- The first pass touches the same words as with exact arithmetic. -/
theorem map_fst_minUpdates (q : List Char) (normalize : Bool) :
    (minUpdates R st q normalize).map Prod.fst = (st.minEvents q normalize).map Prod.fst := by
  unfold minUpdates WL.minEvents
  simp only [List.map_flatMap]
  congr 1; funext nk
  congr 1; funext gc
  congr 1; funext e
  split <;> rfl

theorem applyAll_map {α : Type} (l : List α) (oi k : ℕ) (F : α → ℚ → ℚ) (s : ℚ) :
    applyAll (l.map fun a => (oi, k, F a)) s = l.foldl (fun s a => F a s) s := by
  unfold applyAll
  rw [List.foldl_map]

/-- The accumulated lower bounds of an eligible word. -/
theorem rowU_minUpdates (hi : WLInv cf st) (q : List Char) (normalize : Bool) {oi : ℕ}
    {w : List Char} (hw : st.wordList[oi]? = some w)
    (hf : st.filterN ≠ 0 → Shares st.filterN q w) :
    rowU st.nList.length (minUpdates R st q normalize) oi =
      lowerVecF R st.nList normalize q w := by
  have hns : ¬ st.skipped q oi := by rw [skipped_iff hi hw, not_not]; exact hf
  apply List.ext_getElem
  · simp [rowU, lowerVecF]
  intro k h1 h2
  have hk : k < st.nList.length := by simpa [rowU] using h1
  simp only [rowU, List.getElem_map, List.getElem_range, lowerVecF, minUpdates]
  rw [List.filter_flatMap]
  have key : ∀ nk ∈ st.nList.zipIdx,
      ((counter (getNGrams q nk.1)).flatMap (fun gc =>
        ((Dict.get? st.ngramCounts gc.1).getD []).flatMap (fun e =>
          if st.skipped q e.1 then []
          else [((e.1, nk.2, minUpd R normalize (st.den q normalize nk.1 e.1) (min gc.2 e.2)) :
            Update)]))).filter (cellOf oi k) =
      if nk.2 = k then (sharedGrams nk.1 q w).map (fun g => ((oi, k, minUpd R normalize
        (st.den q normalize nk.1 oi)
        (min ((gramsOf nk.1 q).count g) ((gramsOf nk.1 w).count g))) : Update)) else [] := by
    rintro ⟨n, k'⟩ hnk
    have hk' : st.nList[k']? = some n := List.mem_zipIdx_iff_getElem?.1 hnk
    have hnm : n ∈ st.nList := List.mem_of_getElem? hk'
    have hn : 0 < n := hi.posN n hnm
    simp only
    rw [List.filter_flatMap]
    have inner : ∀ gc ∈ counter (getNGrams q n),
        (((Dict.get? st.ngramCounts gc.1).getD []).flatMap (fun e =>
          if st.skipped q e.1 then []
          else [((e.1, k', minUpd R normalize (st.den q normalize n e.1) (min gc.2 e.2)) :
            Update)])).filter (cellOf oi k) =
        if k' = k then
          (if gc.1 ∈ gramsOf n w then [((oi, k, minUpd R normalize (st.den q normalize n oi)
            (min ((gramsOf n q).count gc.1) ((gramsOf n w).count gc.1))) : Update)] else []) else [] := by
      rintro ⟨g, c⟩ hgc
      obtain ⟨hg1, hg2, hg3⟩ := gram_len hn hgc
      simp only
      rw [List.filter_flatMap, flatMap_perm_posEntries
        (f := fun p => (p.1, p.2.length)) (fun _ => rfl) (hi.counts g) hw]
      · unfold posEntry
        rw [hg1, getNGrams_eq_gramsOf w n, hg3, getNGrams_eq_gramsOf q n]
        by_cases hgw : g ∈ gramsOf n w
        · rw [if_pos ⟨hnm, hgw⟩, if_pos hgw]
          by_cases hkk : k' = k
          · simp [hns, length_locs_locatedOf, cellOf, hkk]
          · simp [hns, cellOf, hkk]
        · rw [if_neg (fun h => hgw h.2), if_neg hgw]
          simp
      · intro e he
        split
        · rfl
        · simp [cellOf, he]
    rw [List.flatMap_congr inner, counter_eq_map, List.flatMap_map]
    by_cases hkk : k' = k
    · simp only [hkk, if_true]
      rw [keys_counter_firsts, getNGrams_eq_gramsOf]
      unfold sharedGrams
      generalize firsts (gramsOf n q) = l
      induction l with
      | nil => rfl
      | cons g l ih =>
        rw [List.flatMap_cons, ih, List.filter_cons]
        by_cases hg : g ∈ gramsOf n w <;> simp [hg]
    · simp [hkk]
  rw [List.flatMap_congr key]
  rw [flatMap_zipIdx_single st.nList (fun n => (sharedGrams n q w).map (fun g => ((oi, k,
    minUpd R normalize (st.den q normalize n oi)
      (min ((gramsOf n q).count g) ((gramsOf n w).count g))) : Update))) k hk]
  rw [applyAll_map, den_eq hi hw]
  unfold lowerNF
  cases normalize with
  | true => rfl
  | false =>
    have hs : ∀ (l : List (List Char)) (f : List Char → ℕ) (s : ℚ),
        l.foldl (fun s g => minUpd R false 1 (f g) s) s = s + (l.map fun g => ((f g : ℕ) : ℚ)).sum := by
      intro l f
      induction l with
      | nil => intro s; simp
      | cons g l ih =>
        intro s
        rw [List.foldl_cons, ih, List.map_cons, List.sum_cons]
        simp only [minUpd, Bool.false_eq_true, if_false]
        ring
    simp only [Bool.false_eq_true, if_false]
    rw [hs, zero_add]
    unfold commonN
    apply sum_keys_eq ((nodup_firsts _).filter _)
    intro g
    simp only [List.mem_filter, mem_firsts, decide_eq_true_eq, Finset.mem_inter, List.mem_toFinset]

/-- First pass: every eligible word, and no other, with its computed lower bounds. -/
theorem minScoresF_perm (hi : WLInv cf st) (q : List Char) (normalize : Bool) :
    ∃ ms, minScoresF R st q normalize = .ok ms ∧
      ms.Perm ((st.eligible q).map (fun p => (p.2, lowerVecF R st.nList normalize q p.1))) := by
  refine ⟨_, minScoresF_eq hi q normalize, (List.perm_ext_iff_of_nodup
    (List.Nodup.of_map _ (nodup_keys_accumU _ _)) ?_).2 ?_⟩
  · apply List.Nodup.of_map Prod.fst
    rw [List.map_map]
    exact nodup_eligible_snd q
  · rintro ⟨oi, v⟩
    rw [Dict.mem_iff_get? (nodup_keys_accumU _ _), get?_accumU, map_fst_minUpdates, List.mem_map (b := (oi, v))]
    constructor
    · intro h
      split at h
      · rename_i hm
        obtain ⟨w, hw, he⟩ := (mem_minEvents hi q normalize oi).1 hm
        injection h with h
        rw [rowU_minUpdates hi q normalize hw he.1] at h
        exact ⟨(w, oi), mem_eligible.2 ⟨hw, he⟩, by rw [h]⟩
      · cases h
    · rintro ⟨⟨w, i⟩, hm, he⟩
      injection he with h4 h5
      subst h4
      obtain ⟨hw, he⟩ := mem_eligible.1 hm
      rw [if_pos ((mem_minEvents hi q normalize i).2 ⟨w, hw, he⟩),
        rowU_minUpdates hi q normalize hw he.1, h5]

/-! ## Second pass -/

/-- Updates of the second pass. -/
def matchUpdates (R : FOps) (st : WL) (q : List Char) (possible : List ℕ) : List Update :=
  st.nList.zipIdx.flatMap (fun nk =>
    (Dict.group (locatedOfF R (getNGrams q nk.1))).flatMap (fun gl =>
      ((Dict.get? st.ngramPositions gl.1).getD []).flatMap (fun e =>
        if e.1 ∉ possible then []
        else [(e.1, nk.2, fun s => R.fl (s + ((gl.2.length : ℚ) + e.2.length))),
          (e.1, nk.2, fun s => R.fl (s - emdF R gl.2 e.2))])))

theorem matchScoresF_ok (q : List Char) (possible : List ℕ)
    (h : ∀ n ∈ st.nList, (getNGrams q n).length ≠ 1) :
    matchScoresF R st q possible =
      .ok (accumU st.nList.length [] (matchUpdates R st q possible)) := by
  unfold matchScoresF matchUpdates accumU
  apply foldlM_flatMap_ok
  rintro ⟨n, k⟩ hnk ms
  have hk : st.nList[k]? = some n := List.mem_zipIdx_iff_getElem?.1 hnk
  have hn := h n (List.mem_of_getElem? hk)
  simp only [queryLocationsF_eq, if_neg hn, bind, Except.bind, pure, Except.pure]
  congr 1
  apply foldl_flatMap_eq
  rintro ⟨g, l⟩ _ ms
  apply foldl_flatMap_eq
  rintro e _ ms
  unfold matchStepF
  by_cases hp : e.1 ∉ possible
  · simp only [if_pos hp]; rfl
  · simp only [if_neg hp]; rfl

theorem matchScoresF_error (q : List Char) (possible : List ℕ)
    (h : ∃ n ∈ st.nList, (getNGrams q n).length = 1) :
    matchScoresF R st q possible = .error .zeroDivisionError := by
  obtain ⟨n, hn, h1⟩ := h
  obtain ⟨k, hk, rfl⟩ := List.getElem_of_mem hn
  unfold matchScoresF
  apply foldlM_error
  · refine ⟨(st.nList[k], k), List.mem_zipIdx_iff_getElem?.2 (by simp [hk]), ?_⟩
    intro b
    simp only [queryLocationsF_eq, if_pos h1, bind, Except.bind]
  · rintro ⟨m, j⟩ _ b
    simp only [queryLocationsF_eq]
    by_cases hm : (getNGrams q m).length = 1
    · left; simp only [if_pos hm, bind, Except.bind]
    · right; simp only [if_neg hm, bind, Except.bind, pure, Except.pure]; exact ⟨_, rfl⟩

/-- The second pass touches the same words as with exact arithmetic. -/
theorem map_fst_matchUpdates {stF : WL} (h : Rounded R st stF) (q : List Char) (possible : List ℕ) :
    (matchUpdates R stF q possible).map Prod.fst = (st.matchEvents q possible).map Prod.fst := by
  obtain ⟨Q, rfl, hQ⟩ := h
  have hQ' : ∀ g, (Dict.get? Q g).getD [] =
    ((Dict.get? st.ngramPositions g).getD []).map (flEntry R) := hQ
  unfold matchUpdates WL.matchEvents
  simp only [List.map_flatMap, group_locatedOfF, List.flatMap_map, hQ']
  congr 1; funext nk
  congr 1; funext gc
  congr 1; funext e
  simp only [flEntry]
  by_cases hp : e.1 ∈ possible <;> simp [hp]

/-- The accumulated scores of a possible word. -/
theorem rowU_matchUpdates (hi : WLInv cf st) {stF : WL} (hR : Rounded R st stF) (q : List Char)
    {possible : List ℕ} {oi : ℕ} {w : List Char} (hw : st.wordList[oi]? = some w)
    (hpos : oi ∈ possible) :
    rowU stF.nList.length (matchUpdates R stF q possible) oi =
      st.nList.map (fun n => simNF R n q w) := by
  obtain ⟨Q, rfl, hQ⟩ := hR
  apply List.ext_getElem
  · simp [rowU]
  intro k h1 h2
  have hk : k < st.nList.length := by simpa [rowU] using h1
  simp only [rowU, List.getElem_map, List.getElem_range, matchUpdates]
  rw [List.filter_flatMap]
  have key : ∀ nk ∈ st.nList.zipIdx,
      ((Dict.group (locatedOfF R (getNGrams q nk.1))).flatMap (fun gl =>
      ((Dict.get? Q gl.1).getD []).flatMap (fun e =>
        if e.1 ∉ possible then []
        else [((e.1, nk.2, fun s => R.fl (s + ((gl.2.length : ℚ) + e.2.length))) : Update),
          (e.1, nk.2, fun s => R.fl (s - emdF R gl.2 e.2))]))).filter (cellOf oi k) =
      if nk.2 = k then (sharedGrams nk.1 q w).flatMap (fun g =>
        [((oi, k, fun s => R.fl (s + (((gramsOf nk.1 q).count g : ℚ) + (gramsOf nk.1 w).count g))) :
            Update),
         (oi, k, fun s => R.fl (s - emdF R ((posOf (gramsOf nk.1 q) g).map R.fl)
          ((posOf (gramsOf nk.1 w) g).map R.fl)))]) else [] := by
    rintro ⟨n, k'⟩ hnk
    have hk' : st.nList[k']? = some n := List.mem_zipIdx_iff_getElem?.1 hnk
    have hnm : n ∈ st.nList := List.mem_of_getElem? hk'
    have hn : 0 < n := hi.posN n hnm
    simp only
    rw [List.filter_flatMap]
    have inner : ∀ gl ∈ Dict.group (locatedOfF R (getNGrams q n)),
        (((Dict.get? Q gl.1).getD []).flatMap (fun e =>
          if e.1 ∉ possible then []
          else [((e.1, k', fun s => R.fl (s + ((gl.2.length : ℚ) + e.2.length))) : Update),
            (e.1, k', fun s => R.fl (s - emdF R gl.2 e.2))])).filter (cellOf oi k) =
        if k' = k then (if gl.1 ∈ gramsOf n w then
          [((oi, k, fun s => R.fl (s + (((gramsOf n q).count gl.1 : ℚ) + (gramsOf n w).count gl.1))) :
            Update),
         (oi, k, fun s => R.fl (s - emdF R ((posOf (gramsOf n q) gl.1).map R.fl)
          ((posOf (gramsOf n w) gl.1).map R.fl)))] else []) else [] := by
      rintro ⟨g, l⟩ hgl
      rw [group_locatedOfF] at hgl
      obtain ⟨⟨g', l'⟩, hgl', he⟩ := List.mem_map.1 hgl
      injection he with he1 he2
      simp only at he1 he2
      subst he1 he2
      obtain ⟨hg, rfl⟩ := mem_group_locatedOf.1 hgl'
      have hg1 := getNGrams_length hn hg
      simp only
      rw [List.filter_flatMap, hQ, List.flatMap_map,
        flatMap_perm_posEntries (f := id) (fun _ => rfl) (by rw [List.map_id]; exact hi.positions g') hw]
      · unfold posEntry
        rw [hg1, getNGrams_eq_gramsOf w n, getNGrams_eq_gramsOf q n, posOf_eq, posOf_eq]
        by_cases hgw : g' ∈ gramsOf n w
        · rw [if_pos ⟨hnm, hgw⟩, if_pos hgw]
          by_cases hkk : k' = k
          · simp [flEntry, hpos, hkk, length_locs_locatedOf, cellOf]
          · simp [flEntry, hpos, hkk, cellOf]
        · rw [if_neg (fun h => hgw h.2), if_neg hgw]
          simp
      · intro e he
        simp only [flEntry]
        by_cases hp : e.1 ∈ possible <;> simp [hp, cellOf, he]
    rw [List.flatMap_congr inner, Dict.group_eq_map, List.flatMap_map]
    by_cases hkk : k' = k
    · simp only [hkk, if_true]
      rw [keys_group_firsts, map_fst_locatedOfF, getNGrams_eq_gramsOf]
      unfold sharedGrams
      generalize firsts (gramsOf n q) = l
      induction l with
      | nil => rfl
      | cons g l ih =>
        rw [List.flatMap_cons, ih, List.filter_cons]
        by_cases hg : g ∈ gramsOf n w <;> simp [hg]
    · simp [hkk]
  rw [List.flatMap_congr key]
  rw [flatMap_zipIdx_single st.nList (fun n => (sharedGrams n q w).flatMap (fun g =>
        [((oi, k, fun s => R.fl (s + (((gramsOf n q).count g : ℚ) + (gramsOf n w).count g))) :
            Update),
         (oi, k, fun s => R.fl (s - emdF R ((posOf (gramsOf n q) g).map R.fl)
          ((posOf (gramsOf n w) g).map R.fl)))])) k hk]
  unfold simNF applyAll
  rw [List.foldl_flatMap]
  rfl

/-- Second pass: the possible words that share an n-gram, with their computed similarities. -/
theorem matchScoresF_spec (hi : WLInv cf st) {stF : WL} (hR : Rounded R st stF) (q : List Char)
    (possible : List ℕ) (h : ∀ n ∈ st.nList, (getNGrams q n).length ≠ 1) :
    ∃ ms, matchScoresF R stF q possible = .ok ms ∧ (Dict.keys ms).Nodup ∧
      ∀ oi v, (oi, v) ∈ ms ↔ oi ∈ possible ∧ ∃ w, st.wordList[oi]? = some w ∧
        (∃ n ∈ st.nList, Shares n q w) ∧ v = st.nList.map (fun n => simNF R n q w) := by
  have h' : ∀ n ∈ stF.nList, (getNGrams q n).length ≠ 1 := by
    obtain ⟨Q, rfl, _⟩ := hR; exact h
  refine ⟨_, matchScoresF_ok q possible h', nodup_keys_accumU _ _, ?_⟩
  intro oi v
  rw [Dict.mem_iff_get? (nodup_keys_accumU _ _), get?_accumU, map_fst_matchUpdates hR]
  constructor
  · intro h
    split at h
    · rename_i hm
      obtain ⟨hp, w, hw, he⟩ := (mem_matchEvents hi q possible oi).1 hm
      injection h with h
      exact ⟨hp, w, hw, he, by rw [← h, rowU_matchUpdates hi hR q hw hp]⟩
    · cases h
  · rintro ⟨hp, w, hw, he, rfl⟩
    rw [if_pos ((mem_matchEvents hi q possible oi).2 ⟨hp, w, hw, he⟩),
      rowU_matchUpdates hi hR q hw hp]

theorem normCellF_ok {q : List Char} {otherLen : ℕ} {row : List ℚ} {n : ℤ} {k : ℕ} {x : ℚ}
    (hx : row[k]? = some x) :
    normCellF R q otherLen row (n, k) =
      if numGrams q.length n + numGrams otherLen n = 0 then .error .zeroDivisionError
      else .ok (R.fl (x / ((numGrams q.length n + numGrams otherLen n : ℤ) : ℚ))) := by
  unfold normCellF
  simp only [pyGet_ok' hx, bind, Except.bind, pure, Except.pure, throw, throwThe, MonadExceptOf.throw]

/-- Normalisation of one row. -/
theorem normalizeRowF_spec (hi : WLInv cf st) {stF : WL} (hR : Rounded R st stF) (q : List Char)
    (normalize : Bool) {oi : ℕ} {w : List Char} (hw : st.wordList[oi]? = some w) :
    normalizeRowF R stF q normalize (oi, st.nList.map (fun n => simNF R n q w)) =
      if normalize = true ∧ ∃ n ∈ st.nList, denom n q w = 0 then .error .zeroDivisionError
      else .ok (oi, scoreVecF R st.nList normalize q w) := by
  obtain ⟨Q, rfl, _⟩ := hR
  have hl : st.wordLens[oi]? = some w.length := by rw [hi.lens, List.getElem?_map, hw]; rfl
  unfold normalizeRowF
  simp only [pyGet_ok' hl, bind, Except.bind, pure, Except.pure]
  cases normalize with
  | false => simp [scoreVecF, scoreNF]
  | true =>
    simp only [if_true, true_and]
    have hcell : ∀ nk ∈ st.nList.zipIdx,
        normCellF R q w.length (st.nList.map (fun n => simNF R n q w)) nk =
          if denom nk.1 q w = 0 then .error .zeroDivisionError
          else .ok (scoreNF R true nk.1 q w) := by
      rintro ⟨n, k⟩ hnk
      have hk := List.mem_zipIdx_iff_getElem?.1 hnk
      rw [normCellF_ok (x := simNF R n q w) (by rw [List.getElem?_map, hk]; rfl), ← denom_eq]
      rfl
    by_cases hr : ∃ n ∈ st.nList, denom n q w = 0
    · rw [if_pos hr]
      obtain ⟨n, hn, h0⟩ := hr
      obtain ⟨k, hk, rfl⟩ := List.getElem_of_mem hn
      have hz : (st.nList[k], k) ∈ st.nList.zipIdx :=
        List.mem_zipIdx_iff_getElem?.2 (by simp [hk])
      rw [mapM_error (e := .zeroDivisionError)]
      · exact ⟨_, hz, by rw [hcell _ hz, if_pos h0]⟩
      · intro a ha
        rw [hcell a ha]
        split
        · exact Or.inl rfl
        · exact Or.inr ⟨_, rfl⟩
    · rw [if_neg hr]
      have e1 : st.nList.zipIdx.map Prod.fst = st.nList := by simp
      rw [mapM_ok (g := fun nk : ℤ × ℕ => scoreNF R true nk.1 q w)]
      · simp only
        congr 2
        unfold scoreVecF
        conv_rhs => rw [← e1]
        rw [List.map_map]; rfl
      · intro a ha
        rw [hcell a ha, if_neg]
        intro h0
        apply hr
        refine ⟨a.1, ?_, h0⟩
        rw [← e1]; exact List.mem_map_of_mem ha

end Fp
end Verif
