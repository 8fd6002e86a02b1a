import Verif.Conc.Spec

/-!
# `find_similar` while words are being added: what a thread knows at each step
-/

namespace Verif
namespace Conc

open GramSpec WordSetSpec

variable {cf : List Char → List Char} {un : Normalizer} {st : WS}

/-- The n-gram sizes. -/
abbrev sizesOf (st : WS) : List ℕ := st.nList.map Int.toNat

/-- Entries that can be stored under the configuration of `st`. -/
structure Good (cf : List Char → List Char) (un : Normalizer) (st : WS) (E : List Entry) : Prop where
  nodup : (E.map (fun e => e.m.key)).Nodup
  ids : E.Pairwise (fun a b => a.id < b.id)
  keys : ∀ e ∈ E, keyOf st.caseSensitive cf un e.m.orig = some e.m.key ∧ e.m.key ≠ []
  sizesNe : st.nList ≠ []
  sizesPos : ∀ n ∈ st.nList, 0 < n
  sizesLt : st.nList.Pairwise (· < ·)
  filter : st.filterN = (filterSize (st.nList.map Int.toNat)).map Int.ofNat

theorem Good.sublist {E T : List Entry} (h : Good cf un st E) (hT : T.Sublist E) :
    Good cf un st T :=
  ⟨h.nodup.sublist (hT.map _), h.ids.sublist hT, fun e he => h.keys e (hT.subset he), h.sizesNe,
    h.sizesPos, h.sizesLt, h.filter⟩

theorem _root_.Verif.WSRep.good {E : List Entry} (h : WSRep cf un st E) : Good cf un st E :=
  ⟨h.nodup, h.ids, h.keys, h.sizesNe, h.sizesPos, h.sizesLt, h.filter⟩

theorem Good.filterPos {E : List Entry} (h : Good cf un st E) {f : ℤ} (hf : st.filterN = some f) :
    0 < f := by
  have h1 := h.filter
  rw [hf] at h1
  cases hs : filterSize (st.nList.map Int.toNat) with
  | none => rw [hs] at h1; cases h1
  | some n =>
    rw [hs] at h1
    simp only [Option.map_some, Option.some.injEq] at h1
    obtain ⟨a, ha, rfl⟩ := List.mem_map.1 (filterSize_mem hs)
    have := h.sizesPos a ha
    rw [h1]
    simp only [Int.ofNat_eq_natCast]
    omega

theorem Good.filterSize {E : List Entry} (h : Good cf un st E) {f : ℤ} (hf : st.filterN = some f) :
    WordSetSpec.filterSize (sizesOf st) = some f.toNat := by
  have h1 := h.filter
  rw [hf] at h1
  cases hs : WordSetSpec.filterSize (sizesOf st) with
  | none => unfold sizesOf at hs; rw [hs] at h1; cases h1
  | some n =>
    unfold sizesOf at hs
    rw [hs] at h1
    simp only [Option.map_some, Option.some.injEq] at h1
    rw [h1]; rfl

theorem Good.filterSize_none {E : List Entry} (h : Good cf un st E) (hf : st.filterN = none) :
    WordSetSpec.filterSize (sizesOf st) = none := by
  have h1 := h.filter
  rw [hf] at h1
  cases hs : WordSetSpec.filterSize (sizesOf st) with
  | none => rfl
  | some n => unfold sizesOf at hs; rw [hs] at h1; cases h1

theorem filterGrams_eq {f : ℤ} (hf : st.filterN = some f) (hfp : 0 < f) (w : List Char) :
    (st.computeInfo w).filterGrams = (grams f.toNat w).dedup := by
  unfold WS.computeInfo; rw [hf]; simp only [wsGrams_eq hfp]

/-- A state that stores given entries. -/
theorem Good.exists_rep {T : List Entry} (h : Good cf un st T) :
    ∃ V : WS, V.caseSensitive = st.caseSensitive ∧ V.nList = st.nList ∧ V.filterN = st.filterN ∧
      WSRep cf un V T := by
  let d : Dict (List Char) (List ℕ) :=
    T.foldl (fun d e => (st.computeInfo e.m.key).filterGrams.foldl (indexGram e.id) d) []
  have hd : ∀ (T : List Entry) (d : Dict (List Char) (List ℕ)) (g : List Char) (i : ℕ),
      i ∈ idsAt (T.foldl (fun d e =>
        (st.computeInfo e.m.key).filterGrams.foldl (indexGram e.id) d) d) g ↔
      i ∈ idsAt d g ∨ ∃ e ∈ T, e.id = i ∧ g ∈ (st.computeInfo e.m.key).filterGrams := by
    intro T
    induction T with
    | nil => intro d g i; simp
    | cons e T ih =>
      intro d g i
      rw [List.foldl_cons, ih, mem_idsAt_foldl_indexGram]
      simp only [List.mem_cons, exists_eq_or_imp]
      constructor
      · rintro ((h | ⟨h1, h2⟩) | h)
        · exact Or.inl h
        · exact Or.inr (Or.inl ⟨h2.symm, h1⟩)
        · exact Or.inr (Or.inr h)
      · rintro (h | ⟨h1, h2⟩ | h)
        · exact Or.inl (Or.inl h)
        · exact Or.inl (Or.inr ⟨h2, h1.symm⟩)
        · exact Or.inr h
  have hne : ∀ (T : List Entry) (d : Dict (List Char) (List ℕ)),
      (∀ h b, Dict.get? d h = some b → b ≠ []) → ∀ h b, Dict.get? (T.foldl (fun d e =>
        (st.computeInfo e.m.key).filterGrams.foldl (indexGram e.id) d) d) h = some b → b ≠ [] := by
    intro T
    induction T with
    | nil => intro d hd; exact hd
    | cons e T ih => intro d hd; exact ih _ (nonempty_foldl_indexGram _ hd)
  refine ⟨{ caseSensitive := st.caseSensitive, nList := st.nList, filterN := st.filterN,
            vocab := T.map (fun e => (e.m.key, e.id))
            originals := T.map (fun e => (e.id, e.m.orig))
            counter := (T.map (fun e => e.id)).sum + 1
            info := T.map (fun e => (e.id, st.computeInfo e.m.key))
            filterIndex := d }, rfl, rfl, rfl, ?_⟩
  constructor
  · rfl
  · rfl
  · rfl
  · exact h.nodup
  · exact h.ids
  · intro e he
    have : e.id ≤ (T.map (fun e => e.id)).sum :=
      List.le_sum_of_mem (List.mem_map.2 ⟨e, he, rfl⟩)
    simp only; omega
  · exact h.keys
  · intro g i
    simp only [d]
    rw [hd]
    simp only [idsAt, Dict.get?_nil, Option.getD_none, List.not_mem_nil, false_or]
    cases hf : st.filterN with
    | none =>
      have : ∀ w, (st.computeInfo w).filterGrams = [] := by
        intro w; unfold WS.computeInfo; rw [hf]
      simp [this]
    | some f =>
      have hfp := h.filterPos hf
      constructor
      · rintro ⟨e, he, hi, hg⟩
        rw [filterGrams_eq hf hfp, List.mem_dedup] at hg
        exact ⟨e, he, hi, f, rfl, hg⟩
      · rintro ⟨e, he, hi, f', hf', hg⟩
        injection hf' with hf'
        subst hf'
        exact ⟨e, he, hi, by rw [filterGrams_eq hf hfp, List.mem_dedup]; exact hg⟩
  · exact hne T [] (by simp)
  · exact h.sizesNe
  · exact h.sizesPos
  · exact h.sizesLt
  · exact h.filter

/-! ## The memory as seen by a reader -/

/-- The configuration is that of `st`. -/
def Like (st : WS) (m : Shared) : Prop :=
  m.caseSensitive = st.caseSensitive ∧ m.nList = st.nList ∧ m.filterN = st.filterN

theorem Like.info {m : Shared} (h : Like st m) (w : List Char) :
    m.view.computeInfo w = st.computeInfo w := computeInfo_congr h.2.1 h.2.2 w

theorem Like.normalize {m : Shared} (h : Like st m) (w : List Char) :
    m.view.normalizeWord cf un w = st.normalizeWord cf un w := by
  have h1 : m.view.caseSensitive = st.caseSensitive := h.1
  rw [normalizeWord_eq, normalizeWord_eq, h1]

/-- What is stored about an entry can be read. -/
def Ready (st : WS) (m : Shared) (e : Entry) : Prop :=
  Dict.get? m.info e.id = some (st.computeInfo e.m.key) ∧
    Dict.get? m.originals e.id = some e.m.orig

/-- Everything has been stored about an entry. -/
def Complete (st : WS) (m : Shared) (e : Entry) : Prop :=
  Ready st m e ∧ (e.m.key, e.id) ∈ m.vocab ∧ (e.id, st.computeInfo e.m.key) ∈ m.info ∧
    ∀ f, st.filterN = some f → ∀ g ∈ grams f.toNat e.m.key,
      ∃ a, Dict.get? m.index g = some a ∧ e.id ∈ m.ids a

/-- What is stored is about entries of `E`. -/
structure Sound (st : WS) (m : Shared) (E : List Entry) : Prop where
  like : Like st m
  vocab : m.vocab ≠ [] → E ≠ []
  index : ∀ g a i, Dict.get? m.index g = some a → i ∈ m.ids a → ∃ e ∈ E, e.id = i ∧ Ready st m e ∧
    ∃ f, st.filterN = some f ∧ g ∈ grams f.toNat e.m.key
  info : ∃ Ei : List Entry, (∀ e ∈ Ei, e ∈ E ∧ Ready st m e) ∧ (Ei.map (fun e => e.id)).Nodup ∧
    m.info = Ei.map (fun e => (e.id, st.computeInfo e.m.key))

/-- More has been stored. -/
structure Ext (m m' : Shared) : Prop where
  cs : m'.caseSensitive = m.caseSensitive
  nList : m'.nList = m.nList
  filterN : m'.filterN = m.filterN
  vocab : m.vocab <+: m'.vocab
  originals : m.originals <+: m'.originals
  info : m.info <+: m'.info
  index : ∀ g a, Dict.get? m.index g = some a → Dict.get? m'.index g = some a
  ids : ∀ a i, i ∈ m.ids a → i ∈ m'.ids a

theorem Ext.refl (m : Shared) : Ext m m :=
  ⟨rfl, rfl, rfl, List.prefix_rfl, List.prefix_rfl, List.prefix_rfl, fun _ _ h => h, fun _ _ h => h⟩

theorem get?_append {κ ν : Type} [DecidableEq κ] {d d' : Dict κ ν} {k : κ} {v : ν}
    (h : Dict.get? d k = some v) : Dict.get? (d ++ d') k = some v := by
  induction d with
  | nil => simp at h
  | cons p d ih =>
    obtain ⟨k', v'⟩ := p
    rw [List.cons_append]
    rw [Dict.get?_cons] at h ⊢
    split
    · rename_i hk; rw [if_pos hk] at h; exact h
    · rename_i hk; rw [if_neg hk] at h; exact ih h

theorem get?_prefix {κ ν : Type} [DecidableEq κ] {d d' : Dict κ ν} (hp : d <+: d') {k : κ} {v : ν}
    (h : Dict.get? d k = some v) : Dict.get? d' k = some v := by
  obtain ⟨t, rfl⟩ := hp
  exact get?_append h

theorem Ready.mono {m m' : Shared} {e : Entry} (hx : Ext m m') (h : Ready st m e) :
    Ready st m' e := ⟨get?_prefix hx.info h.1, get?_prefix hx.originals h.2⟩

theorem Complete.mono {m m' : Shared} {e : Entry} (hx : Ext m m') (h : Complete st m e) :
    Complete st m' e := by
  refine ⟨h.1.mono hx, hx.vocab.subset h.2.1, hx.info.subset h.2.2.1, ?_⟩
  intro f hf g hg
  obtain ⟨a, h1, h2⟩ := h.2.2.2 f hf g hg
  exact ⟨a, hx.index g a h1, hx.ids a _ h2⟩

/-! ## Scores -/

/-- The pair stored for an entry (line 406). -/
def pairOf (ns : List ℕ) (nq : List Char) (e : Entry) : ℚ × ℕ := (-(score ns nq e.m.key), e.id)

/-- The pairs stored for some entries. -/
def pairsOf (ns : List ℕ) (nq : List Char) (D : List Entry) : List (ℚ × ℕ) :=
  (D.filter (fun e => 0 < totalCount ns nq e.m.key)).map (pairOf ns nq)

theorem scoreWith_ready {E : List Entry} (hg : Good cf un st E) {m : Shared} (hl : Like st m)
    {e : Entry} (he : e ∈ E) (hr : Ready st m e) (nq : List Char) (D : List Entry) :
    scoreWith m nq (pairsOf (sizesOf st) nq D) e.id = .ok (pairsOf (sizesOf st) nq (D ++ [e])) := by
  obtain ⟨V, h1, h2, h3, hV⟩ := (hg.sublist (List.singleton_sublist.2 he)).exists_rep
  have hs := scoreStep_eq hV nq (e := e) (by simp) (pairsOf (sizesOf st) nq D)
  have e1 : ∀ w, V.computeInfo w = st.computeInfo w := computeInfo_congr h2 h3
  have e2 : Dict.get? V.info e.id = Dict.get? m.info e.id := by
    rw [hr.1, hV.info, get?_map_id hV.ids (by simp : e ∈ [e]), e1]
  have : scoreWith m nq (pairsOf (sizesOf st) nq D) e.id =
      V.scoreStep (V.computeInfo nq) (pairsOf (sizesOf st) nq D) e.id := by
    unfold scoreWith WS.scoreStep pyKey
    rw [hl.info, e1, e2]
    rfl
  rw [this, hs, h2]
  congr 1
  unfold pairsOf
  rw [List.filter_append, List.map_append]
  congr 1
  by_cases hc : 0 < totalCount (sizesOf st) nq e.m.key
  · rw [if_pos hc, List.filter_cons_of_pos (by simpa using hc)]; rfl
  · rw [if_neg hc, List.filter_cons_of_neg (by simpa using hc)]; rfl

/-- The entries in the order in which they are returned. -/
def sortedOf (ns : List ℕ) (nq : List Char) (D : List Entry) : List Entry :=
  (D.filter (fun e => 0 < totalCount ns nq e.m.key)).insertionSort
    (fun a b => tupleLe (pairOf ns nq a) (pairOf ns nq b))

theorem sortedOf_map (ns : List ℕ) (nq : List Char) (D : List Entry) :
    (sortedOf ns nq D).map (pairOf ns nq) = (pairsOf ns nq D).insertionSort tupleLe :=
  insertionSort_map (pairOf ns nq) (fun _ _ => Iff.rfl) _

theorem mem_sortedOf {ns : List ℕ} {nq : List Char} {D : List Entry} {e : Entry}
    (h : e ∈ sortedOf ns nq D) : e ∈ D :=
  (List.mem_filter.1 ((List.perm_insertionSort _ _).mem_iff.1 h)).1

/-- The result for the entries found, as that for a set containing all of `T`. -/
theorem sortedOf_ranked {T : List Entry} (hg : Good cf un st T) {nq : List Char} {D : List Entry}
    (hD : ∀ e ∈ D, e ∈ T) (hn : (D.map (fun e => e.id)).Nodup)
    (hc : ∀ e ∈ T, (e ∈ D ∧ 0 < totalCount (sizesOf st) nq e.m.key) ↔
      Candidate (sizesOf st) nq e.m.key) (k : ℕ) :
    ((sortedOf (sizesOf st) nq D).take k).map (fun e => (e.m.orig, score (sizesOf st) nq e.m.key)) =
      (ranked (sizesOf st) nq (T.map (fun e => e.m)) k).map
        (fun m => (m.orig, score (sizesOf st) nq m.key)) := by
  obtain ⟨V, h1, h2, h3, hV⟩ := hg.exists_rep
  have hr := rank_eq hV nq (T := D.map (fun e => e.id)) hn
    (fun i hi => by
      obtain ⟨e, he, rfl⟩ := List.mem_map.1 hi
      exact ⟨e, hD e he, rfl⟩)
    (fun e he => by
      rw [h2, ← hc e he]
      constructor
      · rintro ⟨h4, h5⟩
        obtain ⟨e', he', hid⟩ := List.mem_map.1 h4
        rw [id_inj hg.ids (hD e' he') he hid] at he'
        exact ⟨he', h5⟩
      · rintro ⟨h4, h5⟩
        exact ⟨List.mem_map.2 ⟨e, h4, rfl⟩, h5⟩) k
  rw [h2] at hr
  have hf := foldlM_scoreStep hV nq D hD []
  rw [h2] at hf
  unfold WS.rank at hr
  rw [hf] at hr
  simp only [bind, Except.bind, List.nil_append] at hr
  have hs := sortedOf_map (sizesOf st) nq D
  unfold pairsOf pairOf at hs
  rw [← hs, ← List.map_take] at hr
  have hm := mapM_pyKey hV (fun e => score (sizesOf st) nq e.m.key)
    ((sortedOf (sizesOf st) nq D).take k)
    (fun e he => hD e (mem_sortedOf (List.mem_of_mem_take he)))
  simp only [bind, Except.bind] at hm
  have hr' := hm.symm.trans hr
  injection hr'

end Conc
end Verif
