import Verif.WordSet.Grams

/-!
# Representation invariant of `WordSet`
-/

namespace Verif

open GramSpec WordSetSpec

variable {cf : List Char → List Char} {un : Normalizer} {st : WS}

theorem normalizeWord_eq (st : WS) (w : List Char) :
    st.normalizeWord cf un w =
      match keyOf st.caseSensitive cf un w with
      | some k => .ok k
      | none => .error .valueError := by
  unfold WS.normalizeWord keyOf
  cases un with
  | none =>
    simp only [bind, Except.bind, pure, Except.pure]
    generalize (if st.caseSensitive = true then w else cf w) = v
    by_cases h : '\x00' ∈ v <;> simp [h, throw, throwThe, MonadExceptOf.throw]
  | some f =>
    simp only
    cases f (if st.caseSensitive = true then w else cf w) with
    | none => rfl
    | some k =>
      simp only [bind, Except.bind, pure, Except.pure]
      by_cases h : '\x00' ∈ k <;> simp [h, throw, throwThe, MonadExceptOf.throw]

/-! ### The filter index -/

/-- Ids recorded for an n-gram. -/
def idsAt (d : Dict (List Char) (List ℕ)) (g : List Char) : List ℕ := (Dict.get? d g).getD []

theorem mem_idsAt_indexGram (id : ℕ) (d : Dict (List Char) (List ℕ)) (g h : List Char) (i : ℕ) :
    i ∈ idsAt (indexGram id d g) h ↔ i ∈ idsAt d h ∨ (h = g ∧ i = id) := by
  unfold indexGram idsAt
  rw [Dict.get?_set]
  by_cases hg : g = h
  · subst hg
    simp only [if_true, Option.getD_some, true_and]
    split
    · rename_i hm
      constructor
      · exact Or.inl
      · rintro (h | rfl)
        · exact h
        · exact hm
    · simp
  · rw [if_neg hg]
    simp [Ne.symm hg]

theorem nonempty_indexGram {id : ℕ} {d : Dict (List Char) (List ℕ)} {g : List Char}
    (hne : ∀ h b, Dict.get? d h = some b → b ≠ []) :
    ∀ h b, Dict.get? (indexGram id d g) h = some b → b ≠ [] := by
  intro h b
  unfold indexGram
  rw [Dict.get?_set]
  split
  · intro he
    injection he with he
    subst he
    split
    · rename_i hm; exact List.ne_nil_of_mem hm
    · simp
  · exact hne h b

theorem mem_idsAt_foldl_indexGram (id : ℕ) (gs : List (List Char)) (d : Dict (List Char) (List ℕ))
    (h : List Char) (i : ℕ) :
    i ∈ idsAt (gs.foldl (indexGram id) d) h ↔ i ∈ idsAt d h ∨ (h ∈ gs ∧ i = id) := by
  induction gs generalizing d with
  | nil => simp
  | cons g gs ih =>
    rw [List.foldl_cons, ih, mem_idsAt_indexGram, List.mem_cons]
    tauto

theorem nonempty_foldl_indexGram {id : ℕ} (gs : List (List Char)) {d : Dict (List Char) (List ℕ)}
    (hne : ∀ h b, Dict.get? d h = some b → b ≠ []) :
    ∀ h b, Dict.get? (gs.foldl (indexGram id) d) h = some b → b ≠ [] := by
  induction gs generalizing d with
  | nil => exact hne
  | cons g gs ih => exact ih (nonempty_indexGram hne)

theorem mem_idsAt_unindexGram (id : ℕ) (d : Dict (List Char) (List ℕ)) (g h : List Char) (i : ℕ) :
    i ∈ idsAt (unindexGram id d g) h ↔ i ∈ idsAt d h ∧ ¬ (h = g ∧ i = id) := by
  unfold unindexGram
  cases hg : Dict.get? d g with
  | none =>
    simp only
    constructor
    · intro hi
      refine ⟨hi, ?_⟩
      rintro ⟨rfl, _⟩
      simp [idsAt, hg] at hi
    · exact fun hi => hi.1
  | some bm =>
    simp only
    have key : ∀ b : List ℕ, b = bm.filter (fun j => j ≠ id) → (i ∈ b ↔ i ∈ bm ∧ i ≠ id) := by
      rintro b rfl; simp
    split
    · rename_i he
      unfold idsAt
      rw [Dict.get?_erase]
      by_cases hh : g = h
      · subst hh
        have := key _ rfl
        rw [he] at this
        simp only [if_true, Option.getD_none, hg, Option.getD_some, true_and]
        rw [this]
      · rw [if_neg hh]
        simp [Ne.symm hh]
    · unfold idsAt
      rw [Dict.get?_set]
      by_cases hh : g = h
      · subst hh
        simp only [if_true, Option.getD_some, hg, true_and]
        exact key _ rfl
      · rw [if_neg hh]
        simp [Ne.symm hh]

theorem nonempty_unindexGram {id : ℕ} {d : Dict (List Char) (List ℕ)} {g : List Char}
    (hne : ∀ h b, Dict.get? d h = some b → b ≠ []) :
    ∀ h b, Dict.get? (unindexGram id d g) h = some b → b ≠ [] := by
  intro h b
  unfold unindexGram
  cases hg : Dict.get? d g with
  | none => exact hne h b
  | some bm =>
    simp only
    split
    · rw [Dict.get?_erase]
      split
      · intro he; cases he
      · exact hne h b
    · rename_i hb
      rw [Dict.get?_set]
      split
      · intro he
        injection he with he
        rw [← he]; exact hb
      · exact hne h b

theorem mem_idsAt_foldl_unindexGram (id : ℕ) (gs : List (List Char))
    (d : Dict (List Char) (List ℕ)) (h : List Char) (i : ℕ) :
    i ∈ idsAt (gs.foldl (unindexGram id) d) h ↔ i ∈ idsAt d h ∧ ¬ (h ∈ gs ∧ i = id) := by
  induction gs generalizing d with
  | nil => simp
  | cons g gs ih =>
    rw [List.foldl_cons, ih, mem_idsAt_unindexGram, List.mem_cons]
    tauto

theorem nonempty_foldl_unindexGram {id : ℕ} (gs : List (List Char))
    {d : Dict (List Char) (List ℕ)} (hne : ∀ h b, Dict.get? d h = some b → b ≠ []) :
    ∀ h b, Dict.get? (gs.foldl (unindexGram id) d) h = some b → b ≠ [] := by
  induction gs generalizing d with
  | nil => exact hne
  | cons g gs ih => exact ih (nonempty_unindexGram hne)

/-! ### The invariant -/

/-- A member with its internal id. -/
structure Entry where
  m : Member
  id : ℕ

/-- The state stores the entries `E`. -/
structure WSRep (cf : List Char → List Char) (un : Normalizer) (st : WS) (E : List Entry) :
    Prop where
  vocab : st.vocab = E.map (fun e => (e.m.key, e.id))
  originals : st.originals = E.map (fun e => (e.id, e.m.orig))
  info : st.info = E.map (fun e => (e.id, st.computeInfo e.m.key))
  nodup : (E.map (fun e => e.m.key)).Nodup
  ids : E.Pairwise (fun a b => a.id < b.id)
  bound : ∀ e ∈ E, e.id < st.counter
  keys : ∀ e ∈ E, keyOf st.caseSensitive cf un e.m.orig = some e.m.key ∧ e.m.key ≠ []
  idx : ∀ g i, i ∈ idsAt st.filterIndex g ↔
    ∃ e ∈ E, e.id = i ∧ ∃ f, st.filterN = some f ∧ g ∈ grams f.toNat e.m.key
  idxNe : ∀ g b, Dict.get? st.filterIndex g = some b → b ≠ []
  sizesNe : st.nList ≠ []
  sizesPos : ∀ n ∈ st.nList, 0 < n
  sizesLt : st.nList.Pairwise (· < ·)
  filter : st.filterN = (filterSize (st.nList.map Int.toNat)).map Int.ofNat

theorem WSRep.filterPos {E : List Entry} (h : WSRep cf un st E) {f : ℤ} (hf : st.filterN = some f) :
    0 < f := by
  have h1 := h.filter
  rw [hf] at h1
  unfold filterSize at h1
  split at h1
  · simp only [Option.map_some, Option.some.injEq] at h1
    rw [h1]; decide
  · cases hn : st.nList with
    | nil => exact absurd hn h.sizesNe
    | cons a l =>
      rw [hn] at h1
      simp only [List.map_cons] at h1
      split at h1
      · simp only [Option.map_some, Option.some.injEq] at h1
        have := h.sizesPos a (by rw [hn]; exact List.mem_cons_self)
        rw [h1]
        simp only [Int.ofNat_eq_natCast]
        omega
      · cases h1

theorem computeInfo_congr {st st' : WS} (h1 : st'.nList = st.nList) (h2 : st'.filterN = st.filterN)
    (w : List Char) : st'.computeInfo w = st.computeInfo w := by
  unfold WS.computeInfo; rw [h1, h2]

theorem get?_map_key {E : List Entry} {β : Type} {f : Entry → β} (k : List Char)
    (hn : (E.map (fun e => e.m.key)).Nodup) {b : β} :
    Dict.get? (E.map (fun e => (e.m.key, f e))) k = some b ↔ ∃ e ∈ E, e.m.key = k ∧ f e = b := by
  have hk : (Dict.keys (E.map (fun e => (e.m.key, f e)))).Nodup := by
    unfold Dict.keys; rw [List.map_map]; exact hn
  rw [← Dict.mem_iff_get? hk, List.mem_map]
  constructor
  · rintro ⟨e, he, h⟩
    simp only [Prod.mk.injEq] at h
    exact ⟨e, he, h⟩
  · rintro ⟨e, he, h1, h2⟩
    exact ⟨e, he, by rw [h1, h2]⟩

theorem nodup_ids {E : List Entry} (h : E.Pairwise (fun a b => a.id < b.id)) :
    (E.map (fun e => e.id)).Nodup := by
  unfold List.Nodup
  rw [List.pairwise_map]
  exact h.imp (fun h => ne_of_lt h)

theorem get?_map_id {E : List Entry} {β : Type} {f : Entry → β} (hn : E.Pairwise (fun a b => a.id < b.id))
    {e : Entry} (he : e ∈ E) :
    Dict.get? (E.map (fun e => (e.id, f e))) e.id = some (f e) := by
  apply Dict.get?_of_mem
  · unfold Dict.keys; rw [List.map_map]; exact nodup_ids hn
  · exact List.mem_map.2 ⟨e, he, rfl⟩

theorem id_inj {E : List Entry} (h : E.Pairwise (fun a b => a.id < b.id)) {a b : Entry}
    (ha : a ∈ E) (hb : b ∈ E) (hid : a.id = b.id) : a = b :=
  List.inj_on_of_nodup_map (nodup_ids h) ha hb hid

theorem key_inj {E : List Entry} (h : (E.map (fun e => e.m.key)).Nodup) {a b : Entry}
    (ha : a ∈ E) (hb : b ∈ E) (hid : a.m.key = b.m.key) : a = b :=
  List.inj_on_of_nodup_map h ha hb hid

theorem mem_vocab {E : List Entry} (h : WSRep cf un st E) (k : List Char) :
    Dict.has st.vocab k = true ↔ Mem (E.map (fun e => e.m)) k := by
  rw [Dict.has_iff, h.vocab]
  unfold Dict.keys Mem
  simp only [List.map_map, List.mem_map]
  constructor
  · rintro ⟨e, he, rfl⟩; exact ⟨e.m, ⟨e, he, rfl⟩, rfl⟩
  · rintro ⟨m, ⟨e, he, rfl⟩, rfl⟩; exact ⟨e, he, rfl⟩

theorem Dict.set_append {κ ν : Type} [DecidableEq κ] {d : Dict κ ν} {k : κ} (v : ν)
    (h : k ∉ Dict.keys d) : Dict.set d k v = d ++ [(k, v)] := by
  induction d with
  | nil => rfl
  | cons p d ih =>
    rw [Dict.keys_cons, List.mem_cons, not_or] at h
    unfold Dict.set
    rw [if_neg (Ne.symm h.1), ih h.2]; rfl

/-! ### `add` -/

theorem WSRep.add_new {E : List Entry} (h : WSRep cf un st E) {w nw : List Char} (hw : w ≠ [])
    (hk : keyOf st.caseSensitive cf un w = some nw) (hnw : nw ≠ [])
    (hnew : ¬ Mem (E.map (fun e => e.m)) nw) :
    (st.add cf un (.str w)).2 = .ok () ∧
    WSRep cf un (st.add cf un (.str w)).1 (E ++ [⟨⟨nw, w⟩, st.counter⟩]) := by
  have hv : ¬ Dict.has st.vocab nw = true := fun hc => hnew ((mem_vocab h nw).1 hc)
  have hres : st.add cf un (.str w) =
      ({ st with
          counter := st.counter + 1
          vocab := Dict.set st.vocab nw st.counter
          originals := Dict.set st.originals st.counter w
          info := Dict.set st.info st.counter (st.computeInfo nw)
          filterIndex :=
            if st.filterN.isSome then
              (st.computeInfo nw).filterGrams.foldl (indexGram st.counter) st.filterIndex
            else st.filterIndex }, .ok ()) := by
    unfold WS.add
    simp only [if_neg hw, normalizeWord_eq, hk, if_neg hnw, if_neg hv]
  rw [hres]
  have hid : st.counter ∉ E.map (fun e => e.id) := by
    intro hc
    obtain ⟨e, he, hc⟩ := List.mem_map.1 hc
    exact absurd (h.bound e he) (by omega)
  refine ⟨rfl, ?_⟩
  constructor
  · simp only
    rw [Dict.set_append _ (fun hc => hv (Dict.has_iff.2 hc)), h.vocab, List.map_append]; rfl
  · simp only
    rw [Dict.set_append, h.originals, List.map_append]
    · rfl
    · rw [h.originals]; unfold Dict.keys; rw [List.map_map]; exact hid
  · simp only
    rw [Dict.set_append, h.info, List.map_append]
    · congr 1
    · rw [h.info]; unfold Dict.keys; rw [List.map_map]; exact hid
  · rw [List.map_append, List.nodup_append]
    refine ⟨h.nodup, by simp, ?_⟩
    intro a ha b hb hab
    simp only [List.map_cons, List.map_nil, List.mem_singleton] at hb
    subst hab hb
    obtain ⟨e, he, hb⟩ := List.mem_map.1 ha
    exact hnew ⟨e.m, List.mem_map.2 ⟨e, he, rfl⟩, hb⟩
  · rw [List.pairwise_append]
    refine ⟨h.ids, by simp, ?_⟩
    intro a ha b hb
    rw [List.mem_singleton] at hb
    subst hb
    exact h.bound a ha
  · intro e he
    simp only
    rcases List.mem_append.1 he with he | he
    · have := h.bound e he; omega
    · rw [List.mem_singleton] at he; subst he; simp
  · intro e he
    rcases List.mem_append.1 he with he | he
    · exact h.keys e he
    · rw [List.mem_singleton] at he; subst he; exact ⟨hk, hnw⟩
  · intro g i
    simp only
    cases hf : st.filterN with
    | none =>
      have h1 := h.idx g i
      rw [hf] at h1
      simp only [Option.isSome_none, Bool.false_eq_true, if_false, h1]
      simp
    | some f =>
      have hfp := h.filterPos hf
      have h1 := h.idx g i
      rw [hf] at h1
      simp only [Option.isSome_some, if_true]
      rw [mem_idsAt_foldl_indexGram, h1]
      have hg : (st.computeInfo nw).filterGrams = (grams f.toNat nw).dedup := by
        unfold WS.computeInfo; rw [hf]; simp only [wsGrams_eq hfp]
      rw [hg, List.mem_dedup]
      constructor
      · rintro (⟨e, he, hi, f', hf', hm⟩ | ⟨hm, rfl⟩)
        · exact ⟨e, List.mem_append_left _ he, hi, f', hf', hm⟩
        · exact ⟨_, List.mem_append_right _ List.mem_cons_self, rfl, f, rfl, hm⟩
      · rintro ⟨e, he, hi, f', hf', hm⟩
        rcases List.mem_append.1 he with he | he
        · exact Or.inl ⟨e, he, hi, f', hf', hm⟩
        · rw [List.mem_singleton] at he
          subst he
          injection hf' with hf'
          subst hf'
          exact Or.inr ⟨hm, hi.symm⟩
  · simp only
    split
    · exact nonempty_foldl_indexGram _ h.idxNe
    · exact h.idxNe
  · exact h.sizesNe
  · exact h.sizesPos
  · exact h.sizesLt
  · exact h.filter

/-! ### `discard` -/

theorem WSRep.discard_present {E : List Entry} (h : WSRep cf un st E) {w nw : List Char}
    (hk : keyOf st.caseSensitive cf un w = some nw) (hm : Mem (E.map (fun e => e.m)) nw) :
    (st.discard cf un (.str w)).2 = .ok () ∧
    WSRep cf un (st.discard cf un (.str w)).1 (E.filter (fun e => e.m.key ≠ nw)) ∧
    (st.discard cf un (.str w)).1.caseSensitive = st.caseSensitive ∧
    (st.discard cf un (.str w)).1.nList = st.nList ∧
    (st.discard cf un (.str w)).1.filterN = st.filterN := by
  obtain ⟨m, hmm, rfl⟩ := hm
  obtain ⟨e₀, he₀, rfl⟩ := List.mem_map.1 hmm
  have hget : Dict.get? st.vocab e₀.m.key = some e₀.id := by
    rw [h.vocab]; exact (get?_map_key _ h.nodup).2 ⟨e₀, he₀, rfl, rfl⟩
  have horig : Dict.has st.originals e₀.id = true := by
    unfold Dict.has; rw [h.originals, get?_map_id h.ids he₀]; rfl
  have hinfo : Dict.get? st.info e₀.id = some (st.computeInfo e₀.m.key) := by
    rw [h.info, get?_map_id h.ids he₀]
  have hres : st.discard cf un (.str w) =
      ({ st with
          vocab := Dict.erase st.vocab e₀.m.key
          originals := Dict.erase st.originals e₀.id
          info := Dict.erase st.info e₀.id
          filterIndex :=
            if st.filterN.isSome then
              (st.computeInfo e₀.m.key).filterGrams.foldl (unindexGram e₀.id) st.filterIndex
            else st.filterIndex }, .ok ()) := by
    unfold WS.discard
    simp only [normalizeWord_eq, hk, hget, horig, if_true, hinfo]
  have hpred : ∀ e ∈ E, (decide (e.id ≠ e₀.id)) = (decide (e.m.key ≠ e₀.m.key)) := by
    intro e he
    by_cases hc : e.id = e₀.id
    · have := id_inj h.ids he he₀ hc
      subst this; simp
    · have : e.m.key ≠ e₀.m.key := fun hk => hc (by rw [key_inj h.nodup he he₀ hk])
      simp [hc, this]
  have hsub : (E.filter (fun e => e.m.key ≠ e₀.m.key)).Sublist E := List.filter_sublist
  rw [hres]
  refine ⟨rfl, ?_, rfl, rfl, rfl⟩
  constructor
  · simp only
    rw [h.vocab]; unfold Dict.erase
    rw [List.filter_map]; rfl
  · simp only
    rw [h.originals]; unfold Dict.erase
    rw [List.filter_map]
    congr 1
    exact List.filter_congr hpred
  · simp only
    rw [h.info]; unfold Dict.erase
    rw [List.filter_map]
    have : List.filter ((fun p : ℕ × WordInfo => decide (p.1 ≠ e₀.id)) ∘
        fun e : Entry => (e.id, st.computeInfo e.m.key)) E =
        E.filter (fun e => e.m.key ≠ e₀.m.key) := List.filter_congr hpred
    rw [this]
    rfl
  · exact h.nodup.sublist (hsub.map _)
  · exact h.ids.sublist hsub
  · intro e he; exact h.bound e (hsub.subset he)
  · intro e he; exact h.keys e (hsub.subset he)
  · intro g i
    simp only
    have h1 := h.idx g i
    cases hf : st.filterN with
    | none =>
      rw [hf] at h1
      simp only [Option.isSome_none, Bool.false_eq_true, if_false, h1]
      simp
    | some f =>
      have hfp := h.filterPos hf
      rw [hf] at h1
      simp only [Option.isSome_some, if_true]
      rw [mem_idsAt_foldl_unindexGram, h1]
      have hg : (st.computeInfo e₀.m.key).filterGrams = (grams f.toNat e₀.m.key).dedup := by
        unfold WS.computeInfo; rw [hf]; simp only [wsGrams_eq hfp]
      rw [hg, List.mem_dedup]
      constructor
      · rintro ⟨⟨e, he, rfl, f', hf', hm⟩, hno⟩
        injection hf' with hf'
        subst hf'
        refine ⟨e, List.mem_filter.2 ⟨he, ?_⟩, rfl, f, rfl, hm⟩
        simp only [ne_eq, decide_not, Bool.not_eq_true', decide_eq_false_iff_not]
        intro hc
        have := key_inj h.nodup he he₀ hc
        subst this
        exact hno ⟨hm, rfl⟩
      · rintro ⟨e, he, rfl, f', hf', hm⟩
        obtain ⟨he, hne⟩ := List.mem_filter.1 he
        refine ⟨⟨e, he, rfl, f', hf', hm⟩, ?_⟩
        rintro ⟨_, hc⟩
        have := id_inj h.ids he he₀ hc
        subst this
        simp at hne
  · simp only
    split
    · exact nonempty_foldl_unindexGram _ h.idxNe
    · exact h.idxNe
  · exact h.sizesNe
  · exact h.sizesPos
  · exact h.sizesLt
  · exact h.filter

/-! ### `clear` and the constructor -/

theorem WSRep.clear {E : List Entry} (h : WSRep cf un st E) : WSRep cf un st.clear [] := by
  constructor
  · rfl
  · rfl
  · rfl
  · simp
  · simp
  · simp
  · simp
  · intro g i; simp [idsAt, WS.clear]
  · intro g b hb; simp [WS.clear] at hb
  · exact h.sizesNe
  · exact h.sizesPos
  · exact h.sizesLt
  · exact h.filter

theorem mkSizes_spec {sizes : NArg} {ns : List ℤ} (h : mkSizes sizes = .ok ns) :
    ns ≠ [] ∧ (∀ n ∈ ns, 0 < n) ∧ ns.Pairwise (· < ·) := by
  cases sizes with
  | int n =>
    unfold mkSizes at h
    simp only at h
    split at h
    · cases h
    · injection h with h; subst h; simp; omega
  | iter l =>
    unfold mkSizes at h
    simp only at h
    split at h
    · cases h
    · rename_i hc
      injection h with h
      subst h
      rw [not_or] at hc
      refine ⟨hc.1, ?_, ?_⟩
      · intro n hn
        by_contra hcn
        apply hc.2
        rw [List.any_eq_true]
        exact ⟨n, hn, by simp; omega⟩
      · have h1 : (l.dedup.insertionSort (· ≤ ·)).Pairwise (· ≤ ·) := List.pairwise_insertionSort _ _
        have h2 : (l.dedup.insertionSort (· ≤ ·)).Nodup :=
          (List.perm_insertionSort _ _).nodup_iff.2 (List.nodup_dedup l)
        exact (h1.and h2).imp (fun h => lt_of_le_of_ne h.1 h.2)
  | other => cases h

theorem effectiveFilter_eq {ns : List ℤ} (hne : ns ≠ []) (hpos : ∀ n ∈ ns, 0 < n) :
    effectiveFilter ns = .ok ((filterSize (ns.map Int.toNat)).map Int.ofNat) := by
  unfold effectiveFilter filterSize
  have h3 : (3 : ℤ) ∈ ns ↔ 3 ∈ ns.map Int.toNat := by
    rw [List.mem_map]
    constructor
    · intro h; exact ⟨3, h, rfl⟩
    · rintro ⟨a, ha, h⟩
      rw [show (3 : ℤ) = a by omega]; exact ha
  by_cases hc : (3 : ℤ) ∈ ns
  · rw [if_pos hc, if_pos (h3.1 hc)]; rfl
  · rw [if_neg hc, if_neg (fun h => hc (h3.2 h))]
    cases ns with
    | nil => exact absurd rfl hne
    | cons a l =>
      have := hpos a List.mem_cons_self
      simp only [pyGet, List.getElem?_cons_zero, bind, Except.bind, pure, Except.pure, List.map_cons]
      by_cases h4 : a ≤ 4
      · rw [if_pos h4, if_pos (by omega)]
        simp; omega
      · rw [if_neg h4, if_neg (by omega)]; rfl

theorem WSRep.new {cs : Option Bool} {cb : Bool} {sizes : NArg} (h : WS.new cs cb sizes = .ok st) :
    WSRep cf un st [] := by
  unfold WS.new at h
  cases cs with
  | none => cases h
  | some c =>
    cases cb with
    | false => cases h
    | true =>
      simp only [bind, Except.bind, pure, Except.pure, not_true_eq_false, if_false] at h
      cases hm : mkSizes sizes with
      | error e => rw [hm] at h; cases h
      | ok ns =>
        rw [hm] at h
        obtain ⟨h1, h2, h3⟩ := mkSizes_spec hm
        simp only [effectiveFilter_eq h1 h2] at h
        injection h with h
        subst h
        exact ⟨rfl, rfl, rfl, by simp, by simp, by simp, by simp, by intro g i; simp [idsAt],
          by intro g b hb; simp at hb, h1, h2, h3, rfl⟩

end Verif
