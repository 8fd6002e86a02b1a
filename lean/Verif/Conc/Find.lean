import Verif.Conc.Reader
import Verif.WordSet.Props

/-!
# The invariant of a thread in `find_similar`
-/

namespace Verif
namespace Conc

open GramSpec WordSetSpec

variable {cf : List Char → List Char} {un : Normalizer} {st : WS}

/-- What the call returns: the answer for a set containing `E1` and perhaps more of `E`. -/
def Final (cf : List Char → List Char) (un : Normalizer) (st : WS) (q k : PyVal) (ms : MinSim)
    (E1 E : List Entry) (r : Except Err (List (List Char × ℚ))) : Prop :=
  (st.filterN = none ∧ r = .error .runtimeError) ∨
    ∃ T : List Entry, T.Sublist E ∧ (∀ e ∈ E1, e ∈ T) ∧
      r = (absFind (st.key cf un) (sizesOf st) (T.map (fun e => e.m)) q k ms).mapError .py

/-- The arguments are accepted and the query has the normal form `nq`. -/
def Base (cf : List Char → List Char) (un : Normalizer) (st : WS) (q k : PyVal) (ms : MinSim)
    (nq : List Char) : Prop :=
  ∃ qs kk, q = .str qs ∧ k = .int kk ∧ 0 < kk ∧ ms.accepted = true ∧ qs ≠ [] ∧
    st.key cf un qs = some nq ∧ nq ≠ []

/-- The entries whose ids have been collected. -/
structure Cands (st : WS) (E1 E : List Entry) (m : Shared) (nq : List Char) (CE : List Entry) :
    Prop where
  nodup : (CE.map (fun e => e.id)).Nodup
  sub : ∀ e ∈ CE, e ∈ E ∧ Ready st m e
  cand : ∀ e ∈ CE, 0 < totalCount (sizesOf st) nq e.m.key → Candidate (sizesOf st) nq e.m.key
  all : ∀ e ∈ E1, Candidate (sizesOf st) nq e.m.key → e ∈ CE

/-- The entries whose ids have been collected before the n-grams `gs` are looked up. -/
structure Coll (st : WS) (E1 E : List Entry) (m : Shared) (f : ℤ) (nq : List Char)
    (gs : List (List Char)) (CE : List Entry) : Prop where
  nodup : (CE.map (fun e => e.id)).Nodup
  sub : ∀ e ∈ CE, e ∈ E ∧ Ready st m e
  gram : ∀ e ∈ CE, ∃ g ∈ grams f.toNat nq, g ∈ grams f.toNat e.m.key
  all : ∀ e ∈ E1, ∀ g ∈ grams f.toNat nq, g ∉ gs → g ∈ grams f.toNat e.m.key → e ∈ CE
  todo : ∀ g ∈ gs, g ∈ grams f.toNat nq

/-- The invariant. -/
def FInv (cf : List Char → List Char) (un : Normalizer) (st : WS) (q k : PyVal) (ms : MinSim)
    (E1 E : List Entry) (m : Shared) : FindPc → Prop
  | .enter => True
  | .collect nq gs cand => Base cf un st q k ms nq ∧ ∃ (f : ℤ) (CE : List Entry), st.filterN = some f ∧
      cand = CE.map (fun e => e.id) ∧ Coll st E1 E m f nq gs CE
  | .test nq a gs cand => Base cf un st q k ms nq ∧ ∃ (f : ℤ) (g : List Char) (CE : List Entry), st.filterN = some f ∧
      cand = CE.map (fun e => e.id) ∧ Coll st E1 E m f nq (g :: gs) CE ∧
      Dict.get? m.index g = some a
  | .update nq a gs cand => Base cf un st q k ms nq ∧ ∃ (f : ℤ) (g : List Char) (CE : List Entry), st.filterN = some f ∧
      cand = CE.map (fun e => e.id) ∧ Coll st E1 E m f nq (g :: gs) CE ∧
      Dict.get? m.index g = some a
  | .scan nq ids scored => Base cf un st q k ms nq ∧ ∃ D R : List Entry, Cands st E1 E m nq (D ++ R) ∧
      ids = R.map (fun e => e.id) ∧ scored = pairsOf (sizesOf st) nq D
  | .iter nq => Base cf un st q k ms nq ∧ st.filterN = none
  | .next nq size pos scored => Base cf un st q k ms nq ∧ st.filterN = none ∧ ∃ D R : List Entry,
      Cands st E1 E m nq (D ++ R) ∧
      (D ++ R).map (fun e => (e.id, st.computeInfo e.m.key)) <+: m.info ∧
      size = (D ++ R).length ∧ pos = D.length ∧ scored = pairsOf (sizesOf st) nq D
  | .live nq size pos id scored => Base cf un st q k ms nq ∧ st.filterN = none ∧ ∃ (D : List Entry) (e : Entry) (R : List Entry),
      Cands st E1 E m nq (D ++ e :: R) ∧
      (D ++ e :: R).map (fun e => (e.id, st.computeInfo e.m.key)) <+: m.info ∧
      size = (D ++ e :: R).length ∧ pos = D.length ∧ scored = pairsOf (sizesOf st) nq D ∧ id = e.id
  | .pick todo res => ∃ nq kk, Base cf un st q k ms nq ∧ k = .int kk ∧ ∃ CE Rd Rr : List Entry,
      Cands st E1 E m nq CE ∧ (sortedOf (sizesOf st) nq CE).take kk.toNat = Rd ++ Rr ∧
      todo = Rr.map (pairOf (sizesOf st) nq) ∧
      res = Rd.map (fun e => (e.m.orig, score (sizesOf st) nq e.m.key))
  | .done r => Final cf un st q k ms E1 E r

theorem Cands.mono {E1 E E' : List Entry} {m m' : Shared} (hx : Ext m m') (hE : E.Sublist E')
    {nq : List Char} {CE : List Entry} (h : Cands st E1 E m nq CE) : Cands st E1 E' m' nq CE :=
  ⟨h.nodup, fun e he => ⟨hE.subset (h.sub e he).1, (h.sub e he).2.mono hx⟩, h.cand, h.all⟩

theorem Coll.mono {E1 E E' : List Entry} {m m' : Shared} (hx : Ext m m') (hE : E.Sublist E')
    {f : ℤ} {nq : List Char} {gs : List (List Char)} {CE : List Entry}
    (h : Coll st E1 E m f nq gs CE) : Coll st E1 E' m' f nq gs CE :=
  ⟨h.nodup, fun e he => ⟨hE.subset (h.sub e he).1, (h.sub e he).2.mono hx⟩, h.gram, h.all, h.todo⟩

/-- Other threads do not disturb the invariant. -/
theorem FInv.mono {q k : PyVal} {ms : MinSim} {E1 E E' : List Entry} {m m' : Shared}
    (hx : Ext m m') (hE : E.Sublist E') {p : FindPc} (h : FInv cf un st q k ms E1 E m p) :
    FInv cf un st q k ms E1 E' m' p := by
  cases p with
  | enter => trivial
  | collect nq gs cand =>
    obtain ⟨h1, f, CE, h2, h3, h4⟩ := h
    exact ⟨h1, f, CE, h2, h3, h4.mono hx hE⟩
  | test nq a gs cand =>
    obtain ⟨h1, f, g, CE, h2, h3, h4, h5⟩ := h
    exact ⟨h1, f, g, CE, h2, h3, h4.mono hx hE, hx.index g a h5⟩
  | update nq a gs cand =>
    obtain ⟨h1, f, g, CE, h2, h3, h4, h5⟩ := h
    exact ⟨h1, f, g, CE, h2, h3, h4.mono hx hE, hx.index g a h5⟩
  | scan nq ids scored =>
    obtain ⟨h1, D, R, h2, h3, h4⟩ := h
    exact ⟨h1, D, R, h2.mono hx hE, h3, h4⟩
  | iter nq => exact h
  | next nq size pos scored =>
    obtain ⟨h1, h2, D, R, h3, h4, h5⟩ := h
    exact ⟨h1, h2, D, R, h3.mono hx hE, h4.trans hx.info, h5⟩
  | live nq size pos id scored =>
    obtain ⟨h1, h2, D, e, R, h3, h4, h5⟩ := h
    exact ⟨h1, h2, D, e, R, h3.mono hx hE, h4.trans hx.info, h5⟩
  | pick todo res =>
    obtain ⟨nq, kk, h1, h2, CE, Rd, Rr, h3, h4⟩ := h
    exact ⟨nq, kk, h1, h2, CE, Rd, Rr, h3.mono hx hE, h4⟩
  | done r =>
    rcases h with h | ⟨T, h1, h2, h3⟩
    · exact Or.inl h
    · exact Or.inr ⟨T, h1.trans hE, h2, h3⟩

/-- The specification on accepted arguments. -/
theorem absFind_base {q k : PyVal} {ms : MinSim} {nq : List Char} {kk : ℤ}
    (h : Base cf un st q k ms nq) (hk : k = .int kk) (s : List Member) :
    absFind (st.key cf un) (sizesOf st) s q k ms =
      .ok ((ranked (sizesOf st) nq s kk.toNat).map
        (fun m => (m.orig, score (sizesOf st) nq m.key))) := by
  obtain ⟨qs, kk', rfl, h1, h2, h3, h4, h5, h6⟩ := h
  rw [hk] at h1
  injection h1 with h1
  subst h1 hk
  unfold absFind
  simp only
  have h7 := (accepted_iff ms).1 h3
  rw [if_neg (by rw [not_or]; exact ⟨not_le.2 h2, h7⟩)]
  by_cases hs : s = []
  · rw [if_pos (Or.inr hs), hs, ranked_nil (by simp)]; rfl
  · rw [if_neg (by rw [not_or]; exact ⟨h4, hs⟩), h5]
    simp only [if_neg h6]

theorem Base.int {q k : PyVal} {ms : MinSim} {nq : List Char} (h : Base cf un st q k ms nq) :
    ∃ kk, k = .int kk := by
  obtain ⟨_, kk, _, h, _⟩ := h; exact ⟨kk, h⟩

open Classical in
/-- The result for the entries collected. -/
theorem final_of_cands {q k : PyVal} {ms : MinSim} {E1 E : List Entry} {m : Shared}
    (hg : Good cf un st E) (h1 : ∀ e ∈ E1, e ∈ E) {nq : List Char} {kk : ℤ}
    (hb : Base cf un st q k ms nq) (hk : k = .int kk) {CE : List Entry}
    (hc : Cands st E1 E m nq CE) :
    Final cf un st q k ms E1 E (.ok (((sortedOf (sizesOf st) nq CE).take kk.toNat).map
      (fun e => (e.m.orig, score (sizesOf st) nq e.m.key)))) := by
  refine Or.inr ⟨E.filter (fun e => e ∈ E1 ∨ e ∈ CE), List.filter_sublist, ?_, ?_⟩
  · intro e he
    exact List.mem_filter.2 ⟨h1 e he, by simp [he]⟩
  · rw [absFind_base hb hk, ← sortedOf_ranked (hg.sublist List.filter_sublist) ?_ hc.nodup ?_]
    · rfl
    · intro e he
      exact List.mem_filter.2 ⟨(hc.sub e he).1, by simp [he]⟩
    · intro e he
      obtain ⟨_, h2⟩ := List.mem_filter.1 he
      constructor
      · rintro ⟨h3, h4⟩; exact hc.cand e h3 h4
      · intro h3
        refine ⟨?_, totalCount_pos_of_candidate h3⟩
        rcases of_decide_eq_true h2 with h2 | h2
        · exact hc.all e h2 h3
        · exact h2

theorem Coll.cands {E1 E : List Entry} {m : Shared} {f : ℤ} (hg : Good cf un st E)
    (hf : st.filterN = some f) {nq : List Char} {CE : List Entry}
    (h : Coll st E1 E m f nq [] CE) : Cands st E1 E m nq CE := by
  refine ⟨h.nodup, h.sub, ?_, ?_⟩
  · intro e he _
    unfold Candidate
    rw [hg.filterSize hf]
    exact h.gram e he
  · intro e he hc
    unfold Candidate at hc
    rw [hg.filterSize hf] at hc
    obtain ⟨g, h1, h2⟩ := hc
    exact h.all e he g h1 (by simp) h2

theorem sortedOf_nil (ns : List ℕ) (nq : List Char) : sortedOf ns nq [] = [] := rfl

theorem Cands.selected {q k : PyVal} {ms : MinSim} {E1 E : List Entry} {m : Shared}
    {nq : List Char} {kk : ℤ} (hb : Base cf un st q k ms nq) (hk : k = .int kk) {CE : List Entry}
    (hc : Cands st E1 E m nq CE) :
    FInv cf un st q k ms E1 E m (selected kk.toNat (pairsOf (sizesOf st) nq CE)) := by
  refine ⟨nq, kk, hb, hk, CE, [], _, hc, rfl, ?_, rfl⟩
  rw [List.map_take, sortedOf_map]

/-- A step of the thread keeps the invariant. -/
theorem FInv.step {q k : PyVal} {ms : MinSim} {E1 E : List Entry} {m : Shared}
    {ord : List (List Char) → List (List Char)} (hord : ∀ l, (ord l).Perm l)
    (hg : Good cf un st E) (hs : Sound st m E) (h1 : ∀ e ∈ E1, e ∈ E ∧ Complete st m e)
    {p : FindPc} (h : FInv cf un st q k ms E1 E m p) :
    FInv cf un st q k ms E1 E m (findStep cf un ord q k ms m p) := by
  have hE1 : ∀ e ∈ E1, e ∈ E := fun e he => (h1 e he).1
  have hl := hs.like
  cases p with
  | enter =>
    -- the argument checks, with all of `E` as the witness
    have err : ∀ r, r = (absFind (st.key cf un) (sizesOf st) (E.map (fun e => e.m)) q k ms).mapError
        Err.py → Final cf un st q k ms E1 E r :=
      fun r hr => Or.inr ⟨E, List.Sublist.refl _, hE1, hr⟩
    cases q with
    | int i => exact err _ (by cases k <;> rfl)
    | other => exact err _ (by cases k <;> rfl)
    | str qs =>
      cases k with
      | str w => exact err _ rfl
      | other => exact err _ rfl
      | int kk =>
        simp only [findStep]
        by_cases hk : kk ≤ 0
        · rw [if_pos hk]
          exact err _ (by simp [absFind, hk]; rfl)
        rw [if_neg hk]
        by_cases ha : ms.accepted = true
        · have ha' := (accepted_iff ms).1 ha
          have ha'' : ¬ (kk ≤ 0 ∨ ms = .bad ∨ ∃ x, ms = .num x ∧ ¬ (0 ≤ x ∧ x ≤ 1)) := by
            rw [not_or]; exact ⟨hk, ha'⟩
          rw [ha]
          simp only
          by_cases hq : qs = []
          · rw [if_pos (Or.inl hq)]
            exact err _ (by simp only [absFind, if_neg ha'', if_pos (Or.inl hq)]; rfl)
          by_cases hv : m.vocab = []
          · rw [if_pos (Or.inr hv)]
            refine Or.inr ⟨[], List.nil_sublist _, ?_, ?_⟩
            · intro e he
              have := (h1 e he).2.2.1
              rw [hv] at this
              cases this
            · simp only [absFind, if_neg ha'', List.map_nil]
              rw [if_pos (Or.inr trivial)]; rfl
          rw [if_neg (by rw [not_or]; exact ⟨hq, hv⟩), hl.normalize, normalizeWord_eq]
          have hEne : E.map (fun e => e.m) ≠ [] := by
            rw [ne_eq, List.map_eq_nil_iff]; exact hs.vocab hv
          have hqE : ¬ (qs = [] ∨ E.map (fun e => e.m) = []) := by
            rw [not_or]; exact ⟨hq, hEne⟩
          cases hkey : keyOf st.caseSensitive cf un qs with
          | none =>
            simp only
            exact err _ (by
              simp only [absFind, if_neg ha'', if_neg hqE, WS.key, hkey]; rfl)
          | some nq =>
            simp only
            by_cases hnq : nq = []
            · rw [if_pos hnq]
              exact err _ (by
                simp only [absFind, if_neg ha'', if_neg hqE, WS.key, hkey, if_pos hnq]; rfl)
            rw [if_neg hnq]
            have hb : Base cf un st (.str qs) (.int kk) ms nq :=
              ⟨qs, kk, rfl, rfl, not_le.1 hk, ha, hq, hkey, hnq⟩
            rw [hl.2.2]
            cases hf : st.filterN with
            | none => exact ⟨hb, hf⟩
            | some f =>
              have hfp := hg.filterPos hf
              simp only
              rw [wsGrams_eq hfp]
              by_cases hgs : (grams f.toNat nq).dedup = []
              · rw [if_pos hgs]
                refine err _ ?_
                rw [absFind_base hb rfl, ranked_nil]
                · rfl
                · intro m' hm' hc
                  unfold Candidate at hc
                  rw [hg.filterSize hf] at hc
                  obtain ⟨g, hg1, _⟩ := hc
                  rw [← List.mem_dedup, hgs] at hg1
                  cases hg1
              · rw [if_neg hgs]
                refine ⟨hb, f, [], hf, rfl, by simp, by simp, by simp, ?_, ?_⟩
                · intro e he g hg1 hg2
                  exact absurd ((hord _).mem_iff.2 (List.mem_dedup.2 hg1)) hg2
                · intro g hg1
                  exact List.mem_dedup.1 ((hord _).mem_iff.1 hg1)
        · have hn := not_not.1 (mt (accepted_iff ms).2 ha)
          rw [Bool.not_eq_true] at ha
          rw [ha]
          exact err _ (by simp only [absFind]; rw [if_pos (Or.inr hn)]; rfl)
  | collect nq gs cand =>
    obtain ⟨hb, f, CE, hf, rfl, hc⟩ := h
    cases gs with
    | nil =>
      have hcs := hc.cands hg hf
      simp only [findStep]
      split
      · rename_i hnil
        rw [List.map_eq_nil_iff] at hnil
        subst hnil
        obtain ⟨kk, hk⟩ := hb.int
        have := final_of_cands hg hE1 hb hk hcs
        rw [sortedOf_nil, List.take_nil, List.map_nil] at this
        exact this
      · exact ⟨hb, [], CE, hcs, rfl, rfl⟩
    | cons g gs =>
      simp only [findStep]
      cases hi : Dict.get? m.index g with
      | none =>
        refine ⟨hb, f, CE, hf, rfl, hc.nodup, hc.sub, hc.gram, ?_,
          fun g' hg' => hc.todo g' (List.mem_cons_of_mem _ hg')⟩
        intro e he g' hg1 hg2 hg3
        by_cases hgg : g' = g
        · subst hgg
          obtain ⟨a, ha, _⟩ := (h1 e he).2.2.2.2 f hf g' hg3
          rw [hi] at ha; cases ha
        · exact hc.all e he g' hg1 (by simp [hgg, hg2]) hg3
      | some a => exact ⟨hb, f, g, CE, hf, rfl, hc, hi⟩
  | test nq a gs cand =>
    obtain ⟨hb, f, g, CE, hf, rfl, hc, hi⟩ := h
    simp only [findStep]
    split
    · rename_i hnil
      refine ⟨hb, f, CE, hf, rfl, hc.nodup, hc.sub, hc.gram, ?_,
        fun g' hg' => hc.todo g' (List.mem_cons_of_mem _ hg')⟩
      intro e he g' hg1 hg2 hg3
      by_cases hgg : g' = g
      · subst hgg
        obtain ⟨a', ha, hid⟩ := (h1 e he).2.2.2.2 f hf g' hg3
        rw [hi] at ha; injection ha with ha; subst ha
        rw [hnil] at hid; cases hid
      · exact hc.all e he g' hg1 (by simp [hgg, hg2]) hg3
    · exact ⟨hb, f, g, CE, hf, rfl, hc, hi⟩
  | update nq a gs cand =>
    obtain ⟨hb, f, g, CE, hf, rfl, hc, hi⟩ := h
    simp only [findStep]
    refine ⟨hb, f, ?_⟩
    -- the entries of the ids
    have hex : ∀ i ∈ (CE.map (fun e => e.id) ++ m.ids a).dedup, ∃ e, e ∈ E ∧ e.id = i ∧
        Ready st m e ∧ ∃ g ∈ grams f.toNat nq, g ∈ grams f.toNat e.m.key := by
      intro i hi'
      rcases List.mem_append.1 (List.mem_dedup.1 hi') with hi' | hi'
      · obtain ⟨e, he, rfl⟩ := List.mem_map.1 hi'
        exact ⟨e, (hc.sub e he).1, rfl, (hc.sub e he).2, hc.gram e he⟩
      · obtain ⟨e, he, hid, hr, f', hf', hm⟩ := hs.index g a i hi hi'
        rw [hf] at hf'
        injection hf' with hf'
        subst hf'
        exact ⟨e, he, hid, hr, g, hc.todo g List.mem_cons_self, hm⟩
    obtain ⟨CE', hCE', hid⟩ : ∃ CE' : List Entry, (∀ e ∈ CE', e ∈ E ∧ Ready st m e ∧
        ∃ g ∈ grams f.toNat nq, g ∈ grams f.toNat e.m.key) ∧
        CE'.map (fun e => e.id) = (CE.map (fun e => e.id) ++ m.ids a).dedup := by
      generalize (CE.map (fun e => e.id) ++ m.ids a).dedup = l at hex
      induction l with
      | nil => exact ⟨[], by simp, rfl⟩
      | cons i l ih =>
        obtain ⟨CE', h2, h3⟩ := ih (fun j hj => hex j (List.mem_cons_of_mem _ hj))
        obtain ⟨e, he, hid, hr⟩ := hex i List.mem_cons_self
        refine ⟨e :: CE', ?_, by simp [hid, h3]⟩
        intro e' he'
        rcases List.mem_cons.1 he' with rfl | he'
        · exact ⟨he, hr⟩
        · exact h2 e' he'
    refine ⟨CE', hf, hid.symm, by rw [hid]; exact List.nodup_dedup _,
      fun e he => ⟨(hCE' e he).1, (hCE' e he).2.1⟩, fun e he => (hCE' e he).2.2, ?_,
      fun g' hg' => hc.todo g' (List.mem_cons_of_mem _ hg')⟩
    intro e he g' hg1 hg2 hg3
    have hin : e.id ∈ CE'.map (fun e => e.id) := by
      rw [hid, List.mem_dedup, List.mem_append]
      by_cases hgg : g' = g
      · subst hgg
        obtain ⟨a', ha, hid⟩ := (h1 e he).2.2.2.2 f hf g' hg3
        rw [hi] at ha; injection ha with ha; subst ha
        exact Or.inr hid
      · exact Or.inl (List.mem_map.2 ⟨e, hc.all e he g' hg1 (by simp [hgg, hg2]) hg3, rfl⟩)
    obtain ⟨e', he', hid'⟩ := List.mem_map.1 hin
    rwa [id_inj hg.ids (hCE' e' he').1 (hE1 e he) hid'] at he'
  | scan nq ids scored =>
    obtain ⟨hb, D, R, hc, rfl, rfl⟩ := h
    obtain ⟨kk, hk⟩ := hb.int
    cases R with
    | nil =>
      rw [List.append_nil] at hc
      subst hk
      simp only [List.map_nil, findStep]
      exact hc.selected hb rfl
    | cons e R =>
      obtain ⟨he, hr⟩ := hc.sub e (by simp)
      simp only [List.map_cons, findStep, scoreWith_ready hg hl he hr]
      exact ⟨hb, D ++ [e], R, by simpa using hc, rfl, rfl⟩
  | iter nq =>
    obtain ⟨hb, hf⟩ := h
    obtain ⟨Ei, h2, h3, h4⟩ := hs.info
    refine ⟨hb, hf, [], Ei, ⟨h3, h2, ?_, ?_⟩, ?_, ?_, rfl, rfl⟩
    · intro e _ ht
      unfold Candidate
      rw [hg.filterSize_none hf]
      exact ht
    · intro e he _
      have := (h1 e he).2.2.2.1
      rw [h4] at this
      obtain ⟨e', he', hp⟩ := List.mem_map.1 this
      simp only [Prod.mk.injEq] at hp
      rw [id_inj hg.ids (h2 e' he').1 (hE1 e he) hp.1] at he'
      exact he'
    · rw [List.nil_append, h4]
    · rw [h4]; simp
  | next nq size pos scored =>
    obtain ⟨hb, hf, D, R, hc, hp, rfl, rfl, rfl⟩ := h
    obtain ⟨kk, hk⟩ := hb.int
    simp only [findStep]
    split
    · exact Or.inl ⟨hf, rfl⟩
    · rename_i hlen
      rw [not_not] at hlen
      have hinfo : m.info = (D ++ R).map (fun e => (e.id, st.computeInfo e.m.key)) :=
        (hp.eq_of_length (by rw [List.length_map, hlen])).symm
      cases R with
      | nil =>
        have : m.info[D.length]? = none := by
          rw [List.getElem?_eq_none_iff, hlen]; simp
        rw [this]
        subst hk
        rw [List.append_nil] at hc
        exact hc.selected hb rfl
      | cons e R =>
        have : m.info[D.length]? = some (e.id, st.computeInfo e.m.key) := by
          rw [hinfo]; simp
        rw [this]
        exact ⟨hb, hf, D, e, R, hc, hp, rfl, rfl, rfl, rfl⟩
  | live nq size pos id scored =>
    obtain ⟨hb, hf, D, e, R, hc, hp, rfl, rfl, rfl, rfl⟩ := h
    obtain ⟨he, hr⟩ := hc.sub e (by simp)
    simp only [findStep, scoreWith_ready hg hl he hr]
    exact ⟨hb, hf, D ++ [e], R, by simpa using hc, by simpa using hp, by simp, by simp, rfl⟩
  | pick todo res =>
    obtain ⟨nq, kk, hb, hk, CE, Rd, Rr, hc, ht, rfl, rfl⟩ := h
    cases Rr with
    | nil =>
      simp only [List.map_nil, findStep]
      rw [List.append_nil] at ht
      rw [← ht]
      exact final_of_cands hg hE1 hb hk hc
    | cons e Rr =>
      have he : e ∈ CE := by
        apply mem_sortedOf (ns := sizesOf st) (nq := nq)
        apply List.mem_of_mem_take (i := kk.toNat)
        rw [ht]; simp
      have hr := (hc.sub e he).2.2
      simp only [List.map_cons, findStep]
      have : (pairOf (sizesOf st) nq e).2 = e.id := rfl
      rw [this, hr]
      refine ⟨nq, kk, hb, hk, CE, Rd ++ [e], Rr, hc, by simpa using ht, rfl, ?_⟩
      simp [pairOf]
  | done r => exact h

end Conc
end Verif
