import Verif.Conc.System

/-!
# The memory during a call of `discard`
-/

namespace Verif
namespace Conc

open GramSpec WordSetSpec

variable {cf : List Char → List Char} {un : Normalizer} {st : WS}

/-- The entries without `e`. -/
def without (E : List Entry) (e : Entry) : List Entry := E.filter (fun x => x.m.key ≠ e.m.key)

theorem without_sublist (E : List Entry) (e : Entry) : (without E e).Sublist E := List.filter_sublist

/-- A call of `discard` is in progress, removing `e` from `E0`. -/
def PendD (st : WS) (m : Shared) (E0 : List Entry) (e : Entry) : DiscardPc → Prop
  | .enter => False
  | .popVocab nw => nw = e.m.key ∧ MRep st m E0 E0 E0 (InIdx st E0) none
  | .delOriginal id => id = e.id ∧ MRep st m (without E0 e) E0 E0 (InIdx st E0) none
  | .popInfo id => id = e.id ∧ MRep st m (without E0 e) (without E0 e) E0 (InIdx st E0) none
  | .test id gs => id = e.id ∧ ∃ f, st.filterN = some f ∧ gs.Nodup ∧
      (∀ g ∈ gs, g ∈ grams f.toNat e.m.key) ∧
      MRep st m (without E0 e) (without E0 e) (without E0 e)
        (Part st (without E0 e) e (fun g => g ∈ gs)) none
  | .fetch id g gs => id = e.id ∧ ∃ f, st.filterN = some f ∧ (g :: gs).Nodup ∧
      (∀ h ∈ g :: gs, h ∈ grams f.toNat e.m.key) ∧
      MRep st m (without E0 e) (without E0 e) (without E0 e)
        (Part st (without E0 e) e (fun h => h ∈ g :: gs)) none
  | .drop id a g gs => id = e.id ∧ ∃ f, st.filterN = some f ∧ (g :: gs).Nodup ∧
      (∀ h ∈ g :: gs, h ∈ grams f.toNat e.m.key) ∧
      MRep st m (without E0 e) (without E0 e) (without E0 e)
        (Part st (without E0 e) e (fun h => h ∈ g :: gs)) none ∧ Dict.get? m.index g = some a
  | .empty id a g gs => id = e.id ∧ ∃ f, st.filterN = some f ∧ (g :: gs).Nodup ∧
      (∀ h ∈ g :: gs, h ∈ grams f.toNat e.m.key) ∧
      MRep st m (without E0 e) (without E0 e) (without E0 e)
        (Part st (without E0 e) e (fun h => h ∈ gs)) (some g) ∧ Dict.get? m.index g = some a
  | .del id g gs => id = e.id ∧ ∃ f, st.filterN = some f ∧ (g :: gs).Nodup ∧
      (∀ h ∈ g :: gs, h ∈ grams f.toNat e.m.key) ∧
      MRep st m (without E0 e) (without E0 e) (without E0 e)
        (Part st (without E0 e) e (fun h => h ∈ gs)) (some g) ∧
      ∃ a, Dict.get? m.index g = some a ∧ m.ids a = []
  | .done _ => False

theorem without_ids {E : List Entry} (h : Good cf un st E) {e : Entry} (he : e ∈ E) :
    E.filter (fun x => x.id ≠ e.id) = without E e := by
  apply List.filter_congr
  intro x hx
  by_cases hc : x.id = e.id
  · have := id_inj h.ids hx he hc
    subst this; simp
  · have : x.m.key ≠ e.m.key := fun hk => hc (by rw [key_inj h.nodup hx he hk])
    simp [hc, this]

theorem mem_without {E : List Entry} (h : Good cf un st E) {e : Entry} (he : e ∈ E) {x : Entry} :
    x ∈ without E e ↔ x ∈ E ∧ x ≠ e := by
  unfold without
  rw [List.mem_filter]
  constructor
  · rintro ⟨h1, h2⟩
    refine ⟨h1, ?_⟩
    rintro rfl
    simp at h2
  · rintro ⟨h1, h2⟩
    refine ⟨h1, ?_⟩
    have : x.m.key ≠ e.m.key := fun hk => h2 (key_inj h.nodup h1 he hk)
    simpa using this

theorem inIdx_without {E : List Entry} (h : Good cf un st E) {e : Entry} (he : e ∈ E) {f : ℤ}
    (hf : st.filterN = some f) (g : List Char) (i : ℕ) :
    InIdx st E g i ↔ Part st (without E e) e (fun g => g ∈ grams f.toNat e.m.key) g i := by
  unfold Part InIdx
  constructor
  · rintro ⟨x, hx, hid, f', hf', hg⟩
    by_cases hxe : x = e
    · subst hxe
      rw [hf] at hf'
      injection hf' with hf'
      subst hf'
      exact Or.inr ⟨hid.symm, hg⟩
    · exact Or.inl ⟨x, (mem_without h he).2 ⟨hx, hxe⟩, hid, f', hf', hg⟩
  · rintro (⟨x, hx, h1⟩ | ⟨rfl, hg⟩)
    · exact ⟨x, (without_sublist _ _).subset hx, h1⟩
    · exact ⟨e, he, rfl, f, hf, hg⟩

theorem not_inIdx_without {E : List Entry} (h : Good cf un st E) {e : Entry} (he : e ∈ E)
    (g : List Char) : ¬ InIdx st (without E e) g e.id := by
  rintro ⟨x, hx, hid, _⟩
  obtain ⟨h1, h2⟩ := (mem_without h he).1 hx
  exact h2 (id_inj h.ids h1 he hid)

theorem erase_map_key (E : List Entry) (e : Entry) :
    Dict.erase (E.map (fun e => (e.m.key, e.id))) e.m.key =
      (without E e).map (fun e => (e.m.key, e.id)) := by
  unfold Dict.erase without
  rw [List.filter_map]; rfl

theorem erase_map_id {β : Type} (F : Entry → β) {E : List Entry} (h : Good cf un st E) {e : Entry}
    (he : e ∈ E) : Dict.erase (E.map (fun e => (e.id, F e))) e.id =
      (without E e).map (fun e => (e.id, F e)) := by
  unfold Dict.erase
  rw [List.filter_map, ← without_ids h he]; rfl

/-- The thread makes a step. -/
theorem PendD.step {m : Shared} {E0 : List Entry} {e : Entry} (hg : Good cf un st E0) (he : e ∈ E0)
    (hb : ∀ e ∈ E0, e.id < m.counter)
    {p : DiscardPc} (h : PendD st m E0 e p) {ord : List (List Char) → List (List Char)}
    (hord : ∀ l, (ord l).Perm l) (v : PyVal) :
    (discardStep cf un ord v m p).1.counter = m.counter ∧
    (PendD st (discardStep cf un ord v m p).1 E0 e (discardStep cf un ord v m p).2 ∨
      ((discardStep cf un ord v m p).2 = .done (.ok ()) ∧
        Idle st (discardStep cf un ord v m p).1 (without E0 e))) := by
  have hbw : ∀ x ∈ without E0 e, x.id < m.counter := fun x hx => hb x ((without_sublist _ _).subset hx)
  cases p with
  | enter => exact h.elim
  | popVocab nw =>
    obtain ⟨rfl, h⟩ := h
    have hget : Dict.get? m.vocab e.m.key = some e.id := by
      rw [h.vocab]; exact (get?_map_key _ hg.nodup).2 ⟨e, he, rfl, rfl⟩
    simp only [discardStep, hget]
    refine ⟨trivial, Or.inl ⟨rfl, h.like, ?_, h.originals, h.info, h.addr, h.inj, h.idx, h.tot, h.ne⟩⟩
    simp only
    rw [h.vocab, erase_map_key]
  | delOriginal id =>
    obtain ⟨rfl, h⟩ := h
    have hhas : Dict.has m.originals e.id = true := by
      unfold Dict.has; rw [h.originals, get?_map_id hg.ids he]; rfl
    simp only [discardStep, hhas, if_true]
    refine ⟨trivial, Or.inl ⟨rfl, h.like, h.vocab, ?_, h.info, h.addr, h.inj, h.idx, h.tot, h.ne⟩⟩
    simp only
    rw [h.originals, erase_map_id _ hg he]
  | popInfo id =>
    obtain ⟨rfl, h⟩ := h
    have hget : Dict.get? m.info e.id = some (st.computeInfo e.m.key) := by
      rw [h.info, get?_map_id hg.ids he]
    simp only [discardStep, hget]
    refine ⟨trivial, ?_⟩
    have h5 : MRep st { m with info := Dict.erase m.info e.id } (without E0 e) (without E0 e)
        (without E0 e) (InIdx st E0) none := by
      refine ⟨h.like, h.vocab, h.originals, ?_, h.addr, h.inj, h.idx, h.tot, h.ne⟩
      simp only
      rw [h.info, erase_map_id _ hg he]
    have hfl : m.filterN.isSome = st.filterN.isSome := by rw [h.like.2.2]
    rw [hfl]
    cases hf : st.filterN with
    | none =>
      right
      refine ⟨rfl, h5.congr ?_, hbw⟩
      intro g i
      unfold InIdx
      simp [hf]
    | some f =>
      left
      have hfp := hg.filterPos hf
      simp only [Option.isSome_some, if_true]
      rw [filterGrams_eq hf hfp]
      refine ⟨rfl, f, hf, (hord _).nodup_iff.2 (List.nodup_dedup _), ?_, h5.congr ?_⟩
      · intro g hgm
        exact List.mem_dedup.1 ((hord _).mem_iff.1 hgm)
      · intro g i
        rw [inIdx_without hg he hf]
        unfold Part
        simp only [(hord _).mem_iff, List.mem_dedup]
  | test id gs =>
    obtain ⟨rfl, f, hf, hn, hgs, h⟩ := h
    cases gs with
    | nil =>
      refine ⟨rfl, Or.inr ⟨rfl, h.congr ?_, hbw⟩⟩
      intro g i
      unfold Part
      simp
    | cons g gs =>
      have hhas : Dict.has m.index g = true := by
        obtain ⟨a, ha⟩ := h.tot g e.id (Or.inr ⟨rfl, by simp⟩)
        unfold Dict.has; rw [ha]; rfl
      simp only [discardStep, hhas, if_true]
      exact ⟨trivial, Or.inl ⟨rfl, f, hf, hn, hgs, h⟩⟩
  | fetch id g gs =>
    obtain ⟨rfl, f, hf, hn, hgs, h⟩ := h
    obtain ⟨a, ha⟩ := h.tot g e.id (Or.inr ⟨rfl, by simp⟩)
    simp only [discardStep, ha]
    exact ⟨trivial, Or.inl ⟨rfl, f, hf, hn, hgs, h, ha⟩⟩
  | drop id a g gs =>
    obtain ⟨rfl, f, hf, hn, hgs, h, ha⟩ := h
    have hlt := h.addr g a ha
    have hmem : ∀ b i, i ∈ (m.modify a fun bm => bm.filter (fun i => i ≠ e.id)).ids b ↔
        i ∈ m.ids b ∧ ¬ (a = b ∧ i = e.id) := by
      intro b i
      rw [ids_modify]
      by_cases hab : a = b
      · subst hab
        rw [if_pos ⟨rfl, hlt⟩]
        simp [List.mem_filter]
      · rw [if_neg (fun h => hab h.1)]
        simp [hab]
    refine ⟨rfl, Or.inl ⟨rfl, f, hf, hn, hgs, ?_, ha⟩⟩
    refine ⟨h.like, h.vocab, h.originals, h.info, ?_, h.inj, ?_, ?_, ?_⟩
    · intro h' b hb'
      have := h.addr h' b hb'
      simpa [discardStep, Shared.modify] using this
    · intro h' b hb' i
      simp only [discardStep]
      rw [hmem, h.idx h' b hb']
      unfold Part
      constructor
      · rintro ⟨h1 | ⟨h1, h2⟩, h3⟩
        · exact Or.inl h1
        · rcases List.mem_cons.1 h2 with h2 | h2
          · subst h2
            have hab : a = b := by
              have := ha.symm.trans hb'
              injection this
            exact absurd ⟨hab, h1⟩ h3
          · exact Or.inr ⟨h1, h2⟩
      · rintro (h1 | ⟨h1, h2⟩)
        · refine ⟨Or.inl h1, ?_⟩
          rintro ⟨_, rfl⟩
          exact not_inIdx_without hg he _ h1
        · refine ⟨Or.inr ⟨h1, List.mem_cons_of_mem _ h2⟩, ?_⟩
          rintro ⟨rfl, _⟩
          have := h.inj _ _ _ ha hb'
          subst this
          exact (List.nodup_cons.1 hn).1 h2
    · intro h' i hi
      apply h.tot h' i
      rcases hi with hi | ⟨h1, h2⟩
      · exact Or.inl hi
      · exact Or.inr ⟨h1, List.mem_cons_of_mem _ h2⟩
    · intro h' b hb' hem
      by_cases hab : a = b
      · subst hab
        rw [h.inj _ _ _ ha hb']
      · exfalso
        have : m.ids b = [] := by
          cases hc : m.ids b with
          | nil => rfl
          | cons i l =>
            have := (hmem b i).2 ⟨by rw [hc]; simp, fun h => hab h.1⟩
            simp only [discardStep] at hem
            rw [hem] at this; cases this
        exact absurd (h.ne h' b hb' this) (by simp)
  | empty id a g gs =>
    obtain ⟨rfl, f, hf, hn, hgs, h, ha⟩ := h
    simp only [discardStep]
    split
    · rename_i hem
      exact ⟨rfl, Or.inl ⟨rfl, f, hf, hn, hgs, h, a, ha, hem⟩⟩
    · rename_i hem
      refine ⟨rfl, Or.inl ⟨rfl, f, hf, (List.nodup_cons.1 hn).2,
        fun h hh => hgs h (List.mem_cons_of_mem _ hh), h.like, h.vocab, h.originals, h.info, h.addr,
        h.inj, h.idx, h.tot, ?_⟩⟩
      intro h' b hb' hb0
      have := h.ne h' b hb' hb0
      injection this with this
      subst this
      have hab : a = b := by
        have := ha.symm.trans hb'
        injection this
      subst hab
      exact absurd hb0 hem
  | del id g gs =>
    obtain ⟨rfl, f, hf, hn, hgs, h, a, ha, hem⟩ := h
    have hhas : Dict.has m.index g = true := by unfold Dict.has; rw [ha]; rfl
    simp only [discardStep, hhas, if_true]
    have hget : ∀ h' b, Dict.get? (Dict.erase m.index g) h' = some b →
        g ≠ h' ∧ Dict.get? m.index h' = some b := by
      intro h' b hb'
      rw [Dict.get?_erase] at hb'
      split at hb'
      · cases hb'
      · rename_i hne; exact ⟨hne, hb'⟩
    refine ⟨trivial, Or.inl ⟨rfl, f, hf, (List.nodup_cons.1 hn).2,
      fun h hh => hgs h (List.mem_cons_of_mem _ hh), h.like, h.vocab, h.originals, h.info, ?_, ?_, ?_,
      ?_, ?_⟩⟩
    · intro h' b hb'
      exact h.addr h' b (hget h' b hb').2
    · intro h' h'' b hb' hb''
      exact h.inj _ _ b (hget h' b hb').2 (hget h'' b hb'').2
    · intro h' b hb'
      exact h.idx h' b (hget h' b hb').2
    · intro h' i hi
      obtain ⟨b, hb'⟩ := h.tot h' i hi
      simp only
      rw [Dict.get?_erase]
      split
      · rename_i hgh
        subst hgh
        have := (h.idx g a ha i).2 hi
        rw [hem] at this; cases this
      · exact ⟨b, hb'⟩
    · intro h' b hb' hb0
      obtain ⟨h1, h2⟩ := hget h' b hb'
      have := h.ne h' b h2 hb0
      injection this with this
      exact absurd this h1
  | done r => exact h.elim

/-- The beginning of `discard`. -/
theorem Idle.enterD {m : Shared} {E : List Entry} (h : Idle st m E)
    (ord : List (List Char) → List (List Char)) (v : PyVal) :
    (discardStep cf un ord v m .enter).1 = m ∧
    ((∃ r, (discardStep cf un ord v m .enter).2 = .done r ∧
        (absDiscard (st.key cf un) (mems E) v).1 = mems E ∧
        r = (absDiscard (st.key cf un) (mems E) v).2) ∨
      ∃ e ∈ E, PendD st m E e (discardStep cf un ord v m .enter).2 ∧
        (absDiscard (st.key cf un) (mems E) v).1 = mems (without E e) ∧
        (absDiscard (st.key cf un) (mems E) v).2 = .ok ()) := by
  cases v with
  | int i => exact ⟨rfl, Or.inl ⟨_, rfl, rfl, rfl⟩⟩
  | other => exact ⟨rfl, Or.inl ⟨_, rfl, rfl, rfl⟩⟩
  | str w =>
    simp only [discardStep, h.1.like.normalize, normalizeWord_eq]
    cases hk : keyOf st.caseSensitive cf un w with
    | none =>
      refine ⟨rfl, Or.inl ⟨_, rfl, ?_⟩⟩
      simp [absDiscard, WS.key, hk]
    | some nw =>
      have habs : absDiscard (st.key cf un) (mems E) (.str w) = (delete (mems E) nw, .ok ()) := by
        simp [absDiscard, WS.key, hk]
      rw [habs]
      simp only
      have hmem : Dict.has m.vocab nw = true ↔ Mem (mems E) nw := by
        rw [Dict.has_iff, h.1.vocab]
        unfold Dict.keys Mem
        simp only [List.map_map, List.mem_map]
        constructor
        · rintro ⟨e, he, hke⟩; exact ⟨e.m, ⟨e, he, rfl⟩, hke⟩
        · rintro ⟨m, ⟨e, he, rfl⟩, hke⟩; exact ⟨e, he, hke⟩
      by_cases hm : Mem (mems E) nw
      · rw [if_pos (hmem.2 hm)]
        obtain ⟨x, hx, rfl⟩ := hm
        obtain ⟨e, he, rfl⟩ := List.mem_map.1 hx
        refine ⟨rfl, Or.inr ⟨e, he, ⟨rfl, h.1⟩, ?_, trivial⟩⟩
        unfold WordSetSpec.delete without
        rw [List.filter_map]; rfl
      · rw [if_neg (fun hc => hm (hmem.1 hc))]
        refine ⟨rfl, Or.inl ⟨_, rfl, ?_, rfl⟩⟩
        unfold WordSetSpec.delete
        rw [List.filter_eq_self]
        intro x hx
        simp only [ne_eq, decide_not, Bool.not_eq_true', decide_eq_false_iff_not]
        exact fun hc => hm ⟨x, hx, hc⟩

end Conc
end Verif
