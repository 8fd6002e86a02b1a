import Verif.Conc.Find

/-!
# The memory during a call of `add`
-/

namespace Verif
namespace Conc

open GramSpec WordSetSpec

variable {cf : List Char → List Char} {un : Normalizer} {st : WS}

/-- The pairs of n-gram and id to be indexed. -/
def InIdx (st : WS) (E : List Entry) (g : List Char) (i : ℕ) : Prop :=
  ∃ e ∈ E, e.id = i ∧ ∃ f, st.filterN = some f ∧ g ∈ grams f.toNat e.m.key

/-- The memory stores the vocabulary of `Ev`, the original words of `Eo`, the information on `Ei`, and
the index `I`; only the bitmap of `x` may be empty. -/
structure MRep (st : WS) (m : Shared) (Ev Eo Ei : List Entry) (I : List Char → ℕ → Prop)
    (x : Option (List Char)) : Prop where
  like : Like st m
  vocab : m.vocab = Ev.map (fun e => (e.m.key, e.id))
  originals : m.originals = Eo.map (fun e => (e.id, e.m.orig))
  info : m.info = Ei.map (fun e => (e.id, st.computeInfo e.m.key))
  addr : ∀ g a, Dict.get? m.index g = some a → a < m.maps.length
  inj : ∀ g g' a, Dict.get? m.index g = some a → Dict.get? m.index g' = some a → g = g'
  idx : ∀ g a, Dict.get? m.index g = some a → ∀ i, i ∈ m.ids a ↔ I g i
  tot : ∀ g i, I g i → ∃ a, Dict.get? m.index g = some a
  ne : ∀ g a, Dict.get? m.index g = some a → m.ids a = [] → x = some g

theorem MRep.congr {m : Shared} {Ev Eo Ei : List Entry} {I I' : List Char → ℕ → Prop}
    {x : Option (List Char)} (h : MRep st m Ev Eo Ei I x) (hI : ∀ g i, I g i ↔ I' g i) :
    MRep st m Ev Eo Ei I' x :=
  ⟨h.like, h.vocab, h.originals, h.info, h.addr, h.inj,
    fun g a hg i => (h.idx g a hg i).trans (hI g i), fun g i hi => h.tot g i ((hI g i).2 hi), h.ne⟩

/-- The index while `e` is being added: that of `E0`, and `e` for the n-grams in `P`. -/
def Part (st : WS) (E0 : List Entry) (e : Entry) (P : List Char → Prop) (g : List Char) (i : ℕ) :
    Prop := InIdx st E0 g i ∨ (i = e.id ∧ P g)

/-- No call of `add` is in progress. -/
def Idle (st : WS) (m : Shared) (E : List Entry) : Prop :=
  MRep st m E E E (InIdx st E) none ∧ ∀ e ∈ E, e.id < m.counter

/-- A call of `add` is in progress, storing `e`. -/
def Pend (st : WS) (m : Shared) (E0 : List Entry) (e : Entry) : AddPc → Prop
  | .enter => False
  | .readId w nw => e.m = ⟨nw, w⟩ ∧ m.counter = e.id ∧
      MRep st m E0 E0 E0 (Part st E0 e (fun _ => False)) none
  | .readCounter w nw id => e.m = ⟨nw, w⟩ ∧ id = e.id ∧ m.counter = e.id ∧
      MRep st m E0 E0 E0 (Part st E0 e (fun _ => False)) none
  | .writeCounter w nw id c => e.m = ⟨nw, w⟩ ∧ id = e.id ∧ m.counter = e.id ∧ c = e.id ∧
      MRep st m E0 E0 E0 (Part st E0 e (fun _ => False)) none
  | .setVocab w nw id => e.m = ⟨nw, w⟩ ∧ id = e.id ∧ m.counter = e.id + 1 ∧
      MRep st m E0 E0 E0 (Part st E0 e (fun _ => False)) none
  | .setOriginal w nw id => e.m = ⟨nw, w⟩ ∧ id = e.id ∧ m.counter = e.id + 1 ∧
      MRep st m (E0 ++ [e]) E0 E0 (Part st E0 e (fun _ => False)) none
  | .setInfo nw id => e.m.key = nw ∧ id = e.id ∧ m.counter = e.id + 1 ∧
      MRep st m (E0 ++ [e]) (E0 ++ [e]) E0 (Part st E0 e (fun _ => False)) none
  | .test id gs => id = e.id ∧ m.counter = e.id + 1 ∧ ∃ f, st.filterN = some f ∧ gs.Nodup ∧
      (∀ g ∈ gs, g ∈ grams f.toNat e.m.key) ∧
      MRep st m (E0 ++ [e]) (E0 ++ [e]) (E0 ++ [e])
        (Part st E0 e (fun g => g ∈ grams f.toNat e.m.key ∧ g ∉ gs)) none
  | .create id g gs => id = e.id ∧ m.counter = e.id + 1 ∧ ∃ f, st.filterN = some f ∧ (g :: gs).Nodup ∧
      (∀ h ∈ g :: gs, h ∈ grams f.toNat e.m.key) ∧
      MRep st m (E0 ++ [e]) (E0 ++ [e]) (E0 ++ [e])
        (Part st E0 e (fun h => h ∈ grams f.toNat e.m.key ∧ h ∉ g :: gs)) none ∧
      Dict.get? m.index g = none
  | .fetch id g gs => id = e.id ∧ m.counter = e.id + 1 ∧ ∃ f, st.filterN = some f ∧ (g :: gs).Nodup ∧
      (∀ h ∈ g :: gs, h ∈ grams f.toNat e.m.key) ∧
      MRep st m (E0 ++ [e]) (E0 ++ [e]) (E0 ++ [e])
        (Part st E0 e (fun h => h ∈ grams f.toNat e.m.key ∧ h ∉ g :: gs)) (some g) ∧
      ∃ a, Dict.get? m.index g = some a
  | .put id a gs => id = e.id ∧ m.counter = e.id + 1 ∧ ∃ f g, st.filterN = some f ∧ (g :: gs).Nodup ∧
      (∀ h ∈ g :: gs, h ∈ grams f.toNat e.m.key) ∧
      MRep st m (E0 ++ [e]) (E0 ++ [e]) (E0 ++ [e])
        (Part st E0 e (fun h => h ∈ grams f.toNat e.m.key ∧ h ∉ g :: gs)) (some g) ∧
      Dict.get? m.index g = some a
  | .done _ => False

/-! ## What the memory tells a reader -/

theorem MRep.ready {m : Shared} {E Ev Eo Ei : List Entry} {I : List Char → ℕ → Prop}
    {x : Option (List Char)} (h : MRep st m Ev Eo Ei I x) (hg : Good cf un st E)
    (h1 : Ei.Sublist Eo) (h2 : Eo.Sublist E) {e : Entry} (he : e ∈ Ei) : Ready st m e := by
  constructor
  · rw [h.info]; exact get?_map_id (hg.ids.sublist (h1.trans h2)) he
  · rw [h.originals]; exact get?_map_id (hg.ids.sublist h2) (h1.subset he)

theorem MRep.sound {m : Shared} {E Ev Eo Ei : List Entry} {I : List Char → ℕ → Prop}
    {x : Option (List Char)} (h : MRep st m Ev Eo Ei I x) (hg : Good cf un st E)
    (h1 : Ei.Sublist Eo) (h2 : Eo.Sublist Ev) (h3 : Ev.Sublist E)
    (hI : ∀ g i, I g i → InIdx st Ei g i) : Sound st m E := by
  refine ⟨h.like, ?_, ?_, Ei, ?_, nodup_ids (hg.ids.sublist (h1.trans (h2.trans h3))), h.info⟩
  · intro hv hE
    rw [hE, List.sublist_nil] at h3
    rw [h.vocab, h3] at hv
    exact hv rfl
  · intro g a i hi hm
    obtain ⟨e, he, hid, hf⟩ := hI g i ((h.idx g a hi i).1 hm)
    exact ⟨e, (h1.trans (h2.trans h3)).subset he, hid, h.ready hg h1 (h2.trans h3) he, hf⟩
  · intro e he
    exact ⟨(h1.trans (h2.trans h3)).subset he, h.ready hg h1 (h2.trans h3) he⟩

theorem MRep.complete {m : Shared} {E Ev Eo Ei : List Entry} {I : List Char → ℕ → Prop}
    {x : Option (List Char)} (h : MRep st m Ev Eo Ei I x) (hg : Good cf un st E)
    (h1 : Ei.Sublist Eo) (h2 : Eo.Sublist Ev) (h3 : Ev.Sublist E) {E1 : List Entry}
    (hE1 : E1.Sublist Ei) (hI : ∀ g i, InIdx st E1 g i → I g i) {e : Entry} (he : e ∈ E1) :
    Complete st m e := by
  have hei := hE1.subset he
  refine ⟨h.ready hg h1 (h2.trans h3) hei, ?_, ?_, ?_⟩
  · rw [h.vocab]; exact List.mem_map.2 ⟨e, (h1.trans h2).subset hei, rfl⟩
  · rw [h.info]; exact List.mem_map.2 ⟨e, hei, rfl⟩
  · intro f hf g hgm
    have hin : I g e.id := hI g _ ⟨e, he, rfl, f, hf, hgm⟩
    obtain ⟨a, ha⟩ := h.tot g _ hin
    exact ⟨a, ha, (h.idx g a ha _).2 hin⟩

theorem Idle.sound {m : Shared} {E : List Entry} (h : Idle st m E) (hg : Good cf un st E) :
    Sound st m E :=
  h.1.sound hg (List.Sublist.refl _) (List.Sublist.refl _) (List.Sublist.refl _) (fun _ _ h => h)

theorem Idle.complete {m : Shared} {E : List Entry} (h : Idle st m E) (hg : Good cf un st E) :
    ∀ e ∈ E, Complete st m e := fun _ he =>
  h.1.complete hg (List.Sublist.refl _) (List.Sublist.refl _) (List.Sublist.refl _)
    (List.Sublist.refl _) (fun _ _ h => h) he

theorem part_le {E0 : List Entry} {e : Entry} {P : List Char → Prop} {f : ℤ}
    (hf : st.filterN = some f) (hP : ∀ g, P g → g ∈ grams f.toNat e.m.key) (g : List Char) (i : ℕ)
    (h : Part st E0 e P g i) : InIdx st (E0 ++ [e]) g i := by
  rcases h with ⟨e', he', h⟩ | ⟨rfl, h⟩
  · exact ⟨e', List.mem_append_left _ he', h⟩
  · exact ⟨e, by simp, rfl, f, hf, hP g h⟩

theorem part_false {E0 : List Entry} {e : Entry} (g : List Char) (i : ℕ)
    (h : Part st E0 e (fun _ => False) g i) : InIdx st E0 g i := by
  rcases h with h | ⟨_, h⟩
  · exact h
  · exact h.elim

theorem Pend.sound {m : Shared} {E0 : List Entry} {e : Entry} (hg : Good cf un st (E0 ++ [e]))
    {p : AddPc} (h : Pend st m E0 e p) :
    Sound st m (E0 ++ [e]) ∧ ∀ e' ∈ E0, Complete st m e' := by
  have s1 : E0.Sublist (E0 ++ [e]) := List.sublist_append_left _ _
  have r : ∀ l : List Entry, l.Sublist l := List.Sublist.refl
  have key : ∀ {Ev Eo Ei : List Entry} {I : List Char → ℕ → Prop} {x : Option (List Char)},
      MRep st m Ev Eo Ei I x → Ei.Sublist Eo → Eo.Sublist Ev → Ev.Sublist (E0 ++ [e]) →
      E0.Sublist Ei → (∀ g i, I g i → InIdx st Ei g i) → (∀ g i, InIdx st E0 g i → I g i) →
      Sound st m (E0 ++ [e]) ∧ ∀ e' ∈ E0, Complete st m e' :=
    fun hm h1 h2 h3 h4 hI hI' => ⟨hm.sound hg h1 h2 h3 hI,
      fun _ he => hm.complete hg h1 h2 h3 h4 hI' he⟩
  cases p with
  | enter => exact h.elim
  | readId w nw => exact key h.2.2 (r _) (r _) s1 (r _) part_false (fun _ _ h => Or.inl h)
  | readCounter w nw id => exact key h.2.2.2 (r _) (r _) s1 (r _) part_false (fun _ _ h => Or.inl h)
  | writeCounter w nw id c =>
    exact key h.2.2.2.2 (r _) (r _) s1 (r _) part_false (fun _ _ h => Or.inl h)
  | setVocab w nw id => exact key h.2.2.2 (r _) (r _) s1 (r _) part_false (fun _ _ h => Or.inl h)
  | setOriginal w nw id => exact key h.2.2.2 (r _) s1 (r _) (r _) part_false (fun _ _ h => Or.inl h)
  | setInfo nw id => exact key h.2.2.2 s1 (r _) (r _) (r _) part_false (fun _ _ h => Or.inl h)
  | test id gs =>
    obtain ⟨_, _, f, hf, _, _, h⟩ := h
    exact key h (r _) (r _) (r _) s1 (part_le hf (fun g h => h.1)) (fun _ _ h => Or.inl h)
  | create id g gs =>
    obtain ⟨_, _, f, hf, _, _, h, _⟩ := h
    exact key h (r _) (r _) (r _) s1 (part_le hf (fun g h => h.1)) (fun _ _ h => Or.inl h)
  | fetch id g gs =>
    obtain ⟨_, _, f, hf, _, _, h, _⟩ := h
    exact key h (r _) (r _) (r _) s1 (part_le hf (fun g h => h.1)) (fun _ _ h => Or.inl h)
  | put id a gs =>
    obtain ⟨_, _, f, g, hf, _, _, h, _⟩ := h
    exact key h (r _) (r _) (r _) s1 (part_le hf (fun g h => h.1)) (fun _ _ h => Or.inl h)
  | done r => exact h.elim

/-! ## Steps of `add` -/

theorem not_mem_keys_id {E0 : List Entry} {e : Entry} {β : Type} {f : Entry → β}
    (h : (E0 ++ [e]).Pairwise (fun a b => a.id < b.id)) :
    e.id ∉ Dict.keys (E0.map (fun e => (e.id, f e))) := by
  unfold Dict.keys
  rw [List.map_map]
  intro hc
  obtain ⟨e', he', hc⟩ := List.mem_map.1 hc
  have := (List.pairwise_append.1 h).2.2 e' he' e (by simp)
  simp only [Function.comp_apply] at hc
  omega

theorem not_mem_keys_key {E0 : List Entry} {e : Entry}
    (h : ((E0 ++ [e]).map (fun e => e.m.key)).Nodup) :
    e.m.key ∉ Dict.keys (E0.map (fun e => (e.m.key, e.id))) := by
  unfold Dict.keys
  rw [List.map_map]
  rw [List.map_append, List.nodup_append] at h
  intro hc
  exact h.2.2 _ hc _ (by simp) rfl

theorem ids_modify (m : Shared) (a : ℕ) (f : List ℕ → List ℕ) (b : ℕ) :
    (m.modify a f).ids b = if a = b ∧ a < m.maps.length then f (m.ids b) else m.ids b := by
  unfold Shared.modify Shared.ids
  simp only [List.getElem?_modify]
  by_cases hb : b < m.maps.length
  · rw [List.getElem?_eq_getElem hb]
    by_cases hab : a = b
    · subst hab; simp [hb]
    · simp [hab]
  · rw [List.getElem?_eq_none (not_lt.1 hb)]
    by_cases hab : a = b
    · subst hab; simp [hb]
    · simp [hab]

/-- The thread makes a step. -/
theorem Pend.step {m : Shared} {E0 : List Entry} {e : Entry} (hg : Good cf un st (E0 ++ [e]))
    {p : AddPc} (h : Pend st m E0 e p) {ord : List (List Char) → List (List Char)}
    (hord : ∀ l, (ord l).Perm l) (v : PyVal) :
    Ext m (addStep cf un ord v m p).1 ∧
    (Pend st (addStep cf un ord v m p).1 E0 e (addStep cf un ord v m p).2 ∨
      ((addStep cf un ord v m p).2 = .done (.ok ()) ∧
        Idle st (addStep cf un ord v m p).1 (E0 ++ [e]))) := by
  have hbound : ∀ {m : Shared}, m.counter = e.id + 1 → ∀ e' ∈ E0 ++ [e], e'.id < m.counter := by
    intro m hm e' he'
    rw [hm]
    rcases List.mem_append.1 he' with he' | he'
    · have := (List.pairwise_append.1 hg.ids).2.2 e' he' e (by simp)
      omega
    · rw [List.mem_singleton] at he'; subst he'; omega
  cases p with
  | enter => exact h.elim
  | readId w nw =>
    obtain ⟨h1, h2, h3⟩ := h
    exact ⟨Ext.refl m, Or.inl ⟨h1, h2, h2, h3⟩⟩
  | readCounter w nw id =>
    obtain ⟨h1, h2, h3, h4⟩ := h
    exact ⟨Ext.refl m, Or.inl ⟨h1, h2, h3, h3, h4⟩⟩
  | writeCounter w nw id c =>
    obtain ⟨h1, h2, h3, rfl, h4⟩ := h
    refine ⟨⟨rfl, rfl, rfl, List.prefix_rfl, List.prefix_rfl, List.prefix_rfl, fun _ _ h => h,
      fun _ _ h => h⟩, Or.inl ⟨h1, h2, rfl, ?_⟩⟩
    exact ⟨h4.like, h4.vocab, h4.originals, h4.info, h4.addr, h4.inj, h4.idx, h4.tot, h4.ne⟩
  | setVocab w nw id =>
    obtain ⟨h1, rfl, h3, h4⟩ := h
    have hk : nw = e.m.key := by rw [h1]
    have hset : Dict.set m.vocab nw e.id = m.vocab ++ [(e.m.key, e.id)] := by
      rw [hk, Dict.set_append]
      rw [h4.vocab]; exact not_mem_keys_key hg.nodup
    simp only [addStep]
    rw [hset]
    refine ⟨⟨rfl, rfl, rfl, List.prefix_append _ _, List.prefix_rfl, List.prefix_rfl,
      fun _ _ h => h, fun _ _ h => h⟩, Or.inl ⟨h1, rfl, h3, ?_⟩⟩
    refine ⟨h4.like, ?_, h4.originals, h4.info, h4.addr, h4.inj, h4.idx, h4.tot, h4.ne⟩
    simp only [List.map_append, h4.vocab]; rfl
  | setOriginal w nw id =>
    obtain ⟨h1, rfl, h3, h4⟩ := h
    have hset : Dict.set m.originals e.id w = m.originals ++ [(e.id, e.m.orig)] := by
      rw [Dict.set_append]
      · rw [h1]
      · rw [h4.originals]; exact not_mem_keys_id hg.ids
    simp only [addStep]
    rw [hset]
    refine ⟨⟨rfl, rfl, rfl, List.prefix_rfl, List.prefix_append _ _, List.prefix_rfl,
      fun _ _ h => h, fun _ _ h => h⟩, Or.inl ⟨by rw [h1], rfl, h3, ?_⟩⟩
    refine ⟨h4.like, h4.vocab, ?_, h4.info, h4.addr, h4.inj, h4.idx, h4.tot, h4.ne⟩
    simp only [List.map_append, h4.originals]; rfl
  | setInfo nw id =>
    obtain ⟨rfl, rfl, h3, h4⟩ := h
    have hset : Dict.set m.info e.id (m.view.computeInfo e.m.key) =
        m.info ++ [(e.id, st.computeInfo e.m.key)] := by
      rw [h4.like.info, Dict.set_append]
      rw [h4.info]; exact not_mem_keys_id hg.ids
    simp only [addStep]
    rw [hset]
    have h5 : MRep st { m with info := m.info ++ [(e.id, st.computeInfo e.m.key)] } (E0 ++ [e])
        (E0 ++ [e]) (E0 ++ [e]) (Part st E0 e (fun _ => False)) none := by
      refine ⟨h4.like, h4.vocab, h4.originals, ?_, h4.addr, h4.inj, h4.idx, h4.tot, h4.ne⟩
      simp only [List.map_append, h4.info]; rfl
    refine ⟨⟨rfl, rfl, rfl, List.prefix_rfl, List.prefix_rfl, List.prefix_append _ _,
      fun _ _ h => h, fun _ _ h => h⟩, ?_⟩
    have hfl : m.filterN.isSome = st.filterN.isSome := by rw [h4.like.2.2]
    rw [hfl]
    cases hf : st.filterN with
    | none =>
      right
      refine ⟨rfl, h5.congr ?_, hbound h3⟩
      intro g i
      constructor
      · intro hp
        obtain ⟨e', _, _, f, hf', _⟩ := part_false g i hp
        rw [hf] at hf'; cases hf'
      · rintro ⟨e', _, _, f, hf', _⟩
        rw [hf] at hf'; cases hf'
    | some f =>
      have hfp := hg.filterPos hf
      left
      have hfg := filterGrams_eq hf hfp e.m.key
      rw [← h4.like.info] at hfg
      simp only [Option.isSome_some, if_true]
      rw [hfg]
      refine ⟨rfl, h3, f, hf, (hord _).nodup_iff.2 (List.nodup_dedup _), ?_, h5.congr ?_⟩
      · intro g hgm
        exact List.mem_dedup.1 ((hord _).mem_iff.1 hgm)
      · intro g i
        unfold Part
        constructor
        · rintro (h | ⟨_, h⟩)
          · exact Or.inl h
          · exact h.elim
        · rintro (h | ⟨_, h1, h2⟩)
          · exact Or.inl h
          · exact absurd ((hord _).mem_iff.2 (List.mem_dedup.2 h1)) h2
  | test id gs =>
    obtain ⟨rfl, h2, f, hf, hn, hgs, h4⟩ := h
    cases gs with
    | nil =>
      refine ⟨Ext.refl m, Or.inr ⟨rfl, h4.congr ?_, hbound h2⟩⟩
      intro g i
      constructor
      · exact part_le hf (fun g h => h.1) g i
      · rintro ⟨e', he', hid, f', hf', hm⟩
        rcases List.mem_append.1 he' with he' | he'
        · exact Or.inl ⟨e', he', hid, f', hf', hm⟩
        · rw [List.mem_singleton] at he'
          subst he'
          rw [hf] at hf'
          injection hf' with hf'
          subst hf'
          exact Or.inr ⟨hid.symm, hm, by simp⟩
    | cons g gs =>
      simp only [addStep]
      by_cases hh : Dict.has m.index g = true
      · rw [if_pos hh]
        refine ⟨Ext.refl m, Or.inl ⟨rfl, h2, f, hf, hn, hgs, ?_, ?_⟩⟩
        · exact ⟨h4.like, h4.vocab, h4.originals, h4.info, h4.addr, h4.inj, h4.idx, h4.tot,
            fun g a h h' => absurd (h4.ne g a h h') (by simp)⟩
        · cases hi : Dict.get? m.index g with
          | some a => exact ⟨a, rfl⟩
          | none => exact absurd (Dict.has_iff.1 hh) (Dict.get?_eq_none.1 hi)
      · rw [if_neg hh]
        refine ⟨Ext.refl m, Or.inl ⟨rfl, h2, f, hf, hn, hgs, h4, ?_⟩⟩
        exact Dict.get?_eq_none.2 (fun hc => hh (Dict.has_iff.2 hc))
  | create id g gs =>
    obtain ⟨rfl, h2, f, hf, hn, hgs, h4, h5⟩ := h
    simp only [addStep]
    have hids : ∀ b, ({ m with
        index := Dict.set m.index g m.maps.length
        maps := m.maps ++ [[]] } : Shared).ids b = m.ids b := by
      intro b
      unfold Shared.ids
      simp only
      rcases Nat.lt_trichotomy b m.maps.length with hb | hb | hb
      · rw [List.getElem?_append_left hb]
      · subst hb; simp
      · rw [List.getElem?_eq_none (by simp; omega), List.getElem?_eq_none (by omega)]
    refine ⟨⟨rfl, rfl, rfl, List.prefix_rfl, List.prefix_rfl, List.prefix_rfl, ?_, ?_⟩,
      Or.inl ⟨rfl, h2, f, hf, hn, hgs, ?_, ?_⟩⟩
    · intro h a ha
      simp only
      rw [Dict.get?_set]
      split
      · rename_i hgh; subst hgh; rw [h5] at ha; cases ha
      · exact ha
    · intro a i hi
      rw [hids]; exact hi
    · have hnew : m.ids m.maps.length = [] := by unfold Shared.ids; simp
      refine ⟨h4.like, h4.vocab, h4.originals, h4.info, ?_, ?_, ?_, ?_, ?_⟩
      · intro h a ha
        simp only [Dict.get?_set] at ha
        simp only [List.length_append, List.length_singleton]
        split at ha
        · injection ha with ha; omega
        · have := h4.addr h a ha; omega
      · intro h h' a ha ha'
        simp only [Dict.get?_set] at ha ha'
        split at ha <;> split at ha'
        · rename_i e1 e2; rw [← e1, ← e2]
        · injection ha with ha
          have := h4.addr h' a ha'; omega
        · injection ha' with ha'
          have := h4.addr h a ha; omega
        · exact h4.inj h h' a ha ha'
      · intro h a ha i
        rw [hids]
        simp only [Dict.get?_set] at ha
        split at ha
        · rename_i e1
          injection ha with ha
          subst e1 ha
          rw [hnew]
          constructor
          · intro hc; cases hc
          · intro hc
            obtain ⟨a, ha⟩ := h4.tot _ i hc
            rw [h5] at ha; cases ha
        · exact h4.idx h a ha i
      · intro h i hi
        obtain ⟨a, ha⟩ := h4.tot h i hi
        simp only [Dict.get?_set]
        split
        · exact ⟨_, rfl⟩
        · exact ⟨a, ha⟩
      · intro h a ha hem
        rw [hids] at hem
        simp only [Dict.get?_set] at ha
        split at ha
        · rename_i e1; rw [e1]
        · exact absurd (h4.ne h a ha hem) (by simp)
    · exact ⟨m.maps.length, by simp only [Dict.get?_set, if_pos]⟩
  | fetch id g gs =>
    obtain ⟨rfl, h2, f, hf, hn, hgs, h4, a, ha⟩ := h
    simp only [addStep, ha]
    exact ⟨Ext.refl m, Or.inl ⟨rfl, h2, f, g, hf, hn, hgs, h4, ha⟩⟩
  | put id a gs =>
    obtain ⟨rfl, h2, f, g, hf, hn, hgs, h4, ha⟩ := h
    have hlt := h4.addr g a ha
    have hmem : ∀ b i, i ∈ (m.modify a fun bm => if e.id ∈ bm then bm else bm ++ [e.id]).ids b ↔
        i ∈ m.ids b ∨ (a = b ∧ i = e.id) := by
      intro b i
      rw [ids_modify]
      by_cases hab : a = b
      · subst hab
        rw [if_pos ⟨rfl, hlt⟩]
        split
        · rename_i hin
          constructor
          · exact Or.inl
          · rintro (h | ⟨_, rfl⟩)
            · exact h
            · exact hin
        · simp
      · rw [if_neg (fun h => hab h.1)]
        simp [hab]
    refine ⟨⟨rfl, rfl, rfl, List.prefix_rfl, List.prefix_rfl, List.prefix_rfl, fun _ _ h => h,
      fun b i hi => (hmem b i).2 (Or.inl hi)⟩, Or.inl ⟨rfl, h2, f, hf, (List.nodup_cons.1 hn).2,
        fun h hh => hgs h (List.mem_cons_of_mem _ hh), ?_⟩⟩
    refine ⟨h4.like, h4.vocab, h4.originals, h4.info, ?_, h4.inj, ?_, ?_, ?_⟩
    · intro h b hb
      have := h4.addr h b hb
      simpa [addStep, Shared.modify] using this
    · intro h b hb i
      simp only [addStep]
      rw [hmem, h4.idx h b hb]
      unfold Part
      constructor
      · rintro ((h | ⟨h, h', h''⟩) | ⟨rfl, h⟩)
        · exact Or.inl h
        · exact Or.inr ⟨h, h', fun hc => h'' (List.mem_cons_of_mem _ hc)⟩
        · have := h4.inj _ _ _ ha hb
          subst this
          exact Or.inr ⟨h, hgs _ List.mem_cons_self, (List.nodup_cons.1 hn).1⟩
      · rintro (h | ⟨hi, h', h''⟩)
        · exact Or.inl (Or.inl h)
        · by_cases hgh : h = g
          · subst hgh
            rw [show m.index = (m.modify a _).index from rfl] at ha
            have hab : a = b := by
              have := ha.symm.trans hb
              injection this
            exact Or.inr ⟨hab, hi⟩
          · exact Or.inl (Or.inr ⟨hi, h', by simp [hgh, h'']⟩)
    · intro h i hi
      rcases hi with hi | ⟨hi, h1, h2⟩
      · exact h4.tot h i (Or.inl hi)
      · by_cases hgh : h = g
        · subst hgh; exact ⟨a, ha⟩
        · exact h4.tot h i (Or.inr ⟨hi, h1, by simp [hgh, h2]⟩)
    · intro h b hb hem
      exfalso
      simp only [addStep] at hem
      have hb0 : m.ids b = [] := by
        cases hc : m.ids b with
        | nil => rfl
        | cons i l =>
          have := (hmem b i).2 (Or.inl (by rw [hc]; simp))
          rw [hem] at this; cases this
      have hx := h4.ne h b hb hb0
      injection hx with hx
      subst hx
      have hab : a = b := by
        have := ha.symm.trans hb
        injection this
      have := (hmem b e.id).2 (Or.inr ⟨hab, rfl⟩)
      rw [hem] at this; cases this
  | done r => exact h.elim

end Conc
end Verif
