import Verif.Conc.Writer

/-!
# The invariant of all threads
-/

namespace Verif
namespace Conc

open GramSpec WordSetSpec

variable {cf : List Char → List Char} {un : Normalizer} {st : WS} {C : ℕ → Call}

/-- The calls of `add` that have begun, each with the entry it stores, if any. -/
abbrev Hist := List (ℕ × Option Entry)

/-- All entries. -/
def entries (Es : List Entry) (G : Hist) : List Entry := Es ++ G.filterMap (fun p => p.2)

/-- The members. -/
abbrev mems (E : List Entry) : List Member := E.map (fun e => e.m)

theorem entries_nil (Es : List Entry) : entries Es [] = Es := by simp [entries]

theorem entries_snoc (Es : List Entry) (G : Hist) (j : ℕ) (o : Option Entry) :
    entries Es (G ++ [(j, o)]) = entries Es G ++ o.toList := by
  cases o <;> simp [entries]

theorem entries_append (Es : List Entry) (G G' : Hist) :
    entries Es (G ++ G') = entries (entries Es G) G' := by
  simp [entries]

theorem entries_prefix (Es : List Entry) (G G' : Hist) :
    (entries Es G).Sublist (entries Es (G ++ G')) := by
  rw [entries_append]; unfold entries; exact List.sublist_append_left _ _

/-- The calls store what they would store one after another. -/
def Valid (key : List Char → Option (List Char)) (C : ℕ → Call) : List Entry → Hist → Prop
  | _, [] => True
  | E, (j, o) :: G => (absAdd key (mems E) (C j).word).1 = mems (E ++ o.toList) ∧
      Valid key C (E ++ o.toList) G

theorem valid_cons {key : List Char → Option (List Char)} {E : List Entry} {j : ℕ}
    {o : Option Entry} {G : Hist} : Valid key C E ((j, o) :: G) ↔
      (absAdd key (mems E) (C j).word).1 = mems (E ++ o.toList) ∧
        Valid key C (E ++ o.toList) G := Iff.rfl

theorem valid_append {key : List Char → Option (List Char)} {E : List Entry} {G G' : Hist} :
    Valid key C E (G ++ G') ↔ Valid key C E G ∧ Valid key C (entries E G) G' := by
  induction G generalizing E with
  | nil => simp [Valid, entries_nil]
  | cons p G ih =>
    obtain ⟨j, o⟩ := p
    rw [List.cons_append, valid_cons, valid_cons, ih, and_assoc]
    have : entries (E ++ o.toList) G = entries E ((j, o) :: G) := by
      cases o <;> simp [entries]
    rw [this]

/-! ## The beginning of `add` -/

theorem Idle.enter {m : Shared} {E : List Entry} (h : Idle st m E) (hg : Good cf un st E)
    (ord : List (List Char) → List (List Char)) (v : PyVal) :
    (addStep cf un ord v m .enter).1 = m ∧
    ((∃ r, (addStep cf un ord v m .enter).2 = .done r ∧
        (absAdd (st.key cf un) (mems E) v).1 = mems E ∧
        r = (absAdd (st.key cf un) (mems E) v).2) ∨
      ∃ e, Pend st m E e (addStep cf un ord v m .enter).2 ∧ Good cf un st (E ++ [e]) ∧
        (absAdd (st.key cf un) (mems E) v).1 = mems (E ++ [e]) ∧
        (absAdd (st.key cf un) (mems E) v).2 = .ok ()) := by
  cases v with
  | int i => exact ⟨rfl, Or.inl ⟨_, rfl, rfl, rfl⟩⟩
  | other => exact ⟨rfl, Or.inl ⟨_, rfl, rfl, rfl⟩⟩
  | str w =>
    cases w with
    | nil => exact ⟨rfl, Or.inl ⟨_, rfl, rfl, rfl⟩⟩
    | cons c w =>
      have hw : ¬ (c :: w = []) := by simp
      simp only [addStep, if_neg hw, h.1.like.normalize, normalizeWord_eq]
      cases hk : keyOf st.caseSensitive cf un (c :: w) with
      | none =>
        refine ⟨rfl, Or.inl ⟨_, rfl, ?_⟩⟩
        simp [absAdd, WS.key, hk]
      | some nw =>
        cases nw with
        | nil =>
          refine ⟨rfl, Or.inl ⟨_, rfl, ?_⟩⟩
          simp [absAdd, WS.key, hk]
        | cons d nw =>
          have hnw : ¬ (d :: nw = []) := by simp
          simp only [if_neg hnw]
          have habs : absAdd (st.key cf un) (mems E) (.str (c :: w)) =
              (WordSetSpec.insert (mems E) ⟨d :: nw, c :: w⟩, .ok ()) := by
            simp [absAdd, WS.key, hk]
          rw [habs]
          have hmem : Dict.has m.vocab (d :: nw) = true ↔ Mem (mems E) (d :: nw) := by
            rw [Dict.has_iff, h.1.vocab]
            unfold Dict.keys Mem
            simp only [List.map_map, List.mem_map]
            constructor
            · rintro ⟨e, he, hke⟩; exact ⟨e.m, ⟨e, he, rfl⟩, hke⟩
            · rintro ⟨m, ⟨e, he, rfl⟩, hke⟩; exact ⟨e, he, hke⟩
          by_cases hm : Mem (mems E) (d :: nw)
          · rw [if_pos (hmem.2 hm)]
            refine ⟨rfl, Or.inl ⟨_, rfl, ?_, rfl⟩⟩
            unfold WordSetSpec.insert; rw [if_pos hm]
          · rw [if_neg (fun hc => hm (hmem.1 hc))]
            refine ⟨rfl, Or.inr ⟨⟨⟨d :: nw, c :: w⟩, m.counter⟩, ?_, ?_, ?_, rfl⟩⟩
            · refine ⟨rfl, rfl, h.1.congr ?_⟩
              intro g i
              unfold Part
              simp
            · refine ⟨?_, ?_, ?_, hg.sizesNe, hg.sizesPos, hg.sizesLt, hg.filter⟩
              · rw [List.map_append, List.nodup_append]
                refine ⟨hg.nodup, by simp, ?_⟩
                intro a ha b hb hab
                simp only [List.map_cons, List.map_nil, List.mem_singleton] at hb
                subst hab hb
                obtain ⟨e, he, hb⟩ := List.mem_map.1 ha
                exact hm ⟨e.m, List.mem_map.2 ⟨e, he, rfl⟩, hb⟩
              · rw [List.pairwise_append]
                refine ⟨hg.ids, by simp, ?_⟩
                intro a ha b hb
                rw [List.mem_singleton] at hb
                subst hb
                exact h.2 a ha
              · intro e he
                rcases List.mem_append.1 he with he | he
                · exact hg.keys e he
                · rw [List.mem_singleton] at he; subst he; exact ⟨hk, hnw⟩
            · unfold WordSetSpec.insert; rw [if_neg hm]; simp

theorem Pend.adding {m : Shared} {E0 : List Entry} {e : Entry} {p : AddPc}
    (h : Pend st m E0 e p) : (Pc.add p).adding = true := by
  cases p with
  | enter => exact h.elim
  | done r => exact h.elim
  | _ => rfl

/-! ## All threads -/

/-- A thread is at a place of its call. -/
def Typed : Call → Pc → Prop
  | .add _ _, .add _ => True
  | .discard _ _, .discard _ => True
  | .find _ _ _ _, .find _ => True
  | _, _ => False

/-- The invariant. -/
structure SInv (cf : List Char → List Char) (un : Normalizer) (st : WS) (C : ℕ → Call)
    (Es : List Entry) (s : Sys) (G : Hist) : Prop where
  valid : Valid (st.key cf un) C Es G
  good : Good cf un st (entries Es G)
  typed : ∀ i, Typed (C i) (s.pc i)
  mem : (Idle st s.mem (entries Es G) ∧ ∀ j, (s.pc j).adding = false) ∨
    ∃ i G0 e p, G = G0 ++ [(i, some e)] ∧ Pend st s.mem (entries Es G0) e p ∧ s.pc i = .add p ∧
      (absAdd (st.key cf un) (mems (entries Es G0)) (C i).word).2 = .ok () ∧
      ∀ j, j ≠ i → (s.pc j).adding = false
  res : ∀ j r, s.pc j = .add (.done r) → ∃ G0 o G1, G = G0 ++ (j, o) :: G1 ∧
    r = (absAdd (st.key cf un) (mems (entries Es G0)) (C j).word).2

theorem SInv.sound {Es : List Entry} {s : Sys} {G : Hist} (h : SInv cf un st C Es s G) :
    Sound st s.mem (entries Es G) := by
  rcases h.mem with ⟨h1, _⟩ | ⟨i, G0, e, p, rfl, h1, _⟩
  · exact h1.sound h.good
  · have hg := h.good
    rw [entries_snoc] at hg ⊢
    exact (h1.sound hg).1

theorem Sys.step_pc_same {s : Sys} {i : ℕ} :
    (s.step cf un C i).pc i = (callStep cf un s.mem (C i) (s.pc i)).2 := by
  simp [Sys.step]

theorem Sys.step_pc_other {s : Sys} {i j : ℕ} (h : j ≠ i) : (s.step cf un C i).pc j = s.pc j := by
  simp [Sys.step, h]

theorem SInv.step {Es : List Entry} {s : Sys} {G : Hist} (h : SInv cf un st C Es s G)
    {i : ℕ} (hfair : (C i).Fair) (hrem : (C i).removes = false)
    (hex : (C i).isAdd = true → ∀ j, j ≠ i → (s.pc j).adding = false) :
    ∃ G', G'.map (fun p => p.1) = (if s.pc i = .add .enter then [i] else []) ∧
      SInv cf un st C Es (s.step cf un C i) (G ++ G') ∧ Ext s.mem (s.step cf un C i).mem := by
  cases hC : C i with
  | discard ord v => rw [hC] at hrem; cases hrem
  | find ord q k ms =>
    have ht := h.typed i
    rw [hC] at ht
    cases hp : s.pc i with
    | add p => rw [hp] at ht; exact ht.elim
    | discard p => rw [hp] at ht; exact ht.elim
    | find p =>
      have hm : (s.step cf un C i).mem = s.mem := by simp [Sys.step, hC, hp, callStep]
      have hpi : (s.step cf un C i).pc i = .find (findStep cf un ord q k ms s.mem p) := by
        rw [Sys.step_pc_same, hC, hp]; rfl
      have hadd : ∀ j, ((s.step cf un C i).pc j).adding = (s.pc j).adding := by
        intro j
        by_cases hj : j = i
        · subst hj; rw [hpi, hp]; rfl
        · rw [Sys.step_pc_other hj]
      refine ⟨[], by simp, ?_, by rw [hm]; exact Ext.refl _⟩
      rw [List.append_nil]
      refine ⟨h.valid, h.good, ?_, ?_, ?_⟩
      · intro j
        by_cases hj : j = i
        · subst hj; rw [hpi, hC]; trivial
        · rw [Sys.step_pc_other hj]; exact h.typed j
      · rw [hm]
        rcases h.mem with ⟨h1, h2⟩ | ⟨i', G0, e, p', h1, h2, h3, h4, h5⟩
        · exact Or.inl ⟨h1, fun j => by rw [hadd]; exact h2 j⟩
        · have hne : i' ≠ i := by rintro rfl; rw [hp] at h3; cases h3
          exact Or.inr ⟨i', G0, e, p', h1, h2, by rw [Sys.step_pc_other hne, h3], h4,
            fun j hj => by rw [hadd]; exact h5 j hj⟩
      · intro j r hr
        by_cases hj : j = i
        · subst hj; rw [hpi] at hr; cases hr
        · rw [Sys.step_pc_other hj] at hr; exact h.res j r hr
  | add ord v =>
    have ht := h.typed i
    rw [hC] at ht
    have hw : (C i).word = v := by rw [hC]; rfl
    have hord : ∀ l, (ord l).Perm l := by rw [hC] at hfair; exact hfair
    have hex := hex (by rw [hC]; rfl)
    cases hp : s.pc i with
    | find p => rw [hp] at ht; exact ht.elim
    | discard p => rw [hp] at ht; exact ht.elim
    | add p =>
      have hm : (s.step cf un C i).mem = (addStep cf un ord v s.mem p).1 := by
        simp [Sys.step, hC, hp, callStep]
      have hpi : (s.step cf un C i).pc i = .add (addStep cf un ord v s.mem p).2 := by
        rw [Sys.step_pc_same, hC, hp]; rfl
      have htyped : ∀ j, Typed (C j) ((s.step cf un C i).pc j) := by
        intro j
        by_cases hj : j = i
        · subst hj; rw [hpi, hC]; trivial
        · rw [Sys.step_pc_other hj]; exact h.typed j
      have hother : ∀ j, j ≠ i → ((s.step cf un C i).pc j).adding = false := by
        intro j hj; rw [Sys.step_pc_other hj]; exact hex j hj
      by_cases hpe : p = .enter
      · subst hpe
        rw [if_pos rfl]
        have hidle : Idle st s.mem (entries Es G) := by
          rcases h.mem with ⟨h1, _⟩ | ⟨i', G0, e, p', _, h2, h3, _⟩
          · exact h1
          · by_cases hi : i' = i
            · subst hi
              rw [hp] at h3
              injection h3 with h3
              subst h3
              exact h2.elim
            · have := hex i' hi
              rw [h3, h2.adding] at this
              cases this
        obtain ⟨e1, e2⟩ := hidle.enter h.good ord v
        rcases e2 with ⟨r, e2, e3, e4⟩ | ⟨e, e2, e3, e4, e5⟩
        · refine ⟨[(i, none)], rfl, ?_, by rw [hm, e1]; exact Ext.refl _⟩
          have hent : entries Es (G ++ [(i, none)]) = entries Es G := by
            rw [entries_snoc]; simp
          refine ⟨?_, by rw [hent]; exact h.good, htyped, ?_, ?_⟩
          · rw [valid_append]
            refine ⟨h.valid, ?_, trivial⟩
            rw [hw, e3]; simp
          · left
            rw [hm, e1, hent]
            refine ⟨hidle, fun j => ?_⟩
            by_cases hj : j = i
            · subst hj; rw [hpi, e2]; rfl
            · exact hother j hj
          · intro j r' hr
            by_cases hj : j = i
            · subst hj
              rw [hpi, e2] at hr
              injection hr with hr
              injection hr with hr
              exact ⟨G, none, [], rfl, by rw [hw, ← hr, e4]⟩
            · rw [Sys.step_pc_other hj] at hr
              obtain ⟨G0, o, G1, h1, h2⟩ := h.res j r' hr
              exact ⟨G0, o, G1 ++ [(i, none)], by rw [h1]; simp, h2⟩
        · refine ⟨[(i, some e)], rfl, ?_, by rw [hm, e1]; exact Ext.refl _⟩
          refine ⟨?_, by rw [entries_snoc]; exact e3, htyped, ?_, ?_⟩
          · rw [valid_append]
            refine ⟨h.valid, ?_, trivial⟩
            rw [hw, e4]; rfl
          · right
            refine ⟨i, G, e, _, rfl, ?_, hpi, by rw [hw]; exact e5, hother⟩
            rw [hm, e1]; exact e2
          · intro j r' hr
            by_cases hj : j = i
            · subst hj
              rw [hpi] at hr
              injection hr with hr
              rw [hr] at e2
              exact e2.elim
            · rw [Sys.step_pc_other hj] at hr
              obtain ⟨G0, o, G1, h1, h2⟩ := h.res j r' hr
              exact ⟨G0, o, G1 ++ [(i, some e)], by rw [h1]; simp, h2⟩
      · rw [if_neg (by simpa using hpe)]
        refine ⟨[], rfl, ?_⟩
        rw [List.append_nil]
        by_cases hadd : (Pc.add p).adding = true
        · rcases h.mem with ⟨_, h2⟩ | ⟨i', G0, e, p', h1, h2, h3, h4, h5⟩
          · have := h2 i
            rw [hp, hadd] at this; cases this
          · have hi : i' = i := by
              by_contra hi
              have := h5 i (Ne.symm hi)
              rw [hp, hadd] at this; cases this
            subst hi
            rw [hp] at h3
            injection h3 with h3
            subst h3
            have hg := h.good
            rw [h1, entries_snoc] at hg
            obtain ⟨s1, s2⟩ := h2.step hg hord v
            refine ⟨⟨h.valid, h.good, htyped, ?_, ?_⟩, by rw [hm]; exact s1⟩
            · rcases s2 with s2 | ⟨s2, s3⟩
              · right
                exact ⟨i', G0, e, _, h1, by rw [hm]; exact s2, hpi, h4, hother⟩
              · left
                rw [hm, h1, entries_snoc]
                refine ⟨s3, fun j => ?_⟩
                by_cases hj : j = i'
                · subst hj; rw [hpi, s2]; rfl
                · exact hother j hj
            · intro j r hr
              by_cases hj : j = i'
              · subst hj
                rw [hpi] at hr
                injection hr with hr
                rcases s2 with s2 | ⟨s2, s3⟩
                · rw [hr] at s2; exact s2.elim
                · rw [s2] at hr
                  injection hr with hr
                  exact ⟨G0, some e, [], h1, by rw [h4, hr]⟩
              · rw [Sys.step_pc_other hj] at hr; exact h.res j r hr
        · -- the call has returned
          cases p with
          | enter => exact absurd rfl hpe
          | done r =>
            have hm' : (s.step cf un C i).mem = s.mem := hm
            have hpc : (s.step cf un C i).pc = s.pc := by
              funext j
              by_cases hj : j = i
              · subst hj; rw [hpi, hp]; rfl
              · exact Sys.step_pc_other hj
            have : s.step cf un C i = s := by
              cases hs : s.step cf un C i with
              | mk m pc =>
                rw [hs] at hm' hpc
                cases s
                simp only at hm' hpc
                rw [hm', hpc]
            rw [this]
            exact ⟨h, Ext.refl _⟩
          | _ => exact absurd rfl hadd

theorem starts_cons (s : Sys) (i : ℕ) (l : List ℕ) :
    starts cf un C s (i :: l) = (if s.pc i = .add .enter then [i] else []) ++
      starts cf un C (s.step cf un C i) l := rfl

theorem exclusive_cons (s : Sys) (i : ℕ) (l : List ℕ) :
    Exclusive cf un C s (i :: l) ↔
      ((C i).isAdd = true → ∀ j, j ≠ i → (s.pc j).adding = false) ∧
        Exclusive cf un C (s.step cf un C i) l := Iff.rfl

theorem starts_append (s : Sys) (l l' : List ℕ) :
    starts cf un C s (l ++ l') = starts cf un C s l ++ starts cf un C (s.run cf un C l) l' := by
  induction l generalizing s with
  | nil => rfl
  | cons i l ih =>
    rw [List.cons_append, starts_cons, starts_cons, ih, List.append_assoc]
    rfl

theorem exclusive_append (s : Sys) (l l' : List ℕ) :
    Exclusive cf un C s (l ++ l') ↔
      Exclusive cf un C s l ∧ Exclusive cf un C (s.run cf un C l) l' := by
  induction l generalizing s with
  | nil =>
    constructor
    · intro h; exact ⟨trivial, h⟩
    · intro h; exact h.2
  | cons i l ih =>
    rw [List.cons_append, exclusive_cons, exclusive_cons, ih, and_assoc]
    rfl

theorem SInv.run {Es : List Entry} {s : Sys} {G : Hist} (h : SInv cf un st C Es s G)
    (hfair : ∀ i, (C i).Fair) (hrem : ∀ i, (C i).removes = false) {sched : List ℕ}
    (hex : Exclusive cf un C s sched) :
    ∃ G', G'.map (fun p => p.1) = starts cf un C s sched ∧
      SInv cf un st C Es (s.run cf un C sched) (G ++ G') := by
  induction sched generalizing s G with
  | nil => exact ⟨[], rfl, by rw [List.append_nil]; exact h⟩
  | cons i sched ih =>
    obtain ⟨G1, h1, h2, _⟩ := h.step (hfair i) (hrem i) hex.1
    obtain ⟨G2, h3, h4⟩ := ih h2 hex.2
    exact ⟨G1 ++ G2, by rw [List.map_append, h1, h3]; rfl, by rw [← List.append_assoc]; exact h4⟩

/-- A thread in `find_similar` among the others. -/
theorem SInv.run_find {Es : List Entry} {s : Sys} {G : Hist} (h : SInv cf un st C Es s G)
    (hfair : ∀ i, (C i).Fair) (hrem : ∀ i, (C i).removes = false) {sched : List ℕ}
    (hex : Exclusive cf un C s sched) {i : ℕ} {ord : List (List Char) → List (List Char)}
    {q k : PyVal} {ms : MinSim} (hC : C i = .find ord q k ms) {E1 : List Entry}
    (h1 : ∀ e ∈ E1, e ∈ entries Es G ∧ Complete st s.mem e) {p : FindPc} (hp : s.pc i = .find p)
    (hinv : FInv cf un st q k ms E1 (entries Es G) s.mem p) :
    ∃ G' p', G'.map (fun p => p.1) = starts cf un C s sched ∧
      SInv cf un st C Es (s.run cf un C sched) (G ++ G') ∧
      (s.run cf un C sched).pc i = .find p' ∧
      FInv cf un st q k ms E1 (entries Es (G ++ G')) (s.run cf un C sched).mem p' := by
  induction sched generalizing s G p with
  | nil => exact ⟨[], p, rfl, by rw [List.append_nil]; exact h, hp, by rw [List.append_nil]; exact hinv⟩
  | cons j sched ih =>
    obtain ⟨G1, g1, g2, g3⟩ := h.step (hfair j) (hrem j) hex.1
    have hsub := entries_prefix Es G G1
    have h1' : ∀ e ∈ E1, e ∈ entries Es (G ++ G1) ∧ Complete st (s.step cf un C j).mem e :=
      fun e he => ⟨hsub.subset (h1 e he).1, (h1 e he).2.mono g3⟩
    have hnext : ∃ p', (s.step cf un C j).pc i = .find p' ∧
        FInv cf un st q k ms E1 (entries Es (G ++ G1)) (s.step cf un C j).mem p' := by
      by_cases hj : i = j
      · subst hj
        have hord : ∀ l, (ord l).Perm l := by have := hfair i; rw [hC] at this; exact this
        refine ⟨findStep cf un ord q k ms s.mem p, by rw [Sys.step_pc_same, hC, hp]; rfl, ?_⟩
        exact (hinv.step hord h.good h.sound h1).mono g3 hsub
      · exact ⟨p, by rw [Sys.step_pc_other hj, hp], hinv.mono g3 hsub⟩
    obtain ⟨p', hp', hinv'⟩ := hnext
    obtain ⟨G2, p2, g4, g5, g6, g7⟩ := ih g2 hex.2 h1' hp' hinv'
    exact ⟨G1 ++ G2, p2, by rw [List.map_append, g1, g4]; rfl, by rw [← List.append_assoc]; exact g5,
      g6, by rw [← List.append_assoc]; exact g7⟩

/-! ## The beginning -/

theorem get?_zipIdx {ν : Type} (l : List (List Char × ν)) (n : ℕ) (g : List Char) (a : ℕ)
    (h : Dict.get? ((l.zipIdx n).map fun p => (p.1.1, p.2)) g = some a) :
    ∃ b, n ≤ a ∧ l[a - n]? = some (g, b) ∧ Dict.get? l g = some b := by
  induction l generalizing n with
  | nil => simp at h
  | cons p l ih =>
    obtain ⟨k, v⟩ := p
    rw [List.zipIdx_cons, List.map_cons, Dict.get?_cons] at h
    split at h
    · rename_i hk
      injection h with h
      simp only at hk h
      subst h hk
      exact ⟨v, le_refl _, by simp, by rw [Dict.get?_cons, if_pos rfl]⟩
    · rename_i hk
      simp only at hk
      obtain ⟨b, h1, h2, h3⟩ := ih (n + 1) h
      refine ⟨b, by omega, ?_, by rw [Dict.get?_cons, if_neg hk]; exact h3⟩
      have : a - n = (a - (n + 1)) + 1 := by omega
      rw [this, List.getElem?_cons_succ]; exact h2

theorem get?_zipIdx_some {ν : Type} (l : List (List Char × ν)) (n : ℕ) (g : List Char) (b : ν)
    (h : Dict.get? l g = some b) :
    ∃ a, Dict.get? ((l.zipIdx n).map fun p => (p.1.1, p.2)) g = some a := by
  induction l generalizing n with
  | nil => simp at h
  | cons p l ih =>
    obtain ⟨k, v⟩ := p
    rw [List.zipIdx_cons, List.map_cons, Dict.get?_cons]
    rw [Dict.get?_cons] at h
    split
    · exact ⟨_, rfl⟩
    · rename_i hk
      rw [if_neg hk] at h
      exact ih (n + 1) h

theorem WSRep.idle {Es : List Entry} (h : WSRep cf un st Es) : Idle st (Shared.ofWS st) Es := by
  have hids : ∀ g a, Dict.get? (Shared.ofWS st).index g = some a →
      (Shared.ofWS st).ids a = idsAt st.filterIndex g ∧ a < (Shared.ofWS st).maps.length ∧
        ∃ b, st.filterIndex[a]? = some (g, b) ∧ Dict.get? st.filterIndex g = some b := by
    intro g a ha
    obtain ⟨b, _, h1, h2⟩ := get?_zipIdx st.filterIndex 0 g a ha
    rw [Nat.sub_zero] at h1
    have hm : (Shared.ofWS st).maps[a]? = some b := by
      simp [Shared.ofWS, Dict.values, h1]
    refine ⟨?_, ?_, b, h1, h2⟩
    · unfold Shared.ids idsAt; rw [hm, h2]
    · exact (List.getElem?_eq_some_iff.1 hm).1
  refine ⟨⟨⟨rfl, rfl, rfl⟩, h.vocab, h.originals, h.info, fun g a ha => (hids g a ha).2.1, ?_, ?_,
    ?_, ?_⟩, h.bound⟩
  · intro g g' a h1 h2
    obtain ⟨_, _, b, h3, _⟩ := hids g a h1
    obtain ⟨_, _, b', h4, _⟩ := hids g' a h2
    rw [h3] at h4
    injection h4 with h4
    exact (Prod.mk.inj h4).1
  · intro g a ha i
    rw [(hids g a ha).1]; exact h.idx g i
  · intro g i hi
    have := (h.idx g i).2 hi
    cases hb : Dict.get? st.filterIndex g with
    | none => unfold idsAt at this; rw [hb] at this; cases this
    | some b => exact get?_zipIdx_some st.filterIndex 0 g b hb
  · intro g a ha hem
    obtain ⟨h1, _, b, _, h2⟩ := hids g a ha
    rw [h1] at hem
    unfold idsAt at hem
    rw [h2] at hem
    exact absurd hem (h.idxNe g b h2)

theorem SInv.start {Es : List Entry} (h : WSRep cf un st Es) :
    SInv cf un st C Es (Sys.start C st) [] := by
  refine ⟨trivial, by rw [entries_nil]; exact h.good, ?_, Or.inl ⟨?_, ?_⟩, ?_⟩
  · intro i
    show Typed (C i) (C i).pc
    cases C i <;> trivial
  · rw [entries_nil]; exact WSRep.idle h
  · intro j
    show ((C j).pc).adding = false
    cases C j <;> rfl
  · intro j r hr
    have hr : (C j).pc = .add (.done r) := hr
    cases hC : C j <;> rw [hC] at hr <;> cases hr

/-! ## One after another -/

theorem get?_mapVal {κ ν μ : Type} [DecidableEq κ] (d : Dict κ ν) (f : ν → μ) (k : κ) :
    Dict.get? (d.map fun p => (p.1, f p.2)) k = (Dict.get? d k).map f := by
  induction d with
  | nil => rfl
  | cons p d ih =>
    obtain ⟨k', v⟩ := p
    rw [List.map_cons, Dict.get?_cons, Dict.get?_cons]
    split
    · rfl
    · exact ih

/-- Between the calls of `add` the memory is a state of the sequential model. -/
theorem Idle.rep {m : Shared} {E : List Entry} (h : Idle st m E) (hg : Good cf un st E) :
    WSRep cf un m.view E := by
  have hl := h.1.like
  refine ⟨h.1.vocab, h.1.originals, ?_, hg.nodup, hg.ids, h.2, ?_, ?_, ?_, ?_, ?_, ?_, ?_⟩
  · rw [show m.view.info = m.info from rfl, h.1.info]
    apply List.map_congr_left
    intro e _
    rw [hl.info]
  · intro e he
    rw [show m.view.caseSensitive = st.caseSensitive from hl.1]; exact hg.keys e he
  · intro g i
    rw [show m.view.filterN = st.filterN from hl.2.2]
    show i ∈ (Dict.get? (m.index.map fun p => (p.1, m.ids p.2)) g).getD [] ↔ InIdx st E g i
    rw [get?_mapVal]
    cases ha : Dict.get? m.index g with
    | none =>
      constructor
      · intro hc; cases hc
      · intro hc
        obtain ⟨a, ha'⟩ := h.1.tot g i hc
        rw [ha] at ha'; cases ha'
    | some a => exact h.1.idx g a ha i
  · intro g b hb hbn
    have hb : Dict.get? (m.index.map fun p => (p.1, m.ids p.2)) g = some b := hb
    rw [get?_mapVal] at hb
    cases ha : Dict.get? m.index g with
    | none => rw [ha] at hb; cases hb
    | some a =>
      rw [ha] at hb
      injection hb with hb
      subst hb
      exact absurd (h.1.ne g a ha hbn) (by simp)
  · rw [show m.view.nList = st.nList from hl.2.1]; exact hg.sizesNe
  · rw [show m.view.nList = st.nList from hl.2.1]; exact hg.sizesPos
  · rw [show m.view.nList = st.nList from hl.2.1]; exact hg.sizesLt
  · rw [show m.view.nList = st.nList from hl.2.1, show m.view.filterN = st.filterN from hl.2.2]
    exact hg.filter

theorem absRun_add {key : List Char → Option (List Char)} (ns : List ℕ) (s : List Member)
    (v : PyVal) (ops : List WSOp) :
    absRun key ns s (.add v :: ops) = absRun key ns (absAdd key s v).1 ops := rfl

theorem valid_run {key : List Char → Option (List Char)} (ns : List ℕ) {E : List Entry} {G : Hist}
    (h : Valid key C E G) :
    absRun key ns (mems E) ((G.map (fun p => p.1)).map (fun j => .add (C j).word)) =
      mems (entries E G) := by
  induction G generalizing E with
  | nil => simp [absRun, entries]
  | cons p G ih =>
    obtain ⟨j, o⟩ := p
    obtain ⟨h1, h2⟩ := h
    have e1 : entries E ((j, o) :: G) = entries (E ++ o.toList) G := by
      cases o <;> simp [entries]
    rw [e1, ← ih h2]
    simp only [List.map_cons, absRun_add]
    rw [h1]

theorem absAdd_sub {key : List Char → Option (List Char)} {s s' : List Member} {v : PyVal}
    {x : Member} (h : (absAdd key s v).1 = s ++ [x]) (hs : s' ⊆ s) :
    (absAdd key s' v).1 = s' ++ [x] := by
  have hne : ∀ {s : List Member}, s ≠ s ++ [x] := by
    intro s hc
    have := congrArg List.length hc
    simp at this
  cases v with
  | int i => exact absurd h hne
  | other => exact absurd h hne
  | str w =>
    cases w with
    | nil => exact absurd h hne
    | cons c w =>
      cases hk : key (c :: w) with
      | none => simp only [absAdd, hk] at h; exact absurd h hne
      | some k =>
        cases k with
        | nil => simp only [absAdd, hk] at h; exact absurd h hne
        | cons d k =>
          simp only [absAdd, hk] at h ⊢
          unfold WordSetSpec.insert at h ⊢
          split at h
          · exact absurd h hne
          · rename_i hm
            have hx := List.append_cancel_left h
            rw [if_neg, hx]
            rintro ⟨m, hm1, hm2⟩
            exact hm ⟨m, hs hm1, hm2⟩

open Classical in
theorem valid_filter {key : List Char → Option (List Char)} (ns : List ℕ) {E E' : List Entry}
    {G : Hist} (T : List Entry) (h : Valid key C E G) (hE : E' ⊆ E) :
    absRun key ns (mems E') (((G.filter (fun p => ∃ e, p.2 = some e ∧ e ∈ T)).map
      (fun p => p.1)).map (fun j => .add (C j).word)) =
      mems (E' ++ (G.filterMap (fun p => p.2)).filter (fun e => e ∈ T)) := by
  induction G generalizing E E' with
  | nil => simp [absRun]
  | cons p G ih =>
    obtain ⟨j, o⟩ := p
    obtain ⟨h1, h2⟩ := h
    cases o with
    | none =>
      rw [List.filter_cons_of_neg (by simp)]
      simp only [List.filterMap_cons]
      exact ih h2 (by simpa using hE)
    | some e =>
      by_cases he : e ∈ T
      · rw [List.filter_cons_of_pos (by simpa using he)]
        simp only [List.filterMap_cons]
        rw [List.filter_cons_of_pos (by simpa using he)]
        have h1' : (absAdd key (mems E) (C j).word).1 = mems E ++ [e.m] := by rw [h1]; simp
        have h3 : (absAdd key (mems E') (C j).word).1 = mems E' ++ [e.m] :=
          absAdd_sub h1' (List.map_subset _ hE)
        have h4 := ih (E' := E' ++ [e]) h2 (by
          intro x hx
          rcases List.mem_append.1 hx with hx | hx
          · exact List.mem_append_left _ (hE hx)
          · exact List.mem_append_right _ (by simpa using hx))
        simp only [List.map_cons, absRun_add]
        rw [h3]
        rw [show mems E' ++ [e.m] = mems (E' ++ [e]) by simp]
        rw [h4]
        simp
      · rw [List.filter_cons_of_neg (by simpa using he)]
        simp only [List.filterMap_cons]
        rw [List.filter_cons_of_neg (by simpa using he)]
        exact ih h2 (fun x hx => List.mem_append_left _ (hE hx))

open Classical in
theorem filter_mem_of_sublist {α : Type} {T E : List α} (h : T.Sublist E) (hn : E.Nodup) :
    E.filter (fun e => e ∈ T) = T := by
  induction h with
  | slnil => rfl
  | @cons T E a h ih =>
    rw [List.nodup_cons] at hn
    rw [List.filter_cons_of_neg (by simpa using fun hc => hn.1 (h.subset hc)), ih hn.2]
  | @cons_cons T E a h ih =>
    rw [List.nodup_cons] at hn
    rw [List.filter_cons_of_pos (by simp)]
    have h1 : E.filter (fun e => e ∈ a :: T) = E.filter (fun e => e ∈ T) := by
      apply List.filter_congr
      intro x hx
      have : x ≠ a := by rintro rfl; exact hn.1 hx
      simp [this]
    rw [h1, ih hn.2]

/-! ## Checking that calls do not overlap, for examples -/

/-- A test for `Exclusive` when only the first `N` threads add words. -/
def exclusiveB (cf : List Char → List Char) (un : Normalizer) (C : ℕ → Call) (N : ℕ) :
    Sys → List ℕ → Bool
  | _, [] => true
  | s, i :: sched =>
    (!(C i).isAdd || (List.range N).all fun j => decide (j = i) || !(s.pc j).adding) &&
      exclusiveB cf un C N (s.step cf un C i) sched

theorem typed_step {s : Sys} (h : ∀ j, Typed (C j) (s.pc j)) (i : ℕ) :
    ∀ j, Typed (C j) ((s.step cf un C i).pc j) := by
  intro j
  by_cases hj : j = i
  · subst hj
    rw [Sys.step_pc_same]
    have := h j
    cases hC : C j <;> cases hp : s.pc j <;> rw [hC, hp] at this <;> first | exact this.elim | trivial
  · rw [Sys.step_pc_other hj]; exact h j

theorem exclusive_of_test {N : ℕ} (hN : ∀ j, N ≤ j → (C j).isAdd = false) {s : Sys}
    (ht : ∀ j, Typed (C j) (s.pc j)) {sched : List ℕ}
    (h : exclusiveB cf un C N s sched = true) : Exclusive cf un C s sched := by
  induction sched generalizing s with
  | nil => trivial
  | cons i sched ih =>
    unfold exclusiveB at h
    rw [Bool.and_eq_true] at h
    refine ⟨fun hi j hj => ?_, ih (typed_step ht i) h.2⟩
    rw [hi] at h
    by_cases hjN : j < N
    · have := List.all_eq_true.1 h.1 j (List.mem_range.2 hjN)
      simpa [hj] using this
    · have h1 := hN j (not_lt.1 hjN)
      have h2 := ht j
      cases hC : C j <;> cases hp : s.pc j <;> rw [hC] at h1 <;> rw [hC, hp] at h2 <;>
        first | exact h2.elim | rfl | cases h1

theorem typed_start (C : ℕ → Call) (st : WS) : ∀ j, Typed (C j) ((Sys.start C st).pc j) := by
  intro j
  show Typed (C j) (C j).pc
  cases C j <;> trivial

/-! ## The result of a search -/

open Classical in
/-- What the call returns that begins in this state. -/
theorem SInv.find_result {Es : List Entry} {s : Sys} {GA : Hist} (g2 : SInv cf un st C Es s GA)
    (hfair : ∀ i, (C i).Fair) (hrem : ∀ i, (C i).removes = false) {during : List ℕ}
    (hex : Exclusive cf un C s during) {i : ℕ} {ord : List (List Char) → List (List Char)}
    {q k : PyVal} {ms : MinSim} (hC : C i = .find ord q k ms) (hpc : s.pc i = .find .enter)
    {r : Except Err (List (List Char × ℚ))}
    (hr : (s.run cf un C during).pc i = .find (.done r)) :
    (st.filterN = none ∧ r = .error .runtimeError) ∨
    ∃ js : List ℕ, js.Sublist (GA.map (fun p => p.1) ++ starts cf un C s during) ∧
      (∀ j ∈ GA.map (fun p => p.1), (s.pc j).added = true → j ∈ js) ∧
      r = (absFind (st.key cf un) (sizesOf st) (absRun (st.key cf un) (sizesOf st) (mems Es)
        (js.map fun j => .add (C j).word)) q k ms).mapError .py := by
  -- the calls that have returned
  obtain ⟨G1, G2, hG, hcomp, hadded⟩ : ∃ G1 G2, GA = G1 ++ G2 ∧
      (∀ e ∈ entries Es G1, Complete st s.mem e) ∧
      ∀ j ∈ GA.map (fun p => p.1), (s.pc j).added = true → j ∈ G1.map (fun p => p.1) := by
    rcases g2.mem with ⟨h1, _⟩ | ⟨i', G0, e, p, h1, h2, h3, _⟩
    · exact ⟨GA, [], by simp, h1.complete g2.good, fun j hj _ => hj⟩
    · have hg := g2.good
      rw [h1, entries_snoc] at hg
      refine ⟨G0, [(i', some e)], h1, (h2.sound hg).2, ?_⟩
      intro j hj ha
      rw [h1, List.map_append, List.mem_append] at hj
      rcases hj with hj | hj
      · exact hj
      · simp only [List.map_cons, List.map_nil, List.mem_singleton] at hj
        subst hj
        rw [h3] at ha
        cases p with
        | done r => exact h2.elim
        | _ => cases ha
  have hE1 : ∀ e ∈ entries Es G1, e ∈ entries Es GA ∧ Complete st s.mem e := by
    intro e he
    refine ⟨?_, hcomp e he⟩
    rw [hG]; exact (entries_prefix Es G1 G2).subset he
  obtain ⟨G', p', g3, g4, g5, g6⟩ := g2.run_find hfair hrem hex hC hE1 hpc
    (show FInv cf un st q k ms (entries Es G1) (entries Es GA) _ .enter from trivial)
  rw [hr] at g5
  injection g5 with g5
  subst g5
  rcases g6 with ⟨hf, hrt⟩ | ⟨T, hT, hT1, hres⟩
  · exact Or.inl ⟨hf, hrt⟩
  · right
    have hsplit : entries Es (GA ++ G') = entries Es G1 ++ (G2 ++ G').filterMap (fun p => p.2) := by
      rw [hG, List.append_assoc, entries_append]; rfl
    have hnd : (entries Es (GA ++ G')).Nodup := (nodup_ids g4.good.ids).of_map
    have hTeq := filter_mem_of_sublist hT hnd
    rw [hsplit, List.filter_append, List.filter_eq_self.2 (fun e he => by simpa using hT1 e he)]
      at hTeq
    have hv := g4.valid
    rw [hG, List.append_assoc, valid_append] at hv
    refine ⟨G1.map (fun p => p.1) ++
      ((G2 ++ G').filter (fun p => ∃ e, p.2 = some e ∧ e ∈ T)).map (fun p => p.1), ?_, ?_, ?_⟩
    · rw [← g3, hG]
      have : G1.map (fun p => p.1) ++ (G2 ++ G').map (fun p => p.1) =
          (G1 ++ G2).map (fun p => p.1) ++ G'.map (fun p => p.1) := by simp
      rw [← this]
      exact (List.Sublist.refl _).append (List.filter_sublist.map _)
    · intro j hj ha
      exact List.mem_append_left _ (hadded j hj ha)
    · rw [hres]
      congr 1
      congr 1
      rw [List.map_append]
      have habs : ∀ (s : List Member) (a b : List WSOp),
          absRun (st.key cf un) (sizesOf st) s (a ++ b) =
            absRun (st.key cf un) (sizesOf st) (absRun (st.key cf un) (sizesOf st) s a) b := by
        intro s a b; unfold absRun; rw [List.foldl_append]
      rw [habs, valid_run _ hv.1, valid_filter _ T hv.2 (fun _ h => h), hTeq]

end Conc
end Verif
