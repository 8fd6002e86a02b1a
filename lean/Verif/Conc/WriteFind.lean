import Verif.Conc.WriteSystem

/-!
# `find_similar` while words are being added and discarded

Only with a filter: iterating over a dictionary from which items are removed is not modelled.
-/

namespace Verif
namespace Conc

open GramSpec WordSetSpec

variable {cf : List Char → List Char} {un : Normalizer} {st : WS} {C : ℕ → Call}

/-! ## The memory as seen by a reader -/

/-- What is stored is about entries of `X`. -/
structure MemIn (st : WS) (m : Shared) (X : List Entry) : Prop where
  like : Like st m
  vocab : m.vocab ≠ [] → X ≠ []
  index : ∀ g a i, Dict.get? m.index g = some a → i ∈ m.ids a → InIdx st X g i
  info : ∀ i x, Dict.get? m.info i = some x → ∃ e ∈ X, e.id = i ∧ x = st.computeInfo e.m.key
  originals : ∀ i w, Dict.get? m.originals i = some w → ∃ e ∈ X, e.id = i ∧ w = e.m.orig
  addr : ∀ g a, Dict.get? m.index g = some a → a < m.maps.length
  inj : ∀ g g' a, Dict.get? m.index g = some a → Dict.get? m.index g' = some a → g = g'

theorem MRep.memIn {m : Shared} {Ev Eo Ei X : List Entry} {I : List Char → ℕ → Prop}
    {x : Option (List Char)} (h : MRep st m Ev Eo Ei I x) (h1 : Ev ⊆ X) (h2 : Eo ⊆ X) (h3 : Ei ⊆ X)
    (hI : ∀ g i, I g i → InIdx st X g i) : MemIn st m X := by
  refine ⟨h.like, ?_, fun g a i hg hi => hI g i ((h.idx g a hg i).1 hi), ?_, ?_, h.addr, h.inj⟩
  · intro hv hX
    apply hv
    rw [h.vocab, List.map_eq_nil_iff]
    rw [hX] at h1
    exact List.subset_nil.1 h1
  · intro i x hx
    have := Dict.mem_of_get? hx
    rw [h.info] at this
    obtain ⟨e, he, heq⟩ := List.mem_map.1 this
    simp only [Prod.mk.injEq] at heq
    exact ⟨e, h3 he, heq.1, heq.2.symm⟩
  · intro i w hw
    have := Dict.mem_of_get? hw
    rw [h.originals] at this
    obtain ⟨e, he, heq⟩ := List.mem_map.1 this
    simp only [Prod.mk.injEq] at heq
    exact ⟨e, h2 he, heq.1, heq.2.symm⟩

theorem Pend.memIn {m : Shared} {E0 : List Entry} {e : Entry} {p : AddPc} (h : Pend st m E0 e p) :
    MemIn st m (E0 ++ [e]) := by
  have s1 : E0 ⊆ E0 ++ [e] := List.subset_append_left _ _
  have r : ∀ l : List Entry, l ⊆ l := fun l => List.Subset.refl l
  have i0 : ∀ g i, Part st E0 e (fun _ => False) g i → InIdx st (E0 ++ [e]) g i := by
    intro g i hp
    obtain ⟨x, hx, hr⟩ := part_false g i hp
    exact ⟨x, s1 hx, hr⟩
  cases p with
  | enter => exact h.elim
  | readId w nw => exact h.2.2.memIn s1 s1 s1 i0
  | readCounter w nw id => exact h.2.2.2.memIn s1 s1 s1 i0
  | writeCounter w nw id c => exact h.2.2.2.2.memIn s1 s1 s1 i0
  | setVocab w nw id => exact h.2.2.2.memIn s1 s1 s1 i0
  | setOriginal w nw id => exact h.2.2.2.memIn (r _) s1 s1 i0
  | setInfo nw id => exact h.2.2.2.memIn (r _) (r _) s1 i0
  | test id gs =>
    obtain ⟨_, _, f, hf, _, _, h⟩ := h
    exact h.memIn (r _) (r _) (r _) (part_le hf (fun g h => h.1))
  | create id g gs =>
    obtain ⟨_, _, f, hf, _, _, h, _⟩ := h
    exact h.memIn (r _) (r _) (r _) (part_le hf (fun g h => h.1))
  | fetch id g gs =>
    obtain ⟨_, _, f, hf, _, _, h, _⟩ := h
    exact h.memIn (r _) (r _) (r _) (part_le hf (fun g h => h.1))
  | put id a gs =>
    obtain ⟨_, _, f, g, hf, _, _, h, _⟩ := h
    exact h.memIn (r _) (r _) (r _) (part_le hf (fun g h => h.1))
  | done r => exact h.elim

theorem PendD.memIn {m : Shared} {E0 : List Entry} {e : Entry} (he : e ∈ E0) {p : DiscardPc}
    (h : PendD st m E0 e p) : MemIn st m E0 := by
  have r : ∀ l : List Entry, l ⊆ l := fun l => List.Subset.refl l
  have w : without E0 e ⊆ E0 := (without_sublist E0 e).subset
  have part : ∀ {f : ℤ} {P : List Char → Prop}, st.filterN = some f →
      (∀ g, P g → g ∈ grams f.toNat e.m.key) → ∀ g i, Part st (without E0 e) e P g i →
      InIdx st E0 g i := by
    rintro f P hf hP g i (⟨x, hx, hr⟩ | ⟨rfl, hp⟩)
    · exact ⟨x, w hx, hr⟩
    · exact ⟨e, he, rfl, f, hf, hP g hp⟩
  cases p with
  | enter => exact h.elim
  | popVocab nw => exact h.2.memIn (r _) (r _) (r _) (fun _ _ h => h)
  | delOriginal id => exact h.2.memIn w (r _) (r _) (fun _ _ h => h)
  | popInfo id => exact h.2.memIn w w (r _) (fun _ _ h => h)
  | test id gs =>
    obtain ⟨_, f, hf, _, hgs, h⟩ := h
    exact h.memIn w w w (part hf hgs)
  | fetch id g gs =>
    obtain ⟨_, f, hf, _, hgs, h⟩ := h
    exact h.memIn w w w (part hf hgs)
  | drop id a g gs =>
    obtain ⟨_, f, hf, _, hgs, h, _⟩ := h
    exact h.memIn w w w (part hf hgs)
  | empty id a g gs =>
    obtain ⟨_, f, hf, _, hgs, h, _⟩ := h
    exact h.memIn w w w (part hf (fun g hg => hgs g (List.mem_cons_of_mem _ hg)))
  | del id g gs =>
    obtain ⟨_, f, hf, _, hgs, h, _⟩ := h
    exact h.memIn w w w (part hf (fun g hg => hgs g (List.mem_cons_of_mem _ hg)))
  | done r => exact h.elim

/-- What is stored is about the members after some of the calls, among them those that have returned. -/
theorem WInv.memIn {M : List Member} {s : Sys} {L : List ℕ} {E H : List Entry}
    (h : WInv cf un st C M s L E H) {J : List ℕ} (hJ : ∀ j ∈ J, j ∈ L ∧ (s.pc j).writing = false) :
    ∃ X a, MemIn st s.mem X ∧ (∀ x ∈ X, x ∈ H ∧ Latest H x) ∧ a <+: L ∧ (∀ j ∈ J, j ∈ a) ∧
      mems X = membersAfter cf un st C M a := by
  have hph := h.phase
  generalize hL : L = L' at hph
  generalize hE : E = E' at hph
  generalize hH : H = H' at hph
  cases hph with
  | idle h1 h2 h3 =>
    subst hL hE hH
    exact ⟨E, L, h1.1.memIn (List.Subset.refl _) (List.Subset.refl _) (List.Subset.refl _)
      (fun _ _ h => h), h.sub, List.prefix_rfl, fun j hj => (hJ j hj).1, h.abs⟩
  | @adding L0 E0 H0 i e p h1 h2 h3 h4 h5 =>
    subst hL hE hH
    exact ⟨_, _, h1.memIn, h.sub, List.prefix_rfl, fun j hj => (hJ j hj).1, h.abs⟩
  | @removing L0 E0 H0 i e p h1 h2 h3 h4 h5 h6 h7 h8 h9 =>
    subst hL hE hH
    refine ⟨E0, L0, h1.memIn h2, h7, List.prefix_append _ _, ?_, h5⟩
    intro j hj
    obtain ⟨h10, h11⟩ := hJ j hj
    rcases List.mem_append.1 h10 with h10 | h10
    · exact h10
    · rw [List.mem_singleton] at h10
      subst h10
      rw [h3, h1.writing] at h11; cases h11

/-- Scoring needs only the information on the word. -/
theorem scoreWith_info {m : Shared} (hl : Like st m) {e : Entry} (hg : Good cf un st [e])
    (hr : Dict.get? m.info e.id = some (st.computeInfo e.m.key)) (nq : List Char) (D : List Entry) :
    scoreWith m nq (pairsOf (sizesOf st) nq D) e.id = .ok (pairsOf (sizesOf st) nq (D ++ [e])) := by
  have h1 : Ready st { m with originals := [(e.id, e.m.orig)] } e :=
    ⟨hr, by simp [Dict.get?_cons]⟩
  exact scoreWith_ready hg (m := { m with originals := [(e.id, e.m.orig)] }) hl (by simp) h1 nq D

/-! ## The invariant of the reader -/

/-- A list that is returned: at most `k` words, the best first, none twice, each of them right by `P`; and
an entry of `E1` is missing only if there are `k` that are as good. -/
structure OkList (cf : List Char → List Char) (un : Normalizer) (st : WS) (q k : PyVal) (ms : MinSim)
    (P : Entry → Prop) (E1 : List Entry) (l : List (List Char × ℚ)) : Prop where
  size : ∃ kk : ℤ, k = .int kk ∧ l.length ≤ kk.toNat ∧ ∀ nq, Base cf un st q k ms nq → ∀ e ∈ E1,
    Candidate (sizesOf st) nq e.m.key → (e.m.orig, score (sizesOf st) nq e.m.key) ∈ l ∨
      (l.length = kk.toNat ∧ ∀ p ∈ l, score (sizesOf st) nq e.m.key ≤ p.2)
  desc : l.Pairwise (fun a b => b.2 ≤ a.2)
  once : (l.map (fun p => p.1)).Nodup
  right : ∀ p ∈ l, ∃ nq, Base cf un st q k ms nq ∧ ∃ e, P e ∧ Candidate (sizesOf st) nq e.m.key ∧
    p = (e.m.orig, score (sizesOf st) nq e.m.key)

/-- What the call returns. -/
def DFinal (cf : List Char → List Char) (un : Normalizer) (st : WS) (q k : PyVal) (ms : MinSim)
    (P : Entry → Prop) (T : List Member → Prop) (E1 : List Entry)
    (r : Except Err (List (List Char × ℚ))) : Prop :=
  r = .error (.py .keyError) ∨
    (∃ e s, T s ∧ absFind (st.key cf un) (sizesOf st) s q k ms = .error e ∧ r = .error (.py e)) ∨
    ∃ l, r = .ok l ∧ OkList cf un st q k ms P E1 l

/-- The entries whose ids have been collected. -/
structure DCands (cf : List Char → List Char) (un : Normalizer) (st : WS) (H : List Entry)
    (P : Entry → Prop) (E1 : List Entry) (nq : List Char) (CE : List Entry) : Prop where
  nodup : (CE.map (fun e => e.id)).Nodup
  sub : ∀ e ∈ CE, e ∈ H ∧ P e
  cand : ∀ e ∈ CE, Candidate (sizesOf st) nq e.m.key
  all : ∀ e ∈ E1, Candidate (sizesOf st) nq e.m.key → e ∈ CE

/-- The entries whose ids have been collected before the n-grams `gs` are looked up. -/
structure DColl (H : List Entry) (P : Entry → Prop) (E1 : List Entry) (f : ℤ) (nq : List Char)
    (gs : List (List Char)) (CE : List Entry) : Prop where
  nodup : (CE.map (fun e => e.id)).Nodup
  sub : ∀ e ∈ CE, e ∈ H ∧ P e
  gram : ∀ e ∈ CE, ∃ g ∈ grams f.toNat nq, g ∈ grams f.toNat e.m.key
  all : ∀ e ∈ E1, ∀ g ∈ grams f.toNat nq, g ∉ gs → g ∈ grams f.toNat e.m.key → e ∈ CE
  todo : ∀ g ∈ gs, g ∈ grams f.toNat nq

/-- The bitmap `a` has been found in the index under `g`. -/
structure Owned (m : Shared) (H : List Entry) (P : Entry → Prop) (E1 : List Entry) (f : ℤ)
    (g : List Char) (a : ℕ) : Prop where
  addr : a < m.maps.length
  only : ∀ g', Dict.get? m.index g' = some a → g' = g
  ids : ∀ i ∈ m.ids a, ∃ e ∈ H, e.id = i ∧ P e ∧ g ∈ grams f.toNat e.m.key
  still : ∀ e ∈ E1, g ∈ grams f.toNat e.m.key → Dict.get? m.index g = some a

/-- The invariant. -/
def DInv (cf : List Char → List Char) (un : Normalizer) (st : WS) (q k : PyVal) (ms : MinSim) (f : ℤ)
    (H : List Entry) (P : Entry → Prop) (T : List Member → Prop) (E1 : List Entry) (m : Shared) :
    FindPc → Prop
  | .enter => True
  | .collect nq gs cand => Base cf un st q k ms nq ∧ ∃ CE : List Entry,
      cand = CE.map (fun e => e.id) ∧ DColl H P E1 f nq gs CE
  | .test nq a gs cand => Base cf un st q k ms nq ∧ ∃ (g : List Char) (CE : List Entry),
      cand = CE.map (fun e => e.id) ∧ DColl H P E1 f nq (g :: gs) CE ∧ Owned m H P E1 f g a
  | .update nq a gs cand => Base cf un st q k ms nq ∧ ∃ (g : List Char) (CE : List Entry),
      cand = CE.map (fun e => e.id) ∧ DColl H P E1 f nq (g :: gs) CE ∧ Owned m H P E1 f g a
  | .scan nq ids scored => Base cf un st q k ms nq ∧ ∃ D R : List Entry,
      DCands cf un st H P E1 nq (D ++ R) ∧ ids = R.map (fun e => e.id) ∧
      scored = pairsOf (sizesOf st) nq D ∧ ∀ e ∈ D, Latest (D ++ R) e
  | .pick todo res => ∃ nq kk, Base cf un st q k ms nq ∧ k = .int kk ∧ ∃ CE Rd Rr : List Entry,
      DCands cf un st H P E1 nq CE ∧ (∀ e ∈ CE, Latest CE e) ∧
      (sortedOf (sizesOf st) nq CE).take kk.toNat = Rd ++ Rr ∧
      todo = Rr.map (pairOf (sizesOf st) nq) ∧
      res = Rd.map (fun e => (e.m.orig, score (sizesOf st) nq e.m.key))
  | .done r => DFinal cf un st q k ms P T E1 r
  | _ => False

theorem OkList.mono {q k : PyVal} {ms : MinSim} {P P' : Entry → Prop} {E1 : List Entry}
    {l : List (List Char × ℚ)} (h : OkList cf un st q k ms P E1 l) (hP : ∀ e, P e → P' e) :
    OkList cf un st q k ms P' E1 l := by
  refine ⟨h.size, h.desc, h.once, ?_⟩
  intro p hp
  obtain ⟨nq, h1, e, h2, h3⟩ := h.right p hp
  exact ⟨nq, h1, e, hP e h2, h3⟩

/-- Steps of other threads. -/
theorem DInv.mono {q k : PyVal} {ms : MinSim} {f : ℤ} {H H' : List Entry} {P P' : Entry → Prop}
    {T T' : List Member → Prop} {E1 : List Entry} {m m' : Shared} (hf : st.filterN = some f)
    (hH : ∀ e ∈ H, e ∈ H') (hP : ∀ e, P e → P' e) (hT : ∀ s, T s → T' s) (hm : Moved m m')
    (hidx : ∀ g a i, Dict.get? m'.index g = some a → i ∈ m'.ids a →
      ∃ e ∈ H', e.id = i ∧ P' e ∧ g ∈ grams f.toNat e.m.key)
    (h1 : ∀ e ∈ E1, Complete st m' e) {p : FindPc}
    (h : DInv cf un st q k ms f H P T E1 m p) : DInv cf un st q k ms f H' P' T' E1 m' p := by
  have hcoll : ∀ {nq gs CE}, DColl H P E1 f nq gs CE → DColl H' P' E1 f nq gs CE := fun hc =>
    ⟨hc.nodup, fun e he => ⟨hH e (hc.sub e he).1, hP e (hc.sub e he).2⟩, hc.gram, hc.all, hc.todo⟩
  have hcand : ∀ {nq CE}, DCands cf un st H P E1 nq CE → DCands cf un st H' P' E1 nq CE := fun hc =>
    ⟨hc.nodup, fun e he => ⟨hH e (hc.sub e he).1, hP e (hc.sub e he).2⟩, hc.cand, hc.all⟩
  have hown : ∀ {g a}, Owned m H P E1 f g a → Owned m' H' P' E1 f g a := by
    intro g a ho
    refine ⟨lt_of_lt_of_le ho.addr hm.len, fun g' hg' => ho.only g' (hm.old g' a hg' ho.addr), ?_, ?_⟩
    · intro i hi
      by_cases hc : ∃ g', Dict.get? m'.index g' = some a
      · obtain ⟨g', hg'⟩ := hc
        have := ho.only g' (hm.old g' a hg' ho.addr)
        subst this
        exact hidx g' a i hg' hi
      · obtain ⟨e, he, h2, h3, h4⟩ := ho.ids i (hm.out a (fun g' hg' => hc ⟨g', hg'⟩) i hi)
        exact ⟨e, hH e he, h2, hP e h3, h4⟩
    · intro e he hg
      obtain ⟨a', ha', _⟩ := (h1 e he).2.2.2 f hf g hg
      rcases hm.keep g a (ho.still e he hg) with h2 | h2
      · rw [h2] at ha'; cases ha'
      · exact h2
  cases p with
  | enter => trivial
  | collect nq gs cand =>
    obtain ⟨hb, CE, h2, h3⟩ := h
    exact ⟨hb, CE, h2, hcoll h3⟩
  | test nq a gs cand =>
    obtain ⟨hb, g, CE, h2, h3, h4⟩ := h
    exact ⟨hb, g, CE, h2, hcoll h3, hown h4⟩
  | update nq a gs cand =>
    obtain ⟨hb, g, CE, h2, h3, h4⟩ := h
    exact ⟨hb, g, CE, h2, hcoll h3, hown h4⟩
  | scan nq ids scored =>
    obtain ⟨hb, D, R, h2, h3⟩ := h
    exact ⟨hb, D, R, hcand h2, h3⟩
  | iter nq => exact h.elim
  | next nq size pos scored => exact h.elim
  | live nq size pos id scored => exact h.elim
  | pick todo res =>
    obtain ⟨nq, kk, hb, hk, CE, Rd, Rr, h2, h3⟩ := h
    exact ⟨nq, kk, hb, hk, CE, Rd, Rr, hcand h2, h3⟩
  | done r =>
    rcases h with h | ⟨e, s, h2, h3⟩ | ⟨l, h2, h3⟩
    · exact Or.inl h
    · exact Or.inr (Or.inl ⟨e, s, hT s h2, h3⟩)
    · exact Or.inr (Or.inr ⟨l, h2, h3.mono hP⟩)

theorem OkList.nil {q k : PyVal} {ms : MinSim} {P : Entry → Prop} {E1 : List Entry} {kk : ℤ}
    (hk : k = .int kk) (h : ∀ nq, Base cf un st q k ms nq → ∀ e ∈ E1,
      ¬ Candidate (sizesOf st) nq e.m.key) : OkList cf un st q k ms P E1 [] :=
  ⟨⟨kk, hk, by simp, fun nq hb e he hc => absurd hc (h nq hb e he)⟩, List.Pairwise.nil, by simp,
    by simp⟩

theorem base_unique {q k : PyVal} {ms : MinSim} {nq nq' : List Char} (h : Base cf un st q k ms nq)
    (h' : Base cf un st q k ms nq') : nq = nq' := by
  obtain ⟨qs, kk, rfl, _, _, _, _, h1, _⟩ := h
  obtain ⟨qs', kk', h2, _, _, _, _, h3, _⟩ := h'
  injection h2 with h2
  subst h2
  rw [h1] at h3
  injection h3

theorem DCands.okList {q k : PyVal} {ms : MinSim} {H : List Entry} {P : Entry → Prop}
    {E1 : List Entry} {nq : List Char} {kk : ℤ} {CE : List Entry} (hb : Base cf un st q k ms nq)
    (hk : k = .int kk) (hc : DCands cf un st H P E1 nq CE) (hl : ∀ e ∈ CE, Latest CE e)
    (hg : ∀ e ∈ H, Good cf un st [e]) (hH : H.Pairwise (fun a b => a.id < b.id)) :
    OkList cf un st q k ms P E1 (((sortedOf (sizesOf st) nq CE).take kk.toNat).map
      (fun e => (e.m.orig, score (sizesOf st) nq e.m.key))) := by
  have hpw : (sortedOf (sizesOf st) nq CE).Pairwise
      (fun a b => score (sizesOf st) nq b.m.key ≤ score (sizesOf st) nq a.m.key) := by
    have h1 : ((pairsOf (sizesOf st) nq CE).insertionSort tupleLe).Pairwise tupleLe :=
      List.pairwise_insertionSort tupleLe _
    rw [← sortedOf_map, List.pairwise_map] at h1
    refine h1.imp ?_
    intro a b hab
    unfold tupleLe pairOf at hab
    simp only at hab
    rcases hab with hab | ⟨hab, _⟩ <;> linarith
  have hnd : (sortedOf (sizesOf st) nq CE).Nodup := by
    have h1 : CE.Nodup := hc.nodup.of_map
    exact (List.perm_insertionSort _ _).nodup_iff.2 (h1.filter _)
  have hin : ∀ e ∈ (sortedOf (sizesOf st) nq CE).take kk.toNat, e ∈ CE := fun e he =>
    mem_sortedOf (List.mem_of_mem_take he)
  refine ⟨⟨kk, hk, ?_, ?_⟩, ?_, ?_, ?_⟩
  · rw [List.length_map, List.length_take]; exact min_le_left _ _
  · intro nq' hb' e he hcand
    have := base_unique hb hb'
    subst this
    have h1 : e ∈ sortedOf (sizesOf st) nq CE :=
      (List.perm_insertionSort _ _).mem_iff.2 (List.mem_filter.2 ⟨hc.all e he hcand,
        by simpa using totalCount_pos_of_candidate hcand⟩)
    rw [← List.take_append_drop kk.toNat (sortedOf (sizesOf st) nq CE), List.mem_append] at h1
    rcases h1 with h1 | h1
    · exact Or.inl (List.mem_map.2 ⟨e, h1, rfl⟩)
    · right
      constructor
      · rw [List.length_map, List.length_take, min_eq_left]
        have := List.length_pos_of_mem h1
        rw [List.length_drop] at this
        omega
      · intro p hp
        obtain ⟨x, hx, rfl⟩ := List.mem_map.1 hp
        rw [← List.take_append_drop kk.toNat (sortedOf (sizesOf st) nq CE), List.pairwise_append]
          at hpw
        exact hpw.2.2 x hx e h1
  · rw [List.pairwise_map]
    exact hpw.sublist (List.take_sublist _ _)
  · rw [List.map_map]
    unfold List.Nodup
    rw [List.pairwise_map]
    refine List.Pairwise.imp_of_mem ?_ (hnd.sublist (List.take_sublist _ _))
    intro a b ha hb' hab heq
    simp only [Function.comp_apply] at heq
    have ha1 := hin a ha
    have hb1 := hin b hb'
    have k1 := ((hg a (hc.sub a ha1).1).keys a (by simp)).1
    have k2 := ((hg b (hc.sub b hb1).1).keys b (by simp)).1
    rw [heq, k2] at k1
    injection k1 with k1
    have l1 := hl a ha1 b hb1 k1
    have l2 := hl b hb1 a ha1 k1.symm
    exact hab (id_inj hH (hc.sub a ha1).1 (hc.sub b hb1).1 (le_antisymm l2 l1))
  · intro p hp
    obtain ⟨e, he, rfl⟩ := List.mem_map.1 hp
    exact ⟨nq, hb, e, (hc.sub e (hin e he)).2, hc.cand e (hin e he), rfl⟩

/-- A step of the thread. -/
theorem DInv.step {q k : PyVal} {ms : MinSim} {f : ℤ} {H : List Entry} {P : Entry → Prop}
    {T : List Member → Prop} {E1 : List Entry} {m : Shared}
    {ord : List (List Char) → List (List Char)} (hord : ∀ l, (ord l).Perm l) (hf : st.filterN = some f)
    {E : List Entry} (hgE : Good cf un st E)
    (hg : ∀ e ∈ H, Good cf un st [e]) (hH : H.Pairwise (fun a b => a.id < b.id)) {X : List Entry}
    (hX : MemIn st m X) (hXH : ∀ x ∈ X, x ∈ H ∧ Latest H x) (hXP : ∀ x ∈ X, P x) (hXT : T (mems X))
    (h1 : ∀ e ∈ E1, e ∈ H ∧ Complete st m e) {p : FindPc}
    (h : DInv cf un st q k ms f H P T E1 m p) :
    DInv cf un st q k ms f H P T E1 m (findStep cf un ord q k ms m p) := by
  have hl := hX.like
  have hfs : WordSetSpec.filterSize (sizesOf st) = some f.toNat := hgE.filterSize hf
  have hidx : ∀ g a i, Dict.get? m.index g = some a → i ∈ m.ids a →
      ∃ e ∈ H, e.id = i ∧ P e ∧ g ∈ grams f.toNat e.m.key := by
    intro g a i hi hm
    obtain ⟨e, he, hid, f', hf', hgr⟩ := hX.index g a i hi hm
    rw [hf] at hf'
    injection hf' with hf'
    subst hf'
    exact ⟨e, (hXH e he).1, hid, hXP e he, hgr⟩
  cases p with
  | enter =>
    have err : ∀ e : PyErr, absFind (st.key cf un) (sizesOf st) (mems X) q k ms = .error e →
        DFinal cf un st q k ms P T E1 (.error (.py e)) :=
      fun e he => Or.inr (Or.inl ⟨e, _, hXT, he, rfl⟩)
    cases q with
    | int i => exact err _ (by cases k <;> rfl)
    | other => exact err _ (by cases k <;> rfl)
    | str qs =>
      cases k with
      | str w => exact err _ rfl
      | other => exact err _ rfl
      | int kk =>
        simp only [findStep]
        by_cases hk : kk ≤ 0
        · rw [if_pos hk]
          exact err _ (by simp [absFind, hk])
        rw [if_neg hk]
        by_cases ha : ms.accepted = true
        · have ha' := (accepted_iff ms).1 ha
          have ha'' : ¬ (kk ≤ 0 ∨ ms = .bad ∨ ∃ x, ms = .num x ∧ ¬ (0 ≤ x ∧ x ≤ 1)) := by
            rw [not_or]; exact ⟨hk, ha'⟩
          rw [ha]
          simp only
          have okNil : (∀ nq, Base cf un st (.str qs) (.int kk) ms nq → ∀ e ∈ E1,
              ¬ Candidate (sizesOf st) nq e.m.key) →
              DFinal cf un st (.str qs) (.int kk) ms P T E1 (.ok []) :=
            fun hn => Or.inr (Or.inr ⟨[], rfl, OkList.nil rfl hn⟩)
          by_cases hq : qs = []
          · rw [if_pos (Or.inl hq)]
            refine okNil ?_
            rintro nq ⟨qs', _, h2, _, _, _, h3, _⟩
            injection h2 with h2
            exact absurd (h2 ▸ hq) h3
          by_cases hv : m.vocab = []
          · rw [if_pos (Or.inr hv)]
            refine okNil ?_
            intro nq _ e he
            have := (h1 e he).2.2.1
            rw [hv] at this
            cases this
          rw [if_neg (by rw [not_or]; exact ⟨hq, hv⟩), hl.normalize, normalizeWord_eq]
          have hqX : ¬ (qs = [] ∨ mems X = []) := by
            rw [not_or]
            refine ⟨hq, ?_⟩
            rw [List.map_eq_nil_iff]; exact hX.vocab hv
          cases hkey : keyOf st.caseSensitive cf un qs with
          | none =>
            simp only
            exact err _ (by simp only [absFind, if_neg ha'', if_neg hqX, WS.key, hkey])
          | some nq =>
            simp only
            by_cases hnq : nq = []
            · rw [if_pos hnq]
              refine okNil ?_
              rintro nq' ⟨qs', _, h2, _, _, _, _, h3, h4⟩
              injection h2 with h2
              subst h2
              unfold WS.key at h3
              rw [hkey] at h3
              injection h3 with h3
              exact absurd (h3 ▸ hnq) h4
            rw [if_neg hnq]
            have hb : Base cf un st (.str qs) (.int kk) ms nq :=
              ⟨qs, kk, rfl, rfl, not_le.1 hk, ha, hq, hkey, hnq⟩
            rw [hl.2.2, hf]
            simp only
            rw [wsGrams_eq (hgE.filterPos hf)]
            by_cases hgs : (grams f.toNat nq).dedup = []
            · rw [if_pos hgs]
              refine okNil ?_
              intro nq' hb' e he hc
              have := base_unique hb hb'
              subst this
              unfold Candidate at hc
              rw [hfs] at hc
              obtain ⟨g, hg1, _⟩ := hc
              rw [← List.mem_dedup, hgs] at hg1
              cases hg1
            · rw [if_neg hgs]
              refine ⟨hb, [], rfl, by simp, by simp, by simp, ?_, ?_⟩
              · intro e he g hg1 hg2
                exact absurd ((hord _).mem_iff.2 (List.mem_dedup.2 hg1)) hg2
              · intro g hg1
                exact List.mem_dedup.1 ((hord _).mem_iff.1 hg1)
        · have hn := not_not.1 (mt (accepted_iff ms).2 ha)
          rw [Bool.not_eq_true] at ha
          rw [ha]
          exact err _ (by simp only [absFind]; rw [if_pos (Or.inr hn)])
  | collect nq gs cand =>
    obtain ⟨hb, CE, rfl, hc⟩ := h
    cases gs with
    | nil =>
      have hcs : DCands cf un st H P E1 nq CE := by
        refine ⟨hc.nodup, hc.sub, ?_, ?_⟩
        · intro e he
          unfold Candidate
          rw [hfs]
          exact hc.gram e he
        · intro e he hcd
          unfold Candidate at hcd
          rw [hfs] at hcd
          obtain ⟨g, h2, h3⟩ := hcd
          exact hc.all e he g h2 (by simp) h3
      simp only [findStep]
      split
      · rename_i hnil
        rw [List.map_eq_nil_iff] at hnil
        subst hnil
        obtain ⟨kk, hk⟩ := hb.int
        refine Or.inr (Or.inr ⟨[], rfl, OkList.nil hk ?_⟩)
        intro nq' hb' e he hcd
        have := base_unique hb hb'
        subst this
        have := hcs.all e he hcd
        cases this
      · exact ⟨hb, [], CE, hcs, rfl, rfl, by simp⟩
    | cons g gs =>
      simp only [findStep]
      cases hi : Dict.get? m.index g with
      | none =>
        refine ⟨hb, CE, rfl, hc.nodup, hc.sub, hc.gram, ?_,
          fun g' hg' => hc.todo g' (List.mem_cons_of_mem _ hg')⟩
        intro e he g' hg1 hg2 hg3
        by_cases hgg : g' = g
        · subst hgg
          obtain ⟨a, ha, _⟩ := (h1 e he).2.2.2.2 f hf g' hg3
          rw [hi] at ha; cases ha
        · exact hc.all e he g' hg1 (by simp [hgg, hg2]) hg3
      | some a =>
        exact ⟨hb, g, CE, rfl, hc, hX.addr g a hi, fun g' hg' => hX.inj g' g a hg' hi,
          fun i hm => hidx g a i hi hm, fun _ _ _ => hi⟩
  | test nq a gs cand =>
    obtain ⟨hb, g, CE, rfl, hc, ho⟩ := h
    simp only [findStep]
    split
    · rename_i hnil
      refine ⟨hb, CE, rfl, hc.nodup, hc.sub, hc.gram, ?_,
        fun g' hg' => hc.todo g' (List.mem_cons_of_mem _ hg')⟩
      intro e he g' hg1 hg2 hg3
      by_cases hgg : g' = g
      · subst hgg
        obtain ⟨a', ha, hid⟩ := (h1 e he).2.2.2.2 f hf g' hg3
        rw [ho.still e he hg3] at ha; injection ha with ha; subst ha
        rw [hnil] at hid; cases hid
      · exact hc.all e he g' hg1 (by simp [hgg, hg2]) hg3
    · exact ⟨hb, g, CE, rfl, hc, ho⟩
  | update nq a gs cand =>
    obtain ⟨hb, g, CE, rfl, hc, ho⟩ := h
    simp only [findStep]
    refine ⟨hb, ?_⟩
    have hex : ∀ i ∈ (CE.map (fun e => e.id) ++ m.ids a).dedup, ∃ e, e ∈ H ∧ e.id = i ∧
        P e ∧ ∃ g ∈ grams f.toNat nq, g ∈ grams f.toNat e.m.key := by
      intro i hi'
      rcases List.mem_append.1 (List.mem_dedup.1 hi') with hi' | hi'
      · obtain ⟨e, he, rfl⟩ := List.mem_map.1 hi'
        exact ⟨e, (hc.sub e he).1, rfl, (hc.sub e he).2, hc.gram e he⟩
      · obtain ⟨e, he, hid, hr, hm⟩ := ho.ids i hi'
        exact ⟨e, he, hid, hr, g, hc.todo g List.mem_cons_self, hm⟩
    obtain ⟨CE', hCE', hid⟩ : ∃ CE' : List Entry, (∀ e ∈ CE', e ∈ H ∧ P e ∧
        ∃ g ∈ grams f.toNat nq, g ∈ grams f.toNat e.m.key) ∧
        CE'.map (fun e => e.id) = (CE.map (fun e => e.id) ++ m.ids a).dedup := by
      generalize (CE.map (fun e => e.id) ++ m.ids a).dedup = l at hex
      induction l with
      | nil => exact ⟨[], by simp, rfl⟩
      | cons i l ih =>
        obtain ⟨CE', h2, h3⟩ := ih (fun j hj => hex j (List.mem_cons_of_mem _ hj))
        obtain ⟨e, he, hid, hr⟩ := hex i List.mem_cons_self
        refine ⟨e :: CE', ?_, by simp [hid, h3]⟩
        intro e' he'
        rcases List.mem_cons.1 he' with rfl | he'
        · exact ⟨he, hr⟩
        · exact h2 e' he'
    refine ⟨CE', hid.symm, by rw [hid]; exact List.nodup_dedup _,
      fun e he => ⟨(hCE' e he).1, (hCE' e he).2.1⟩, fun e he => (hCE' e he).2.2, ?_,
      fun g' hg' => hc.todo g' (List.mem_cons_of_mem _ hg')⟩
    intro e he g' hg1 hg2 hg3
    have hin : e.id ∈ CE'.map (fun e => e.id) := by
      rw [hid, List.mem_dedup, List.mem_append]
      by_cases hgg : g' = g
      · subst hgg
        obtain ⟨a', ha, hid⟩ := (h1 e he).2.2.2.2 f hf g' hg3
        rw [ho.still e he hg3] at ha; injection ha with ha; subst ha
        exact Or.inr hid
      · exact Or.inl (List.mem_map.2 ⟨e, hc.all e he g' hg1 (by simp [hgg, hg2]) hg3, rfl⟩)
    obtain ⟨e', he', hid'⟩ := List.mem_map.1 hin
    rwa [id_inj hH (hCE' e' he').1 (h1 e he).1 hid'] at he'
  | scan nq ids scored =>
    obtain ⟨hb, D, R, hc, rfl, rfl, hla⟩ := h
    obtain ⟨kk, hk⟩ := hb.int
    cases R with
    | nil =>
      rw [List.append_nil] at hc hla
      subst hk
      simp only [List.map_nil, findStep]
      refine ⟨nq, kk, hb, rfl, D, [], _, hc, hla, rfl, ?_, rfl⟩
      rw [List.map_take, sortedOf_map]
    | cons e R =>
      have he := (hc.sub e (by simp)).1
      simp only [List.map_cons, findStep]
      cases hi : Dict.get? m.info e.id with
      | none =>
        have : scoreWith m nq (pairsOf (sizesOf st) nq D) e.id = .error .keyError := by
          unfold scoreWith WS.scoreStep pyKey
          rw [show m.view.info = m.info from rfl, hi]
          rfl
        rw [this]
        exact Or.inl rfl
      | some x =>
        obtain ⟨e', he', hid, rfl⟩ := hX.info _ _ hi
        have hee : e' = e := id_inj hH (hXH e' he').1 he hid
        subst hee
        rw [scoreWith_info hl (hg e' he) hi]
        refine ⟨hb, D ++ [e'], R, by simpa using hc, rfl, rfl, ?_⟩
        intro x hx
        rcases List.mem_append.1 hx with hx | hx
        · have := hla x hx
          simpa using this
        · rw [List.mem_singleton] at hx
          subst hx
          intro y hy hyk
          exact (hXH x he').2 y (hc.sub y (by simpa using hy)).1 hyk
  | iter nq => exact h.elim
  | next nq size pos scored => exact h.elim
  | live nq size pos id scored => exact h.elim
  | pick todo res =>
    obtain ⟨nq, kk, hb, hk, CE, Rd, Rr, hc, hla, ht, rfl, rfl⟩ := h
    cases Rr with
    | nil =>
      simp only [List.map_nil, findStep]
      rw [List.append_nil] at ht
      rw [← ht]
      exact Or.inr (Or.inr ⟨_, rfl, hc.okList hb hk hla hg hH⟩)
    | cons e Rr =>
      have he : e ∈ CE := by
        apply mem_sortedOf (ns := sizesOf st) (nq := nq)
        apply List.mem_of_mem_take (i := kk.toNat)
        rw [ht]; simp
      simp only [List.map_cons, findStep]
      rw [show (pairOf (sizesOf st) nq e).2 = e.id from rfl]
      cases hi : Dict.get? m.originals e.id with
      | none => exact Or.inl rfl
      | some w =>
        obtain ⟨e', he', hid, rfl⟩ := hX.originals _ _ hi
        have hee : e' = e := id_inj hH (hXH e' he').1 (hc.sub e he).1 hid
        subst hee
        refine ⟨nq, kk, hb, hk, CE, Rd ++ [e'], Rr, hc, hla, by simpa using ht, rfl, ?_⟩
        simp [pairOf]
  | done r => exact h

/-! ## The thread among others -/

/-- `e` is stored after some of the calls, all of `J` among them. -/
def SomeTime (cf : List Char → List Char) (un : Normalizer) (st : WS) (C : ℕ → Call) (M : List Member)
    (J Lt : List ℕ) (T : List Member → Prop) : Prop :=
  ∃ a, a <+: Lt ∧ (∀ j ∈ J, j ∈ a) ∧ T (membersAfter cf un st C M a)

theorem returned_step {s : Sys} {i j : ℕ} (h : (s.pc j).outcome.isSome = true) (ht : Typed (C j) (s.pc j)) :
    ((s.step cf un C i).pc j).outcome.isSome = true := by
  by_cases hij : j = i
  · subst hij
    obtain ⟨r, hr⟩ := Option.isSome_iff_exists.1 h
    rw [Sys.step_pc_same]
    rcases outcome_some hr with h1 | h1
    · rw [h1] at ht ⊢
      cases hC : C j with
      | add ord v => rfl
      | discard ord v => rw [hC] at ht; exact ht.elim
      | find ord q k ms => rw [hC] at ht; exact ht.elim
    · rw [h1] at ht ⊢
      cases hC : C j with
      | add ord v => rw [hC] at ht; exact ht.elim
      | discard ord v => rfl
      | find ord q k ms => rw [hC] at ht; exact ht.elim
  · rw [Sys.step_pc_other hij]; exact h

theorem writing_of_returned {p : Pc} (h : p.outcome.isSome = true) : p.writing = false := by
  obtain ⟨r, hr⟩ := Option.isSome_iff_exists.1 h
  rcases outcome_some hr with h1 | h1 <;> rw [h1] <;> rfl

theorem WInv.run_find {M : List Member} {s : Sys} {L : List ℕ} {E H : List Entry}
    (h : WInv cf un st C M s L E H) (hfair : ∀ i, (C i).Fair) {sched : List ℕ}
    (hex : ExclusiveW cf un C s sched) {i : ℕ} {ord : List (List Char) → List (List Char)}
    {q k : PyVal} {ms : MinSim} (hC : C i = .find ord q k ms) {f : ℤ} (hf : st.filterN = some f)
    {J Lt : List ℕ} (hJ : ∀ j ∈ J, j ∈ L ∧ (s.pc j).outcome.isSome = true)
    (hL : L ++ wstarts cf un C s sched = Lt) {E1 : List Entry}
    (h1 : ∀ e ∈ E1, e ∈ E ∧ Complete st s.mem e)
    (h2 : ∀ e ∈ E1, ∀ a, a <+: Lt → (∀ j ∈ J, j ∈ a) → e.m ∈ membersAfter cf un st C M a)
    {p : FindPc} (hp : s.pc i = .find p)
    (hinv : DInv cf un st q k ms f H (fun e => SomeTime cf un st C M J Lt (e.m ∈ ·))
      (fun x => SomeTime cf un st C M J Lt (x = ·)) E1 s.mem p) :
    ∃ p' H', (s.run cf un C sched).pc i = .find p' ∧
      DInv cf un st q k ms f H' (fun e => SomeTime cf un st C M J Lt (e.m ∈ ·))
        (fun x => SomeTime cf un st C M J Lt (x = ·)) E1 (s.run cf un C sched).mem p' := by
  induction sched generalizing s L E H p with
  | nil => exact ⟨p, H, hp, hinv⟩
  | cons j sched ih =>
    obtain ⟨E', H', w, hHH, hmv, hE⟩ := h.step (hfair j) hex.1
    have hL' : (L ++ if (s.pc j).fresh = true then [j] else []) ++
        wstarts cf un C (s.step cf un C j) sched = Lt := by
      rw [List.append_assoc]; exact hL
    have hpre : (L ++ if (s.pc j).fresh = true then [j] else []) <+: Lt := ⟨_, hL'⟩
    have hJ' : ∀ j' ∈ J, j' ∈ (L ++ if (s.pc j).fresh = true then [j] else []) ∧
        ((s.step cf un C j).pc j').outcome.isSome = true := fun j' hj' =>
      ⟨List.mem_append_left _ (hJ j' hj').1, returned_step (hJ j' hj').2 (h.typed j')⟩
    have h1' : ∀ e ∈ E1, e ∈ E' ∧ Complete st (s.step cf un C j).mem e := by
      intro e he
      have := h2 e he _ hpre (fun j' hj' => (hJ' j' hj').1)
      rw [← w.abs] at this
      obtain ⟨h3, h4⟩ := hE e (h1 e he).1 this
      exact ⟨h3, h4 (h1 e he).2⟩
    have hnext : ∃ p', (s.step cf un C j).pc i = .find p' ∧
        DInv cf un st q k ms f H' (fun e => SomeTime cf un st C M J Lt (e.m ∈ ·))
          (fun x => SomeTime cf un st C M J Lt (x = ·)) E1 (s.step cf un C j).mem p' := by
      by_cases hj : i = j
      · subst hj
        have hord : ∀ l, (ord l).Perm l := by have := hfair i; rw [hC] at this; exact this
        obtain ⟨X, a, x1, x2, x3, x4, x5⟩ := h.memIn (J := J)
          (fun j hj => ⟨(hJ j hj).1, writing_of_returned (hJ j hj).2⟩)
        have x3' : a <+: Lt := x3.trans ⟨_, hL⟩
        have hm : (s.step cf un C i).mem = s.mem := by simp [Sys.step, hC, hp, callStep]
        refine ⟨findStep cf un ord q k ms s.mem p, by rw [Sys.step_pc_same, hC, hp]; rfl, ?_⟩
        have := hinv.step hord hf h.good h.each h.ids x1 x2
          (fun x hx => ⟨a, x3', x4, by rw [← x5]; exact List.mem_map.2 ⟨x, hx, rfl⟩⟩)
          ⟨a, x3', x4, x5⟩ (fun e he => ⟨(h.sub e (h1 e he).1).1, (h1 e he).2⟩)
        refine this.mono hf hHH (fun _ h => h) (fun _ h => h) hmv ?_ (fun e he => (h1' e he).2)
        intro g b id hb hid
        rw [hm] at hb hid
        obtain ⟨e, he, hid', f', hf', hgr⟩ := x1.index g b id hb hid
        rw [hf] at hf'
        injection hf' with hf'
        subst hf'
        exact ⟨e, hHH e (x2 e he).1, hid', ⟨a, x3', x4, by rw [← x5]; exact List.mem_map.2 ⟨e, he, rfl⟩⟩,
          hgr⟩
      · refine ⟨p, by rw [Sys.step_pc_other hj, hp], ?_⟩
        obtain ⟨X, a, x1, x2, x3, x4, x5⟩ := w.memIn (J := J)
          (fun j hj => ⟨(hJ' j hj).1, writing_of_returned (hJ' j hj).2⟩)
        have x3' : a <+: Lt := x3.trans hpre
        refine hinv.mono hf hHH (fun _ h => h) (fun _ h => h) hmv ?_ (fun e he => (h1' e he).2)
        intro g b id hb hid
        obtain ⟨e, he, hid', f', hf', hgr⟩ := x1.index g b id hb hid
        rw [hf] at hf'
        injection hf' with hf'
        subst hf'
        exact ⟨e, (x2 e he).1, hid', ⟨a, x3', x4, by rw [← x5]; exact List.mem_map.2 ⟨e, he, rfl⟩⟩, hgr⟩
    obtain ⟨p', hp', hinv'⟩ := hnext
    exact ih w hex.2 hJ' hL' h1' hp' hinv'

/-- The entries that are stored before the call begins and never removed can be found from its beginning. -/
theorem WInv.complete {M : List Member} {s : Sys} {L : List ℕ} {E H : List Entry}
    (h : WInv cf un st C M s L E H) {J Lt : List ℕ} (hL : L <+: Lt)
    (hJ : ∀ j ∈ J, j ∈ L ∧ (s.pc j).outcome.isSome = true) {m : Member}
    (hm : ∀ a, a <+: Lt → (∀ j ∈ J, j ∈ a) → m ∈ membersAfter cf un st C M a) :
    ∃ e ∈ E, e.m = m ∧ Complete st s.mem e := by
  have hfull := hm L hL (fun j hj => (hJ j hj).1)
  rw [← h.abs] at hfull
  obtain ⟨e0, he0, hem⟩ := List.mem_map.1 hfull
  have hph := h.phase
  generalize hL : L = L' at hph
  generalize hE : E = E' at hph
  generalize hH : H = H' at hph
  cases hph with
  | idle h1 h2 h3 =>
    subst hL hE hH
    exact ⟨e0, he0, hem, h1.complete h.good e0 he0⟩
  | @adding L0 E0 H0 i e p h1 h2 h3 h4 h5 =>
    subst hL hE hH
    have := hm L0 ((List.prefix_append _ _).trans ‹_›) ?_
    · rw [← h4] at this
      obtain ⟨x, hx, hxm⟩ := List.mem_map.1 this
      exact ⟨x, List.mem_append_left _ hx, hxm, (h1.sound h.good).2 x hx⟩
    · intro j hj
      obtain ⟨h10, h11⟩ := hJ j hj
      rcases List.mem_append.1 h10 with h10 | h10
      · exact h10
      · rw [List.mem_singleton] at h10
        subst h10
        have := writing_of_returned h11
        rw [h2, h1.writing] at this; cases this
  | @removing L0 E0 H0 i e p h1 h2 h3 h4 h5 h6 h7 h8 h9 =>
    subst hL hE hH
    exact ⟨e0, he0, hem, h1.complete h6 e0 he0⟩

end Conc
end Verif
