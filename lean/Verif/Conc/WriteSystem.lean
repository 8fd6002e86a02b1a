import Verif.Conc.Remover
import Verif.Conc.WriteSpec

/-!
# The invariant of threads that add and discard words
-/

namespace Verif
namespace Conc

open GramSpec WordSetSpec

variable {cf : List Char → List Char} {un : Normalizer} {st : WS} {C : ℕ → Call}

/-- The members after the calls of the threads `L`, made one after another. -/
abbrev membersAfter (cf : List Char → List Char) (un : Normalizer) (st : WS) (C : ℕ → Call)
    (M : List Member) (L : List ℕ) : List Member :=
  absRun (st.key cf un) (sizesOf st) M (L.map fun j => (C j).op)

theorem membersAfter_snoc (M : List Member) (L : List ℕ) (i : ℕ) :
    membersAfter cf un st C M (L ++ [i]) =
      (absStep (st.key cf un) (sizesOf st) (membersAfter cf un st C M L) (C i).op).1 := by
  simp [membersAfter, absRun]

/-- How a step of a writer changes the index. -/
structure Moved (m m' : Shared) : Prop where
  len : m.maps.length ≤ m'.maps.length
  old : ∀ g a, Dict.get? m'.index g = some a → a < m.maps.length → Dict.get? m.index g = some a
  out : ∀ a, (∀ g, Dict.get? m'.index g ≠ some a) → ∀ i ∈ m'.ids a, i ∈ m.ids a
  keep : ∀ g a, Dict.get? m.index g = some a →
    Dict.get? m'.index g = none ∨ Dict.get? m'.index g = some a

theorem Moved.refl (m : Shared) : Moved m m :=
  ⟨le_refl _, fun _ _ h _ => h, fun _ _ _ h => h, fun _ _ h => Or.inr h⟩

theorem Moved.of_eq {m m' : Shared} (h1 : m'.index = m.index) (h2 : m'.maps = m.maps) :
    Moved m m' := by
  refine ⟨by rw [h2], fun g a h _ => by rw [← h1]; exact h, ?_, fun g a h => by rw [h1]; exact Or.inr h⟩
  intro a _ i hi
  unfold Shared.ids at *
  rw [← h2]; exact hi

theorem Moved.of_modify {m : Shared} {f : List ℕ → List ℕ} {g : List Char} {a : ℕ}
    (h : Dict.get? m.index g = some a) : Moved m (m.modify a f) := by
  refine ⟨by simp [Shared.modify], fun g a h _ => h, ?_, fun g a h => Or.inr h⟩
  intro b hb i hi
  rw [ids_modify] at hi
  rw [if_neg] at hi
  · exact hi
  · rintro ⟨rfl, _⟩
    exact hb g h

theorem Pend.moved {m : Shared} {E0 : List Entry} {e : Entry} {p : AddPc} (h : Pend st m E0 e p)
    (ord : List (List Char) → List (List Char)) (v : PyVal) :
    Moved m (addStep cf un ord v m p).1 := by
  cases p with
  | enter => exact h.elim
  | readId w nw => exact Moved.refl m
  | readCounter w nw id => exact Moved.refl m
  | writeCounter w nw id c => exact Moved.of_eq rfl rfl
  | setVocab w nw id => exact Moved.of_eq rfl rfl
  | setOriginal w nw id => exact Moved.of_eq rfl rfl
  | setInfo nw id => exact Moved.of_eq rfl rfl
  | test id gs =>
    cases gs with
    | nil => exact Moved.refl m
    | cons g gs =>
      simp only [addStep]
      split
      · exact Moved.refl m
      · exact Moved.refl m
  | create id g gs =>
    obtain ⟨_, _, f, _, _, _, h4, h5⟩ := h
    simp only [addStep]
    refine ⟨by simp, ?_, ?_, ?_⟩
    · intro h a ha hlt
      simp only [Dict.get?_set] at ha
      split at ha
      · injection ha with ha; omega
      · exact ha
    · intro a ha i hi
      unfold Shared.ids at hi ⊢
      simp only at hi
      rcases Nat.lt_trichotomy a m.maps.length with hb | hb | hb
      · rw [List.getElem?_append_left hb] at hi; exact hi
      · subst hb; simp at hi
      · rw [List.getElem?_eq_none (by simp; omega)] at hi; cases hi
    · intro h a ha
      right
      simp only [Dict.get?_set]
      split
      · rename_i hgh; subst hgh; rw [h5] at ha; cases ha
      · exact ha
  | fetch id g gs =>
    simp only [addStep]
    split
    · exact Moved.refl m
    · exact Moved.refl m
  | put id a gs =>
    obtain ⟨_, _, f, g, _, _, _, _, ha⟩ := h
    exact Moved.of_modify ha
  | done r => exact h.elim

theorem PendD.moved {m : Shared} {E0 : List Entry} {e : Entry} {p : DiscardPc}
    (h : PendD st m E0 e p) (ord : List (List Char) → List (List Char)) (v : PyVal) :
    Moved m (discardStep cf un ord v m p).1 := by
  cases p with
  | enter => exact h.elim
  | popVocab nw =>
    simp only [discardStep]
    split
    · exact Moved.refl m
    · exact Moved.of_eq rfl rfl
  | delOriginal id =>
    simp only [discardStep]
    split
    · exact Moved.of_eq rfl rfl
    · exact Moved.refl m
  | popInfo id =>
    simp only [discardStep]
    split
    · exact Moved.refl m
    · exact Moved.of_eq rfl rfl
  | test id gs =>
    cases gs with
    | nil => exact Moved.refl m
    | cons g gs =>
      simp only [discardStep]
      split
      · exact Moved.refl m
      · exact Moved.refl m
  | fetch id g gs =>
    simp only [discardStep]
    split
    · exact Moved.refl m
    · exact Moved.refl m
  | drop id a g gs =>
    obtain ⟨_, f, _, _, _, _, ha⟩ := h
    exact Moved.of_modify ha
  | empty id a g gs =>
    simp only [discardStep]
    split
    · exact Moved.refl m
    · exact Moved.refl m
  | del id g gs =>
    simp only [discardStep]
    split
    · refine ⟨le_refl _, ?_, fun _ _ _ h => h, ?_⟩
      · intro h a ha _
        simp only [Dict.get?_erase] at ha
        split at ha
        · cases ha
        · exact ha
      · intro h a ha
        simp only [Dict.get?_erase]
        split
        · exact Or.inl rfl
        · exact Or.inr ha
    · exact Moved.refl m
  | done r => exact h.elim

/-- What the memory tells a reader, during `discard`. -/
theorem PendD.complete {m : Shared} {E0 : List Entry} {e : Entry} (hg : Good cf un st E0)
    {p : DiscardPc} (h : PendD st m E0 e p) :
    ∀ x ∈ without E0 e, Complete st m x := by
  have r : ∀ l : List Entry, l.Sublist l := List.Sublist.refl
  -- what is stored of the entries that stay
  have key : ∀ {Ev Eo Ei : List Entry} {I : List Char → ℕ → Prop} {x : Option (List Char)},
      MRep st m Ev Eo Ei I x → Ev.Sublist E0 → Eo.Sublist E0 → Ei.Sublist E0 →
      (without E0 e).Sublist Ev → (without E0 e).Sublist Eo → (without E0 e).Sublist Ei →
      (∀ g i, InIdx st (without E0 e) g i → I g i) → ∀ x ∈ without E0 e, Complete st m x := by
    intro Ev Eo Ei I x hm _ h2 h3 h4 h5 h6 hI x hx
    refine ⟨⟨?_, ?_⟩, ?_, ?_, ?_⟩
    · rw [hm.info]; exact get?_map_id (hg.ids.sublist h3) (h6.subset hx)
    · rw [hm.originals]; exact get?_map_id (hg.ids.sublist h2) (h5.subset hx)
    · rw [hm.vocab]; exact List.mem_map.2 ⟨x, h4.subset hx, rfl⟩
    · rw [hm.info]; exact List.mem_map.2 ⟨x, h6.subset hx, rfl⟩
    · intro f hf g hgm
      have hin : I g x.id := hI g _ ⟨x, hx, rfl, f, hf, hgm⟩
      obtain ⟨a, ha⟩ := hm.tot g _ hin
      exact ⟨a, ha, (hm.idx g a ha _).2 hin⟩
  have w := without_sublist E0 e
  have i0 : ∀ g i, InIdx st (without E0 e) g i → InIdx st E0 g i := by
    rintro g i ⟨x, hx, h⟩
    exact ⟨x, w.subset hx, h⟩
  cases p with
  | enter => exact h.elim
  | popVocab nw => exact key h.2 (r _) (r _) (r _) w w w i0
  | delOriginal id => exact key h.2 w (r _) (r _) (r _) w w i0
  | popInfo id => exact key h.2 w w (r _) (r _) (r _) w i0
  | test id gs =>
    obtain ⟨_, f, _, _, _, h⟩ := h
    exact key h w w w (r _) (r _) (r _) (fun _ _ h => Or.inl h)
  | fetch id g gs =>
    obtain ⟨_, f, _, _, _, h⟩ := h
    exact key h w w w (r _) (r _) (r _) (fun _ _ h => Or.inl h)
  | drop id a g gs =>
    obtain ⟨_, f, _, _, _, h, _⟩ := h
    exact key h w w w (r _) (r _) (r _) (fun _ _ h => Or.inl h)
  | empty id a g gs =>
    obtain ⟨_, f, _, _, _, h, _⟩ := h
    exact key h w w w (r _) (r _) (r _) (fun _ _ h => Or.inl h)
  | del id g gs =>
    obtain ⟨_, f, _, _, _, h, _⟩ := h
    exact key h w w w (r _) (r _) (r _) (fun _ _ h => Or.inl h)
  | done r => exact h.elim

/-! ## All threads -/

theorem Pend.writing {m : Shared} {E0 : List Entry} {e : Entry} {p : AddPc}
    (h : Pend st m E0 e p) : (Pc.add p).writing = true := by
  cases p with
  | enter => exact h.elim
  | done r => exact h.elim
  | _ => rfl

theorem PendD.writing {m : Shared} {E0 : List Entry} {e : Entry} {p : DiscardPc}
    (h : PendD st m E0 e p) : (Pc.discard p).writing = true := by
  cases p with
  | enter => exact h.elim
  | done r => exact h.elim
  | _ => rfl

/-- `e` is the last of its key among the entries ever stored. -/
def Latest (H : List Entry) (e : Entry) : Prop := ∀ x ∈ H, x.m.key = e.m.key → x.id ≤ e.id

/-- What the writer in progress has done so far. -/
inductive Phase (cf : List Char → List Char) (un : Normalizer) (st : WS) (C : ℕ → Call)
    (M : List Member) (s : Sys) : List ℕ → List Entry → List Entry → Prop
  | idle {L : List ℕ} {E H : List Entry} (mem : Idle st s.mem E) (bound : ∀ e ∈ H, e.id < s.mem.counter)
      (none : ∀ j, (s.pc j).writing = false) : Phase cf un st C M s L E H
  | adding {L : List ℕ} {E H : List Entry} {i : ℕ} {e : Entry} {p : AddPc} (mem : Pend st s.mem E e p)
      (pc : s.pc i = .add p) (res : (absAdd (st.key cf un) (mems E) (C i).word).2 = .ok ())
      (before : mems E = membersAfter cf un st C M L)
      (none : ∀ j, j ≠ i → (s.pc j).writing = false) :
      Phase cf un st C M s (L ++ [i]) (E ++ [e]) (H ++ [e])
  | removing {L : List ℕ} {E H : List Entry} {i : ℕ} {e : Entry} {p : DiscardPc}
      (mem : PendD st s.mem E e p) (he : e ∈ E) (pc : s.pc i = .discard p)
      (res : (absDiscard (st.key cf un) (mems E) (C i).word).2 = .ok ())
      (before : mems E = membersAfter cf un st C M L) (good : Good cf un st E)
      (sub : ∀ x ∈ E, x ∈ H ∧ Latest H x) (bound : ∀ e ∈ H, e.id < s.mem.counter)
      (none : ∀ j, j ≠ i → (s.pc j).writing = false) :
      Phase cf un st C M s (L ++ [i]) (without E e) H

/-- The invariant: `L` are the writers that have begun, `E` the entries when the last of them has
returned, `H` all entries ever stored. -/
structure WInv (cf : List Char → List Char) (un : Normalizer) (st : WS) (C : ℕ → Call)
    (M : List Member) (s : Sys) (L : List ℕ) (E H : List Entry) : Prop where
  abs : mems E = membersAfter cf un st C M L
  good : Good cf un st E
  sub : ∀ x ∈ E, x ∈ H ∧ Latest H x
  ids : H.Pairwise (fun a b => a.id < b.id)
  each : ∀ x ∈ H, Good cf un st [x]
  typed : ∀ i, Typed (C i) (s.pc i)
  phase : Phase cf un st C M s L E H
  res : ∀ j r, (s.pc j).outcome = some r → ∃ L0 L1, L = L0 ++ j :: L1 ∧
    (absStep (st.key cf un) (sizesOf st) (membersAfter cf un st C M L0) (C j).op).2 = .unit r

theorem enter_counter {m : Shared} {E : List Entry} {e : Entry}
    {ord : List (List Char) → List (List Char)} {v : PyVal}
    (h : Pend st m E e (addStep cf un ord v m .enter).2) : m.counter = e.id := by
  cases v with
  | int i => exact h.elim
  | other => exact h.elim
  | str w =>
    simp only [addStep] at h
    split at h
    · exact h.elim
    · split at h
      · exact h.elim
      · split at h
        · exact h.elim
        · split at h
          · exact h.elim
          · exact h.2.1

/-- The conclusion of a step. -/
def Stepped (cf : List Char → List Char) (un : Normalizer) (st : WS) (C : ℕ → Call) (M : List Member)
    (s s' : Sys) (L' : List ℕ) (E H : List Entry) : Prop :=
  ∃ E' H', WInv cf un st C M s' L' E' H' ∧ (∀ x ∈ H, x ∈ H') ∧ Moved s.mem s'.mem ∧
    ∀ x ∈ E, x.m ∈ mems E' → x ∈ E' ∧ (Complete st s.mem x → Complete st s'.mem x)

theorem WInv.mem_unique {M : List Member} {s : Sys} {L : List ℕ} {E H : List Entry}
    (h : WInv cf un st C M s L E H) {x : Entry} (hx : x ∈ H ∧ Latest H x) (hm : x.m ∈ mems E) :
    x ∈ E := by
  obtain ⟨y, hy, hxy⟩ := List.mem_map.1 hm
  have h1 := (h.sub y hy).2 x hx.1 (by rw [hxy])
  have h2 := hx.2 y (h.sub y hy).1 (by rw [hxy])
  have : y = x := id_inj h.ids (h.sub y hy).1 hx.1 (le_antisymm h2 h1)
  rw [← this]; exact hy

/-- Nothing is written. -/
theorem WInv.same {M : List Member} {s s' : Sys} {L : List ℕ} {E H : List Entry}
    (h : WInv cf un st C M s L E H) (hm : s'.mem = s.mem) (ht : ∀ i, Typed (C i) (s'.pc i))
    (hw : ∀ j, s'.pc j = s.pc j ∨ ∃ p p', s.pc j = .find p ∧ s'.pc j = .find p') :
    Stepped cf un st C M s s' L E H := by
  have hwr : ∀ j, (s'.pc j).writing = (s.pc j).writing := by
    intro j
    rcases hw j with hj | ⟨p, p', h1, h2⟩
    · rw [hj]
    · rw [h1, h2]; rfl
  have hpc : ∀ j p, s.pc j = .add p → s'.pc j = .add p := by
    intro j p hp
    rcases hw j with hj | ⟨p, p', h1, h2⟩
    · rw [hj, hp]
    · rw [h1] at hp; cases hp
  have hpc' : ∀ j p, s.pc j = .discard p → s'.pc j = .discard p := by
    intro j p hp
    rcases hw j with hj | ⟨p, p', h1, h2⟩
    · rw [hj, hp]
    · rw [h1] at hp; cases hp
  refine ⟨E, H, ⟨h.abs, h.good, h.sub, h.ids, h.each, ht, ?_, ?_⟩, fun _ h => h, ?_,
    fun x hx _ => ⟨hx, fun hc => by rw [hm]; exact hc⟩⟩
  · cases h.phase with
    | idle h1 h2 h3 =>
      exact .idle (by rw [hm]; exact h1) (by rw [hm]; exact h2) (fun j => by rw [hwr]; exact h3 j)
    | adding h1 h2 h3 h4 h5 =>
      exact .adding (by rw [hm]; exact h1) (hpc _ _ h2) h3 h4 (fun j hj => by rw [hwr]; exact h5 j hj)
    | removing h1 h2 h3 h4 h5 h6 h7 h8 h9 =>
      exact .removing (by rw [hm]; exact h1) h2 (hpc' _ _ h3) h4 h5 h6 h7 (by rw [hm]; exact h8)
        (fun j hj => by rw [hwr]; exact h9 j hj)
  · intro j r hr
    rcases hw j with hj | ⟨p, p', h1, h2⟩
    · rw [hj] at hr; exact h.res j r hr
    · rw [h2] at hr; cases hr
  · rw [hm]; exact Moved.refl _

theorem WInv.idle {M : List Member} {s : Sys} {L : List ℕ} {E H : List Entry}
    (h : WInv cf un st C M s L E H) {i : ℕ} (hex : ∀ j, j ≠ i → (s.pc j).writing = false)
    (hi : (s.pc i).writing = false) :
    Idle st s.mem E ∧ ∀ e ∈ H, e.id < s.mem.counter := by
  have hall : ∀ j, (s.pc j).writing = false := by
    intro j
    by_cases hj : j = i
    · rw [hj]; exact hi
    · exact hex j hj
  cases h.phase with
  | idle h1 h2 h3 => exact ⟨h1, h2⟩
  | @adding _ _ _ i' _ _ h1 h2 h3 h4 h5 =>
    have := hall i'
    rw [h2, h1.writing] at this; cases this
  | @removing _ _ _ i' _ _ h1 h2 h3 h4 h5 h6 h7 h8 h9 =>
    have := hall i'
    rw [h3, h1.writing] at this; cases this

theorem outcome_some {p : Pc} {r : Except PyErr Unit} (h : p.outcome = some r) :
    p = .add (.done r) ∨ p = .discard (.done r) := by
  cases p with
  | add p =>
    cases p <;> cases h
    exact Or.inl rfl
  | discard p =>
    cases p <;> cases h
    exact Or.inr rfl
  | find p => cases h

theorem latest_snoc {H : List Entry} {e x : Entry} (hx : Latest H x) (hk : x.m.key ≠ e.m.key) :
    Latest (H ++ [e]) x := by
  intro y hy hyk
  rcases List.mem_append.1 hy with hy | hy
  · exact hx y hy hyk
  · rw [List.mem_singleton] at hy
    subst hy
    exact absurd hyk.symm hk

/-- A step of `add`. -/
theorem WInv.step_add {M : List Member} {s : Sys} {L : List ℕ} {E H : List Entry}
    (h : WInv cf un st C M s L E H) {i : ℕ} {ord : List (List Char) → List (List Char)} {v : PyVal}
    (hC : C i = .add ord v) (hord : ∀ l, (ord l).Perm l)
    (hex : ∀ j, j ≠ i → (s.pc j).writing = false) {p : AddPc} (hp : s.pc i = .add p) :
    Stepped cf un st C M s (s.step cf un C i)
      (L ++ if (s.pc i).fresh = true then [i] else []) E H := by
  have hw : (C i).word = v := by rw [hC]; rfl
  have hop : (C i).op = .add v := by rw [hC]; rfl
  have hm : (s.step cf un C i).mem = (addStep cf un ord v s.mem p).1 := by
    simp [Sys.step, hC, hp, callStep]
  have hpi : (s.step cf un C i).pc i = .add (addStep cf un ord v s.mem p).2 := by
    rw [Sys.step_pc_same, hC, hp]; rfl
  have htyped := typed_step (cf := cf) (un := un) h.typed i
  have hother : ∀ j, j ≠ i → ((s.step cf un C i).pc j).writing = false := by
    intro j hj; rw [Sys.step_pc_other hj]; exact hex j hj
  -- results of other threads
  have hres : ∀ (X : List ℕ) j r, j ≠ i → ((s.step cf un C i).pc j).outcome = some r →
      ∃ L0 L1, L ++ X = L0 ++ j :: L1 ∧
        (absStep (st.key cf un) (sizesOf st) (membersAfter cf un st C M L0) (C j).op).2 = .unit r := by
    intro X j r hj hr
    rw [Sys.step_pc_other hj] at hr
    obtain ⟨L0, L1, h1, h2⟩ := h.res j r hr
    exact ⟨L0, L1 ++ X, by rw [h1]; simp, h2⟩
  by_cases hpe : p = .enter
  · subst hpe
    have hfr : (s.pc i).fresh = true := by rw [hp]; rfl
    rw [if_pos hfr]
    obtain ⟨hidle, hbound⟩ := h.idle hex (by rw [hp]; rfl)
    obtain ⟨e1, e2⟩ := hidle.enter h.good ord v
    have hmm : (s.step cf un C i).mem = s.mem := by rw [hm, e1]
    rcases e2 with ⟨r, e2, e3, e4⟩ | ⟨e, e2, e3, e4, e5⟩
    · refine ⟨E, H, ⟨?_, h.good, h.sub, h.ids, h.each, htyped, ?_, ?_⟩, fun _ h => h,
        by rw [hmm]; exact Moved.refl _, fun x hx _ => ⟨hx, fun hc => by rw [hmm]; exact hc⟩⟩
      · rw [membersAfter_snoc, ← h.abs, hop]
        exact e3.symm
      · refine .idle (by rw [hmm]; exact hidle) (by rw [hmm]; exact hbound) (fun j => ?_)
        by_cases hj : j = i
        · subst hj; rw [hpi, e2]; rfl
        · exact hother j hj
      · intro j r' hr
        by_cases hj : j = i
        · subst hj
          rw [hpi, e2] at hr
          injection hr with hr
          refine ⟨L, [], by simp, ?_⟩
          rw [← h.abs, hop, ← hr, e4]; rfl
        · exact hres [i] j r' hj hr
    · have hid : s.mem.counter = e.id := enter_counter e2
      have hnk : ∀ x ∈ E, x.m.key ≠ e.m.key := by
        intro x hx hk
        have := e3.nodup
        rw [List.map_append, List.nodup_append] at this
        exact this.2.2 _ (List.mem_map.2 ⟨x, hx, rfl⟩) e.m.key (by simp) hk
      refine ⟨E ++ [e], H ++ [e], ⟨?_, e3, ?_, ?_, ?_, htyped, ?_, ?_⟩,
        fun x hx => List.mem_append_left _ hx, by rw [hmm]; exact Moved.refl _,
        fun x hx _ => ⟨List.mem_append_left _ hx, fun hc => by rw [hmm]; exact hc⟩⟩
      · rw [membersAfter_snoc, ← h.abs, hop]
        exact e4.symm
      · intro x hx
        rcases List.mem_append.1 hx with hx | hx
        · exact ⟨List.mem_append_left _ (h.sub x hx).1, latest_snoc (h.sub x hx).2 (hnk x hx)⟩
        · rw [List.mem_singleton] at hx
          subst hx
          refine ⟨by simp, ?_⟩
          intro y hy _
          rcases List.mem_append.1 hy with hy | hy
          · have := hbound y hy; omega
          · rw [List.mem_singleton] at hy; rw [hy]
      · rw [List.pairwise_append]
        refine ⟨h.ids, by simp, ?_⟩
        intro a ha b hb
        rw [List.mem_singleton] at hb
        subst hb
        rw [← hid]; exact hbound a ha
      · intro x hx
        rcases List.mem_append.1 hx with hx | hx
        · exact h.each x hx
        · rw [List.mem_singleton] at hx
          subst hx
          exact e3.sublist (List.sublist_append_right _ _)
      · refine .adding (by rw [hmm]; exact e2) hpi (by rw [hw]; exact e5) h.abs hother
      · intro j r' hr
        by_cases hj : j = i
        · subst hj
          rw [hpi] at hr
          rcases outcome_some hr with hr | hr
          · injection hr with hr
            rw [hr] at e2; exact e2.elim
          · cases hr
        · exact hres [i] j r' hj hr
  · have hfr : ¬ (s.pc i).fresh = true := by
      rw [hp]
      intro hc
      cases p <;> first | exact hpe rfl | cases hc
    rw [if_neg hfr, List.append_nil]
    by_cases hadd : (Pc.add p).writing = true
    · have hph := h.phase
      generalize hL : L = L' at hph
      generalize hE : E = E' at hph
      generalize hH : H = H' at hph
      cases hph with
      | idle h1 h2 h3 =>
        have := h3 i
        rw [hp, hadd] at this; cases this
      | @removing L0 E0 H0 i' e p' h1 h2 h3 h4 h5 h6 h7 h8 h9 =>
        have hi : i' = i := by
          by_contra hi
          have := h9 i (Ne.symm hi)
          rw [hp, hadd] at this; cases this
        subst hi
        rw [hp] at h3; cases h3
      | @adding L0 E0 H0 i' e p' h1 h2 h3 h4 h5 =>
        have hi : i' = i := by
          by_contra hi
          have := h5 i (Ne.symm hi)
          rw [hp, hadd] at this; cases this
        subst hi
        rw [hp] at h2
        injection h2 with h2
        subst h2
        have hg := h.good
        rw [hE] at hg
        obtain ⟨s1, s2⟩ := h1.step hg hord v
        subst hL hE hH
        refine ⟨E0 ++ [e], H0 ++ [e], ⟨h.abs, hg, h.sub, h.ids, h.each, htyped, ?_, ?_⟩,
          fun _ h => h, by rw [hm]; exact h1.moved ord v,
          fun x hx _ => ⟨hx, fun hc => by rw [hm]; exact hc.mono s1⟩⟩
        · rcases s2 with s2 | ⟨s2, s3⟩
          · exact .adding (by rw [hm]; exact s2) hpi h3 h4 hother
          · refine .idle (by rw [hm]; exact s3) ?_ (fun j => ?_)
            · rw [hm]
              have h6 := s3.2 e (by simp)
              intro x hx
              rcases List.mem_append.1 hx with hx' | hx'
              · have := (List.pairwise_append.1 h.ids).2.2 x hx' e (by simp)
                omega
              · rw [List.mem_singleton] at hx'; rw [hx']; exact h6
            · by_cases hj : j = i'
              · subst hj; rw [hpi, s2]; rfl
              · exact hother j hj
        · intro j r hr
          by_cases hj : j = i'
          · subst hj
            rw [hpi] at hr
            rcases outcome_some hr with hr | hr
            · injection hr with hr
              rcases s2 with s2 | ⟨s2, s3⟩
              · rw [hr] at s2; exact s2.elim
              · rw [s2] at hr
                injection hr with hr
                refine ⟨L0, [], rfl, ?_⟩
                rw [← h4, hop, ← hr]
                rw [hw] at h3
                show WSOut.unit (absAdd (st.key cf un) (mems E0) v).2 = _
                rw [h3]
            · cases hr
          · have := hres [] j r hj hr
            rwa [List.append_nil] at this
    · cases p with
      | enter => exact absurd rfl hpe
      | done r =>
        have hm' : (s.step cf un C i).mem = s.mem := hm
        refine h.same hm' htyped (fun j => Or.inl ?_)
        by_cases hj : j = i
        · subst hj; rw [hpi, hp]; rfl
        · exact Sys.step_pc_other hj
      | _ => exact absurd rfl hadd

/-- A step of `discard`. -/
theorem WInv.step_discard {M : List Member} {s : Sys} {L : List ℕ} {E H : List Entry}
    (h : WInv cf un st C M s L E H) {i : ℕ} {ord : List (List Char) → List (List Char)} {v : PyVal}
    (hC : C i = .discard ord v) (hord : ∀ l, (ord l).Perm l)
    (hex : ∀ j, j ≠ i → (s.pc j).writing = false) {p : DiscardPc} (hp : s.pc i = .discard p) :
    Stepped cf un st C M s (s.step cf un C i)
      (L ++ if (s.pc i).fresh = true then [i] else []) E H := by
  have hw : (C i).word = v := by rw [hC]; rfl
  have hop : (C i).op = .discard v := by rw [hC]; rfl
  have hm : (s.step cf un C i).mem = (discardStep cf un ord v s.mem p).1 := by
    simp [Sys.step, hC, hp, callStep]
  have hpi : (s.step cf un C i).pc i = .discard (discardStep cf un ord v s.mem p).2 := by
    rw [Sys.step_pc_same, hC, hp]; rfl
  have htyped := typed_step (cf := cf) (un := un) h.typed i
  have hother : ∀ j, j ≠ i → ((s.step cf un C i).pc j).writing = false := by
    intro j hj; rw [Sys.step_pc_other hj]; exact hex j hj
  -- results of other threads
  have hres : ∀ (X : List ℕ) j r, j ≠ i → ((s.step cf un C i).pc j).outcome = some r →
      ∃ L0 L1, L ++ X = L0 ++ j :: L1 ∧
        (absStep (st.key cf un) (sizesOf st) (membersAfter cf un st C M L0) (C j).op).2 = .unit r := by
    intro X j r hj hr
    rw [Sys.step_pc_other hj] at hr
    obtain ⟨L0, L1, h1, h2⟩ := h.res j r hr
    exact ⟨L0, L1 ++ X, by rw [h1]; simp, h2⟩
  by_cases hpe : p = .enter
  · subst hpe
    have hfr : (s.pc i).fresh = true := by rw [hp]; rfl
    rw [if_pos hfr]
    obtain ⟨hidle, hbound⟩ := h.idle hex (by rw [hp]; rfl)
    obtain ⟨e1, e2⟩ := hidle.enterD (cf := cf) (un := un) ord v
    have hmm : (s.step cf un C i).mem = s.mem := by rw [hm, e1]
    rcases e2 with ⟨r, e2, e3, e4⟩ | ⟨e, he, e2, e4, e5⟩
    · refine ⟨E, H, ⟨?_, h.good, h.sub, h.ids, h.each, htyped, ?_, ?_⟩, fun _ h => h,
        by rw [hmm]; exact Moved.refl _, fun x hx _ => ⟨hx, fun hc => by rw [hmm]; exact hc⟩⟩
      · rw [membersAfter_snoc, ← h.abs, hop]
        exact e3.symm
      · refine .idle (by rw [hmm]; exact hidle) (by rw [hmm]; exact hbound) (fun j => ?_)
        by_cases hj : j = i
        · subst hj; rw [hpi, e2]; rfl
        · exact hother j hj
      · intro j r' hr
        by_cases hj : j = i
        · subst hj
          rw [hpi, e2] at hr
          injection hr with hr
          refine ⟨L, [], by simp, ?_⟩
          rw [← h.abs, hop, ← hr, e4]; rfl
        · exact hres [i] j r' hj hr
    · have hwi : WInv cf un st C M (s.step cf un C i) (L ++ [i]) (without E e) H := by
        refine ⟨?_, h.good.sublist (without_sublist _ _),
          fun x hx => h.sub x ((without_sublist _ _).subset hx), h.ids, h.each, htyped, ?_, ?_⟩
        · rw [membersAfter_snoc, ← h.abs, hop]
          exact e4.symm
        · exact .removing (by rw [hmm]; exact e2) he hpi (by rw [hw]; exact e5) h.abs h.good h.sub
            (by rw [hmm]; exact hbound) hother
        · intro j r' hr
          by_cases hj : j = i
          · subst hj
            rw [hpi] at hr
            rcases outcome_some hr with hr | hr
            · cases hr
            · injection hr with hr
              rw [hr] at e2; exact e2.elim
          · exact hres [i] j r' hj hr
      exact ⟨without E e, H, hwi, fun _ h => h, by rw [hmm]; exact Moved.refl _,
        fun x hx hm => ⟨hwi.mem_unique (h.sub x hx) hm, fun hc => by rw [hmm]; exact hc⟩⟩
  · have hfr : ¬ (s.pc i).fresh = true := by
      rw [hp]
      intro hc
      cases p <;> first | exact hpe rfl | cases hc
    rw [if_neg hfr, List.append_nil]
    by_cases hadd : (Pc.discard p).writing = true
    · have hph := h.phase
      generalize hL : L = L' at hph
      generalize hE : E = E' at hph
      generalize hH : H = H' at hph
      cases hph with
      | idle h1 h2 h3 =>
        have := h3 i
        rw [hp, hadd] at this; cases this
      | @adding L0 E0 H0 i' e p' h1 h2 h3 h4 h5 =>
        have hi : i' = i := by
          by_contra hi
          have := h5 i (Ne.symm hi)
          rw [hp, hadd] at this; cases this
        subst hi
        rw [hp] at h2; cases h2
      | @removing L0 E0 H0 i' e p' h1 h2 h3 h4 h5 h6 h7 h8 h9 =>
        have hi : i' = i := by
          by_contra hi
          have := h9 i (Ne.symm hi)
          rw [hp, hadd] at this; cases this
        subst hi
        rw [hp] at h3
        injection h3 with h3
        subst h3
        have hb0 : ∀ x ∈ E0, x.id < s.mem.counter := fun x hx => h8 x (h7 x hx).1
        obtain ⟨s1, s2⟩ := h1.step h6 h2 hb0 hord v
        subst hL hE hH
        refine ⟨without E0 e, H, ⟨h.abs, h.good, h.sub, h.ids, h.each, htyped, ?_, ?_⟩,
          fun _ h => h, by rw [hm]; exact h1.moved ord v,
          fun x hx _ => ⟨hx, fun _ => ?_⟩⟩
        · rcases s2 with s2 | ⟨s2, s3⟩
          · exact .removing (by rw [hm]; exact s2) h2 hpi h4 h5 h6 h7 (by rw [hm, s1]; exact h8) hother
          · refine .idle (by rw [hm]; exact s3) (by rw [hm, s1]; exact h8) (fun j => ?_)
            by_cases hj : j = i'
            · subst hj; rw [hpi, s2]; rfl
            · exact hother j hj
        · intro j r hr
          by_cases hj : j = i'
          · subst hj
            rw [hpi] at hr
            rcases outcome_some hr with hr | hr
            · cases hr
            · injection hr with hr
              rcases s2 with s2 | ⟨s2, s3⟩
              · rw [hr] at s2; exact s2.elim
              · rw [s2] at hr
                injection hr with hr
                refine ⟨L0, [], rfl, ?_⟩
                rw [← h5, hop, ← hr]
                rw [hw] at h4
                show WSOut.unit (absDiscard (st.key cf un) (mems E0) v).2 = _
                rw [h4]
          · have := hres [] j r hj hr
            rwa [List.append_nil] at this
        · rw [hm]
          rcases s2 with s2 | ⟨s2, s3⟩
          · exact s2.complete h6 x hx
          · exact s3.complete h.good x hx
    · cases p with
      | enter => exact absurd rfl hpe
      | done r =>
        have hm' : (s.step cf un C i).mem = s.mem := hm
        refine h.same hm' htyped (fun j => Or.inl ?_)
        by_cases hj : j = i
        · subst hj; rw [hpi, hp]; rfl
        · exact Sys.step_pc_other hj
      | _ => exact absurd rfl hadd

theorem WInv.step {M : List Member} {s : Sys} {L : List ℕ} {E H : List Entry}
    (h : WInv cf un st C M s L E H) {i : ℕ} (hfair : (C i).Fair)
    (hex : (C i).isWriter = true → ∀ j, j ≠ i → (s.pc j).writing = false) :
    Stepped cf un st C M s (s.step cf un C i)
      (L ++ if (s.pc i).fresh = true then [i] else []) E H := by
  have ht := h.typed i
  cases hC : C i with
  | add ord v =>
    rw [hC] at ht hfair hex
    cases hp : s.pc i with
    | add p => rw [← hp]; exact h.step_add hC hfair (hex rfl) hp
    | discard p => rw [hp] at ht; exact ht.elim
    | find p => rw [hp] at ht; exact ht.elim
  | discard ord v =>
    rw [hC] at ht hfair hex
    cases hp : s.pc i with
    | add p => rw [hp] at ht; exact ht.elim
    | discard p => rw [← hp]; exact h.step_discard hC hfair (hex rfl) hp
    | find p => rw [hp] at ht; exact ht.elim
  | find ord q k ms =>
    rw [hC] at ht
    cases hp : s.pc i with
    | add p => rw [hp] at ht; exact ht.elim
    | discard p => rw [hp] at ht; exact ht.elim
    | find p =>
      have hm : (s.step cf un C i).mem = s.mem := by simp [Sys.step, hC, hp, callStep]
      have hf : ¬ (Pc.find p).fresh = true := by simp [Pc.fresh]
      rw [if_neg hf, List.append_nil]
      refine h.same hm (typed_step h.typed i) (fun j => ?_)
      by_cases hj : j = i
      · subst hj
        exact Or.inr ⟨p, findStep cf un ord q k ms s.mem p, hp, by rw [Sys.step_pc_same, hC, hp]; rfl⟩
      · exact Or.inl (Sys.step_pc_other hj)

theorem wstarts_append (s : Sys) (l l' : List ℕ) :
    wstarts cf un C s (l ++ l') = wstarts cf un C s l ++ wstarts cf un C (s.run cf un C l) l' := by
  induction l generalizing s with
  | nil => rfl
  | cons i l ih =>
    show _ ++ wstarts cf un C _ (l ++ l') = (_ ++ _) ++ _
    rw [ih, List.append_assoc]
    rfl

theorem exclusiveW_append (s : Sys) (l l' : List ℕ) :
    ExclusiveW cf un C s (l ++ l') ↔
      ExclusiveW cf un C s l ∧ ExclusiveW cf un C (s.run cf un C l) l' := by
  induction l generalizing s with
  | nil => exact ⟨fun h => ⟨trivial, h⟩, fun h => h.2⟩
  | cons i l ih =>
    show (_ ∧ ExclusiveW cf un C _ (l ++ l')) ↔ (_ ∧ _) ∧ _
    rw [ih, and_assoc]
    rfl

theorem WInv.run {M : List Member} {s : Sys} {L : List ℕ} {E H : List Entry}
    (h : WInv cf un st C M s L E H) (hfair : ∀ i, (C i).Fair) {sched : List ℕ}
    (hex : ExclusiveW cf un C s sched) :
    ∃ E' H', WInv cf un st C M (s.run cf un C sched) (L ++ wstarts cf un C s sched) E' H' := by
  induction sched generalizing s L E H with
  | nil => exact ⟨E, H, by simpa [wstarts, Sys.run] using h⟩
  | cons i sched ih =>
    obtain ⟨E1, H1, h1, _⟩ := h.step (hfair i) hex.1
    obtain ⟨E2, H2, h2⟩ := ih h1 hex.2
    refine ⟨E2, H2, ?_⟩
    rw [List.append_assoc] at h2
    exact h2

theorem WInv.start {Es : List Entry} (h : WSRep cf un st Es) :
    WInv cf un st C (mems Es) (Sys.start C st) [] Es Es := by
  have hg := h.good
  refine ⟨rfl, hg, ?_, hg.ids, fun x hx => hg.sublist (List.singleton_sublist.2 hx), typed_start _ _,
    .idle (WSRep.idle h) h.bound ?_, ?_⟩
  · intro x hx
    exact ⟨hx, fun y hy hk => by rw [key_inj hg.nodup hy hx hk]⟩
  · intro j
    show ((C j).pc).writing = false
    cases C j <;> rfl
  · intro j r hr
    have hr : ((C j).pc).outcome = some r := hr
    cases hC : C j <;> rw [hC] at hr <;> cases hr

/-! ## Checking that calls do not overlap, for examples -/

/-- A test for `ExclusiveW` when only the first `N` threads write. -/
def exclusiveWB (cf : List Char → List Char) (un : Normalizer) (C : ℕ → Call) (N : ℕ) :
    Sys → List ℕ → Bool
  | _, [] => true
  | s, i :: sched =>
    (!(C i).isWriter || (List.range N).all fun j => decide (j = i) || !(s.pc j).writing) &&
      exclusiveWB cf un C N (s.step cf un C i) sched

theorem exclusiveW_of_test {N : ℕ} (hN : ∀ j, N ≤ j → (C j).isWriter = false) {s : Sys}
    (ht : ∀ j, Typed (C j) (s.pc j)) {sched : List ℕ}
    (h : exclusiveWB cf un C N s sched = true) : ExclusiveW cf un C s sched := by
  induction sched generalizing s with
  | nil => trivial
  | cons i sched ih =>
    unfold exclusiveWB at h
    rw [Bool.and_eq_true] at h
    refine ⟨fun hi j hj => ?_, ih (typed_step ht i) h.2⟩
    rw [hi] at h
    by_cases hjN : j < N
    · have := List.all_eq_true.1 h.1 j (List.mem_range.2 hjN)
      simpa [hj] using this
    · have h1 := hN j (not_lt.1 hjN)
      have h2 := ht j
      cases hC : C j <;> cases hp : s.pc j <;> rw [hC] at h1 <;> rw [hC, hp] at h2 <;>
        first | exact h2.elim | rfl | cases h1

end Conc
end Verif
