import Verif.Conc.ListRun
import Verif.Conc.ListFindModel

/-!
# Threads that call `add_word`: the attributes only grow
-/

namespace Verif
namespace ListConc

open GramSpec

variable {cf : List Char → List Char} {st : WL} {C : ℕ → Call} {s : Sys}

/-- The counts under `g`. -/
abbrev cnts (m : WL) (g : List Char) : List (ℕ × ℕ) := (Dict.get? m.ngramCounts g).getD []

/-- The positions under `g`. -/
abbrev poss (m : WL) (g : List Char) : List (ℕ × List ℚ) := (Dict.get? m.ngramPositions g).getD []

/-- The indices under `g` in the filter. -/
abbrev filts (m : WL) (g : List Char) : List ℕ := (Dict.get? m.ngramFilter g).getD []

/-- `m'` contains everything that `m` contains, at the same places. -/
structure Grows (m m' : WL) : Prop where
  nList : m'.nList = m.nList
  filterN : m'.filterN = m.filterN
  ci : m'.caseInsensitive = m.caseInsensitive
  words : m.wordList <+: m'.wordList
  lens : m.wordLens <+: m'.wordLens
  nums : m.wordNumGrams <+: m'.wordNumGrams
  filt : ∀ g i, i ∈ filts m g → i ∈ filts m' g
  counts : ∀ g, cnts m g <+: cnts m' g
  positions : ∀ g, poss m g <+: poss m' g

theorem Grows.rfl' (m : WL) : Grows m m :=
  ⟨rfl, rfl, rfl, List.prefix_rfl, List.prefix_rfl, List.prefix_rfl, fun _ _ h => h,
    fun _ => List.prefix_rfl, fun _ => List.prefix_rfl⟩

theorem Grows.trans {a b c : WL} (h : Grows a b) (h' : Grows b c) : Grows a c :=
  ⟨h'.nList.trans h.nList, h'.filterN.trans h.filterN, h'.ci.trans h.ci, h.words.trans h'.words,
    h.lens.trans h'.lens, h.nums.trans h'.nums, fun g i hi => h'.filt g i (h.filt g i hi),
    fun g => (h.counts g).trans (h'.counts g), fun g => (h.positions g).trans (h'.positions g)⟩

theorem Act.grows (k : ℕ) (m : WL) (a : Act) : Grows m (a.run k m) := by
  have base := Grows.rfl' m
  cases a with
  | filterKey g =>
    exact { base with filt := fun g' i hi => by simpa [filts, Act.run, getD_setDefault] using hi }
  | filterAdd g =>
    exact { base with filt := fun g' i hi => (getD_addToSet_mem _ _ _ _ _).2 (Or.inl hi) }
  | countKey g =>
    exact { base with counts := fun g' => by simp [cnts, Act.run, getD_setDefault] }
  | countAdd g c =>
    exact { base with counts := fun g' => by simp [cnts, Act.run, getD_appendTo] }
  | posKey g =>
    exact { base with positions := fun g' => by simp [poss, Act.run, getD_setDefault] }
  | posAdd g l =>
    exact { base with positions := fun g' => by simp [poss, Act.run, getD_appendTo] }

theorem step_grows (c : Call) (m : WL) (p : Pc) : Grows m (ListConc.step cf c m p).1 := by
  have base := Grows.rfl' m
  cases p with
  | write w k acts =>
    cases acts with
    | nil => exact base
    | cons a acts => exact Act.grows k m a
  | pushWord w i => exact { base with words := List.prefix_append _ _ }
  | pushLen w i => exact { base with lens := List.prefix_append _ _ }
  | pushNums w i => exact { base with nums := List.prefix_append _ _ }
  | setIndex w i => exact { base with }
  | _ =>
    simp only [ListConc.step]
    repeat' split
    all_goals exact base

theorem run_grows (l : List ℕ) (s : Sys) : Grows s.mem (s.run cf C l).mem := by
  induction l generalizing s with
  | nil => exact Grows.rfl' _
  | cons i l ih => exact (step_grows (C i) s.mem (s.pc i)).trans (ih (s.step cf C i))

theorem run_append (l l' : List ℕ) (s : Sys) : s.run cf C (l ++ l') = (s.run cf C l).run cf C l' :=
  List.foldl_append

/-- In a run after which no call is in progress and in which no call with a valid word raised, nothing has
gone wrong at any time. -/
theorem Inv.run_prefix (hcf : ∀ w, cf (cf w) = cf w) (hfair : ∀ i, (C i).Fair) {l l' : List ℕ}
    (h : Inv cf st C s) (ha : AlwaysApart cf C s (l ++ l'))
    (hidle : ∀ t, ((s.run cf C (l ++ l')).pc t).active = false)
    (hret : ∀ t e x, (s.run cf C (l ++ l')).pc t = .done (.error e) →
      ¬ Adds cf st.caseInsensitive (C t).word x) : Inv cf st C (s.run cf C l) := by
  induction l generalizing s with
  | nil => exact h
  | cons i l ih =>
    have hbad : ∀ t, Bad (s.step cf C i) t →
        ∃ e, (s.run cf C (i :: l ++ l')).pc t = .done (.error e) := by
      intro t hb
      rcases hb.run (cf := cf) (C := C) (l ++ l') with hb | hb
      · exfalso
        have := hidle t
        change (((s.step cf C i).run cf C (l ++ l')).pc t).active = false at this
        revert hb this
        cases ((s.step cf C i).run cf C (l ++ l')).pc t with
        | enter => intro hb _; exact hb
        | done r => intro hb _; exact hb
        | _ => intro _ hc; cases hc
      · exact hb
    refine ih (s := s.step cf C i) (h.step hcf hfair (ha [] (List.nil_prefix)) i ?_ ?_) ?_ hidle hret
    · intro t hl
      obtain ⟨x, hx⟩ := h.late_adds hl
      obtain ⟨e, he⟩ := hbad t (Or.inl hl)
      exact hret t e x he hx
    · intro t e x he hx
      obtain ⟨e', he'⟩ := hbad t (Or.inr ⟨e, he⟩)
      exact hret t e' x he' hx
    · intro l₁ hl₁
      exact ha (i :: l₁) ((List.prefix_cons_inj i).2 hl₁)

/-- Whatever has an entry has a length, a number of n-grams and a word. -/
def Sound (m : WL) : Prop := ∀ i, (∃ g, (∃ e ∈ cnts m g, e.1 = i) ∨ ∃ e ∈ poss m g, e.1 = i) →
  i < m.wordNumGrams.length ∧ i < m.wordLens.length ∧ i < m.wordList.length

theorem Unposted.not_mem {m : WL} {i : ℕ} (h : Unposted m i) (g : List Char) :
    (∀ e ∈ cnts m g, e.1 ≠ i) ∧ ∀ e ∈ poss m g, e.1 ≠ i := by
  obtain ⟨h1, h2, _⟩ := h g
  rw [List.filter_eq_nil_iff] at h1 h2
  exact ⟨fun e he hi => h1 e he (by simpa using hi), fun e he hi => h2 e he (by simpa using hi)⟩

/-- A thread that still has to enter everything has entered nothing. -/
theorem Posted.program_unposted {m : WL} {i : ℕ} {w : List Char} {c : Call} (hc : c.Fair)
    (hn : m.nList.Nodup) (hp : ∀ n ∈ m.nList, 0 < n) (h : Posted m i w (program c m.nList m.filterN w))
    (g : List Char) : (∀ e ∈ cnts m g, e.1 ≠ i) ∧ ∀ e ∈ poss m g, e.1 ≠ i := by
  obtain ⟨h1, h2, _⟩ := h g
  have hu : Unposted { m with ngramCounts := [], ngramPositions := [], ngramFilter := [] } i :=
    fun g => ⟨rfl, rfl, by simp [Dict.get?]⟩
  obtain ⟨h3, h4, _⟩ := hu.posted hn hp hc w g
  have e1 := h1.length_eq
  have e2 := h2.length_eq
  have e3 := h3.length_eq
  have e4 := h4.length_eq
  simp only [List.length_append] at e1 e2 e3 e4
  have z : ∀ {α : Type} (f : ℕ × α → Bool),
      ((Dict.get? ([] : Dict (List Char) (List (ℕ × α))) g).getD []).filter f = [] := fun f => rfl
  rw [z, List.length_nil] at e3 e4
  change 0 + ((program c m.nList m.filterN w).filterMap (countOf g i)).length =
    ((posEntry m.nList g w i).toList.map fun p => (p.1, p.2.length)).length at e3
  change 0 + ((program c m.nList m.filterN w).filterMap (posOf' g i)).length =
    (posEntry m.nList g w i).toList.length at e4
  have n1 : ((cnts m g).filter (fun e => e.1 = i)).length = 0 :=
    Nat.add_right_cancel (e1.trans e3.symm)
  have n2 : ((poss m g).filter (fun e => e.1 = i)).length = 0 :=
    Nat.add_right_cancel (e2.trans e4.symm)
  rw [List.length_eq_zero_iff, List.filter_eq_nil_iff] at n1 n2
  exact ⟨fun e he hi => n1 e he (by simpa using hi), fun e he hi => n2 e he (by simpa using hi)⟩

theorem Inv.sound (hfair : ∀ i, (C i).Fair) (h : Inv cf st C s) : Sound s.mem := by
  rintro i ⟨g, hg⟩
  have hlt : i < s.mem.wordList.length := by
    by_contra hc
    have := (h.beyond i (by omega)).not_mem g
    rcases hg with ⟨e, he, rfl⟩ | ⟨e, he, rfl⟩
    · exact this.1 e he rfl
    · exact this.2 e he rfl
  by_cases hnum : ∃ t, (s.pc t).numDue = true
  · obtain ⟨t, ht⟩ := hnum
    have hnums := h.numsDue t ht
    have hT := h.thread t
    have howed := h.owed t
    have key : ∃ w k, (s.pc t).owes (C t) s.mem.nList s.mem.filterN =
        some (w, k, program (C t) s.mem.nList s.mem.filterN w) ∧ k + 1 = s.mem.wordList.length := by
      revert ht hT
      cases s.pc t with
      | pushLen w k => intro _ hT; exact ⟨w, k, rfl, hT.2.2⟩
      | pushNums w k => intro _ hT; exact ⟨w, k, rfl, hT.2.2⟩
      | _ => intro ht; cases ht
    obtain ⟨w, k, ho, hk⟩ := key
    have hne := (howed w k _ ho).program_unposted (hfair t) h.nodupN h.posN g
    have hik : i ≠ k := by
      rintro rfl
      rcases hg with ⟨e, he, rfl⟩ | ⟨e, he, rfl⟩
      · exact hne.1 e he rfl
      · exact hne.2 e he rfl
    have hl1 : s.mem.wordNumGrams.length = s.mem.wordList.length - 1 := by
      rw [hnums]; simp
    have hl2 : s.mem.wordList.length - 1 ≤ s.mem.wordLens.length := by
      by_cases hlen : ∃ t w k, s.pc t = .pushLen w k
      · obtain ⟨t, w, k, ht⟩ := hlen
        rw [h.lensDue t w k ht]; simp
      · push Not at hlen
        rw [h.lensOk hlen]; simp
    omega
  · have hnum' : ∀ t, (s.pc t).numDue = false := by
      intro t
      by_contra hc
      exact hnum ⟨t, by simpa using hc⟩
    have hl1 : s.mem.wordNumGrams.length = s.mem.wordList.length := by
      rw [h.numsOk hnum']; simp
    have hl2 : s.mem.wordLens.length = s.mem.wordList.length := by
      rw [h.lensOk]
      · simp
      · intro t w k ht
        have := hnum' t
        rw [ht] at this; cases this
    omega

/-- Everything about the word with index `i` has been entered. -/
def Complete (m : WL) (w : List Char) (i : ℕ) : Prop := m.wordList[i]? = some w ∧ Posted m i w []

/-- In a list that contains `m`, nothing about a complete word is added. -/
theorem Complete.same {m F : WL} (hg : Grows m F) (hF : WLInv cf F) {w : List Char} {i : ℕ}
    (h : Complete m w i) (g : List Char) :
    F.wordList[i]? = some w ∧
    (cnts F g).filter (fun e => e.1 = i) = (cnts m g).filter (fun e => e.1 = i) ∧
    (poss F g).filter (fun e => e.1 = i) = (poss m g).filter (fun e => e.1 = i) ∧
    (i ∈ filts F g ↔ i ∈ filts m g) := by
  have hw : F.wordList[i]? = some w := by
    obtain ⟨t, ht⟩ := hg.words
    rw [← ht, List.getElem?_append_left (List.getElem?_eq_some_iff.1 h.1).1]; exact h.1
  obtain ⟨h1, h2, h3⟩ := h.2 g
  simp only [List.filterMap_nil, List.append_nil, List.not_mem_nil, or_false] at h1 h2 h3
  have pre : ∀ {α : Type} (f : α → Bool) {a b : List α}, a <+: b →
      (b.filter f).length = (a.filter f).length → b.filter f = a.filter f := by
    rintro α f a b ⟨t, rfl⟩ hl
    rw [List.filter_append, List.length_append] at hl
    have : t.filter f = [] := List.length_eq_zero_iff.1 (by omega)
    rw [List.filter_append, this, List.append_nil]
  have hfp := filter_posEntries F.nList F.wordList g i
  rw [hw] at hfp
  simp only at hfp
  refine ⟨hw, pre _ (hg.counts g) ?_, pre _ (hg.positions g) ?_, ?_⟩
  · rw [h1.length_eq, ((hF.counts g).filter _).length_eq, List.filter_map, List.length_map,
      List.length_map, ← hg.nList]
    exact congrArg List.length hfp
  · rw [h2.length_eq, ((hF.positions g).filter _).length_eq, ← hg.nList]
    exact congrArg List.length hfp
  · rw [hF.filt, h3, hg.filterN]
    constructor
    · rintro ⟨h4, v, hv, hgv⟩
      rw [hw] at hv; injection hv with hv
      exact ⟨h4, hv ▸ hgv⟩
    · rintro ⟨h4, hgv⟩
      exact ⟨h4, w, hw, hgv⟩

end ListConc
end Verif
