import Verif.WordSet.ReprModel
import Verif.WordSet.Props
import Verif.Dawg.Text

/-!
# Property C241: the configuration of a `WordSet` and its `repr`
-/

namespace Verif

open WordSetSpec File

variable {cf : List Char → List Char} {un : Normalizer}

theorem intRepr_pos {n : ℤ} (h : 0 ≤ n) : intRepr n = digits n.natAbs := by
  unfold intRepr
  rw [if_neg (by omega)]

theorem tupleTail_head (ns : List ℤ) (s : List Char) :
    ∀ c ∈ ((ns.flatMap fun m => ',' :: ' ' :: intRepr m) ++ ')' :: s).head?, c.isDigit = false := by
  cases ns with
  | nil => intro c hc; simp at hc; subst hc; rfl
  | cons n ns => intro c hc; simp at hc; subst hc; rfl

theorem tupleTail_cut {ns ns' : List ℤ} {s s' : List Char} (h1 : ∀ n ∈ ns, 0 < n)
    (h2 : ∀ n ∈ ns', 0 < n)
    (h : (ns.flatMap fun m => ',' :: ' ' :: intRepr m) ++ ')' :: s =
      (ns'.flatMap fun m => ',' :: ' ' :: intRepr m) ++ ')' :: s') : ns = ns' ∧ s = s' := by
  induction ns generalizing ns' with
  | nil =>
    cases ns' with
    | nil => simpa using h
    | cons m ns' => simp at h
  | cons n ns ih =>
    cases ns' with
    | nil => simp at h
    | cons m ns' =>
      have hn := h1 n List.mem_cons_self
      have hm := h2 m List.mem_cons_self
      simp only [List.flatMap_cons, List.cons_append, List.append_assoc, List.cons.injEq,
        true_and] at h
      rw [intRepr_pos hn.le, intRepr_pos hm.le] at h
      obtain ⟨e1, e2⟩ := Dawg.digits_cut (digits_isDigit _) (digits_isDigit _)
        (tupleTail_head ns s) (tupleTail_head ns' s') h
      have e3 := Dawg.digits_inj e1
      obtain ⟨rfl, rfl⟩ := ih (fun x hx => h1 x (List.mem_cons_of_mem _ hx))
        (fun x hx => h2 x (List.mem_cons_of_mem _ hx)) e2
      exact ⟨by rw [show n = m by omega], rfl⟩

theorem tuple_cut {ns ns' : List ℤ} {s s' : List Char} (h1 : ∀ n ∈ ns, 0 < n)
    (h2 : ∀ n ∈ ns', 0 < n) (hn : ns ≠ []) (hn' : ns' ≠ [])
    (h : tupleRepr ns ++ s = tupleRepr ns' ++ s') : ns = ns' ∧ s = s' := by
  have hd : ∀ t : List Char, ∀ c ∈ (',' :: t).head?, c.isDigit = false := by
    intro t c hc; simp at hc; subst hc; rfl
  match ns, ns', hn, hn' with
  | [n], [m], _, _ =>
    have hn := h1 n List.mem_cons_self
    have hm := h2 m List.mem_cons_self
    simp only [tupleRepr, List.cons_append, List.append_assoc, List.cons.injEq, true_and,
      List.nil_append] at h
    rw [intRepr_pos hn.le, intRepr_pos hm.le] at h
    obtain ⟨e1, e2⟩ := Dawg.digits_cut (digits_isDigit _) (digits_isDigit _) (hd _) (hd _) h
    have e3 := Dawg.digits_inj e1
    exact ⟨by rw [show n = m by omega], by simpa using e2⟩
  | [n], m :: m' :: ms, _, _ =>
    have hn := h1 n List.mem_cons_self
    have hm := h2 m List.mem_cons_self
    simp only [tupleRepr, List.flatMap_cons, List.cons_append, List.append_assoc, List.cons.injEq,
      true_and, List.nil_append] at h
    rw [intRepr_pos hn.le, intRepr_pos hm.le] at h
    have e := (Dawg.digits_cut (digits_isDigit _) (digits_isDigit _) (hd _) (hd _) h).2
    simp at e
  | n :: n' :: ns, [m], _, _ =>
    have hn := h1 n List.mem_cons_self
    have hm := h2 m List.mem_cons_self
    simp only [tupleRepr, List.flatMap_cons, List.cons_append, List.append_assoc, List.cons.injEq,
      true_and, List.nil_append] at h
    rw [intRepr_pos hn.le, intRepr_pos hm.le] at h
    have e := (Dawg.digits_cut (digits_isDigit _) (digits_isDigit _) (hd _) (hd _) h).2
    simp at e
  | n :: n' :: ns, m :: m' :: ms, _, _ =>
    have hn := h1 n List.mem_cons_self
    have hm := h2 m List.mem_cons_self
    simp only [tupleRepr, List.cons_append, List.append_assoc, List.cons.injEq, true_and,
      List.nil_append] at h
    rw [intRepr_pos hn.le, intRepr_pos hm.le] at h
    obtain ⟨e1, e2⟩ := Dawg.digits_cut (digits_isDigit _) (digits_isDigit _)
      (tupleTail_head _ s) (tupleTail_head _ s') h
    have e3 := Dawg.digits_inj e1
    obtain ⟨e4, e5⟩ := tupleTail_cut (fun x hx => h1 x (List.mem_cons_of_mem _ hx))
      (fun x hx => h2 x (List.mem_cons_of_mem _ hx)) e2
    exact ⟨by rw [show n = m by omega, e4], e5⟩

theorem bool_cut {b b' : Bool} {s s' : List Char} (h : boolRepr b ++ s = boolRepr b' ++ s') :
    b = b' ∧ s = s' := by
  cases b <;> cases b' <;> simp_all [boolRepr]

theorem size_cut {x x' : List Char} {m m' : ℕ}
    (h : x ++ (", size=".toList ++ (intRepr m ++ [')'])) =
      x' ++ (", size=".toList ++ (intRepr m' ++ [')']))) : x = x' ∧ m = m' := by
  rw [intRepr_pos (by omega), intRepr_pos (by omega)] at h
  have h' := congrArg List.reverse h
  simp only [List.reverse_append, List.reverse_cons, List.reverse_nil, List.nil_append,
    List.append_assoc, List.cons_append, List.cons.injEq, true_and] at h'
  have hd : ∀ t : List Char, ∀ c ∈ (", size=".toList.reverse ++ t).head?, c.isDigit = false := by
    intro t c hc
    have e : ", size=".toList.reverse = ['=', 'e', 'z', 'i', 's', ' ', ','] := by decide
    rw [e] at hc
    simp at hc; subst hc; rfl
  obtain ⟨e1, e2⟩ := Dawg.digits_cut (d := (digits ((m : ℤ).natAbs)).reverse)
    (d' := (digits ((m' : ℤ).natAbs)).reverse)
    (fun c hc => digits_isDigit _ c (List.mem_reverse.1 hc))
    (fun c hc => digits_isDigit _ c (List.mem_reverse.1 hc)) (hd _) (hd _) h'
  have e3 := Dawg.digits_inj (List.reverse_injective e1)
  have e4 := List.append_cancel_left e2
  exact ⟨List.reverse_injective e4, by omega⟩

/-- **C241.** No call changes the configuration: `ngram_sizes` and `case_sensitive` are those of the
constructor for ever, and the sizes are positive and strictly increasing, whatever was passed. -/
theorem C241_config_fixed {cs : Bool} {callable : Bool} {sizes : NArg} {st₀ : WS}
    (h : WS.new (some cs) callable sizes = .ok st₀) (ops : List WSOp) :
    (st₀.run cf un ops).caseSensitiveProperty = cs ∧
    (st₀.run cf un ops).ngramSizes.Pairwise (· < ·) ∧
    (∀ n ∈ (st₀.run cf un ops).ngramSizes, 0 < n) ∧
    ∀ n, n ∈ (st₀.run cf un ops).ngramSizes ↔
      match sizes with
      | .int m => n = m
      | .iter ns => n ∈ ns
      | .other => False := by
  have hr := (Rep.new (cf := cf) (un := un) h).run ops
  obtain ⟨hc, hn, -⟩ := hr.2
  obtain ⟨E, hE, -⟩ := hr.1
  unfold WS.caseSensitiveProperty WS.ngramSizes
  refine ⟨?_, hE.sizesLt, hE.sizesPos, ?_⟩
  all_goals
    unfold WS.new at h
    simp only [bind, Except.bind, pure, Except.pure] at h
    split at h
    · cases h
    · rename_i hcall
      cases hs : mkSizes sizes with
      | error e => rw [hs] at h; cases h
      | ok l =>
        rw [hs] at h
        simp only at h
        cases hf : effectiveFilter l with
        | error e => rw [hf] at h; cases h
        | ok f =>
          rw [hf] at h
          simp only [Except.ok.injEq] at h
          subst h
          first
          | exact hc
          | (rw [hn]
             intro n
             unfold mkSizes at hs
             cases sizes with
             | int m =>
               simp only at hs ⊢
               split at hs
               · cases hs
               · injection hs with hs; subst hs; simp
             | iter ns =>
               simp only at hs ⊢
               split at hs
               · cases hs
               · injection hs with hs; subst hs; simp
             | other => cases hs)

/-- **C241.** The `repr` of two sets, after any histories, is the same exactly if they have the same
sizes, the same case sensitivity, the same name of the normaliser and the same number of words —
whatever characters the name consists of. -/
theorem C241_repr_iff {cf' : List Char → List Char} {un' : Normalizer} {st st' : WS}
    (h : WSReachable cf un st) (h' : WSReachable cf' un' st') (norm norm' : NormObj) :
    st.repr norm = st'.repr norm' ↔
      st.ngramSizes = st'.ngramSizes ∧ st.caseSensitiveProperty = st'.caseSensitiveProperty ∧
      norm.text = norm'.text ∧ st.iter.length = st'.iter.length := by
  rw [← (C35_len_iter h).1, ← (C35_len_iter h').1]
  constructor
  · intro e
    obtain ⟨E, hE, -⟩ := h.rep
    obtain ⟨E', hE', -⟩ := h'.rep
    unfold WS.repr at e
    have e := List.append_cancel_left e
    obtain ⟨e1, e⟩ := tuple_cut hE.sizesPos hE'.sizesPos hE.sizesNe hE'.sizesNe e
    have e := List.append_cancel_left e
    obtain ⟨e2, e⟩ := bool_cut e
    have e := List.append_cancel_left e
    obtain ⟨e3, e4⟩ := size_cut e
    exact ⟨e1, e2, e3, e4⟩
  · rintro ⟨e1, e2, e3, e4⟩
    unfold WS.repr
    rw [e1, e2, e3, e4]

/-- **C241.** The names of `None` and of the three normalisers of the module differ; a falsy object is shown
as `None`, any other by its own name. -/
theorem C241_normaliser_names :
    (∀ a ∈ [NormObj.absent, .nfc, .nfkc, .stripMarks], ∀ b ∈ [NormObj.absent, .nfc, .nfkc, .stripMarks],
      a.text = b.text → a = b) ∧
    (∀ name, (NormObj.other false name).text = NormObj.absent.text) ∧
    ∀ name name', (NormObj.other true name).text = (NormObj.other true name').text ↔ name = name' := by
  refine ⟨by decide +kernel, fun _ => rfl, fun _ _ => Iff.rfl⟩

/-- Two sets with the same words in different spellings, but different case sensitivity. -/
example : wsDemo.repr .nfc =
      "WordSet(ngram_sizes=(2, 3), case_sensitive=False, unicode_normalizer=NFC, size=3)".toList ∧
    (demoSet id true [5] []).repr (.other true "f".toList) =
      "WordSet(ngram_sizes=(5,), case_sensitive=True, unicode_normalizer=f, size=0)".toList ∧
    (demoSet id true [5] []).repr (.other false "f".toList) = (demoSet id true [5] []).repr .absent := by
  refine ⟨?_, ?_, ?_⟩ <;> with_unfolding_all rfl

end Verif
