import Verif.Regex.Parse

/-!
# What the patterns match

Helper lemmas only; the property theorems are in `Verif.Regex.Props`.
-/

namespace Verif
namespace Regex

open RegexSpec
open Trie (Node)

section
variable (u : Classes) (fz : Bool)

/-- Whether an item matches at position `i`. -/
def hit (a : Atom) (text : List Char) (i : Nat) : Bool := ((text[i]?).map (a.test u)).getD false

/-- The ends of the matches of a pattern tree. -/
abbrev Pt.E (p : Pt) (text : List Char) (i : Nat) : List Nat := (p.toRE fz).ends u text i

theorem Pt.E_done (text : List Char) (i : Nat) : Pt.done.E u fz text i = [i] := rfl

theorem Pt.E_tok (t : Tk) (k : Pt) (text : List Char) (i : Nat) :
    (Pt.tok t k).E u fz text i = if hit u (t.atom fz) text i then k.E u fz text (i + 1) else [] := by
  change (if hit u (t.atom fz) text i then [i + 1] else []).flatMap (fun j => k.E u fz text j) = _
  split <;> simp

/-- What an optional mark adds. -/
def stay (q : Bool) (i : Nat) : List Nat := if q then [i] else []

theorem ends_optRE (q : Bool) (r : RE) (text : List Char) (i : Nat) :
    (Pt.optRE q r).ends u text i = r.ends u text i ++ stay q i := by
  cases q <;> simp [Pt.optRE, stay, RE.ends]

theorem ends_seq_eps (r : RE) (text : List Char) (i : Nat) :
    (RE.seq r .eps).ends u text i = r.ends u text i := by
  simp [RE.ends]

theorem Pt.E_last (t : Tk) (q : Bool) (text : List Char) (i : Nat) :
    (Pt.last t q).E u fz text i =
      (if hit u (t.atom fz) text i then [i + 1] else []) ++ stay q i := by
  simp only [Pt.E, Pt.toRE]
  rw [ends_seq_eps, ends_optRE]
  rfl

theorem Pt.E_cls (ts : List Tk) (q : Bool) (text : List Char) (i : Nat) :
    (Pt.cls ts q).E u fz text i =
      (if ts.any (fun t => hit u (t.clsAtom fz) text i) then [i + 1] else []) ++ stay q i := by
  simp only [Pt.E, Pt.toRE]
  rw [ends_seq_eps, ends_optRE]
  congr 1
  have h : ((text[i]?).map fun c => (ts.map (Tk.clsAtom fz)).any fun a => a.test u c).getD false =
      ts.any (fun t => hit u (t.clsAtom fz) text i) := by
    unfold hit
    generalize text[i]? = o
    cases o with
    | none => simp
    | some c => simp [List.any_map, Function.comp_def]
  rw [RE.ends, h]

theorem Pt.E_grp (a : Pt) (q : Bool) (text : List Char) (i : Nat) :
    (Pt.grp a q).E u fz text i = a.E u fz text i ++ stay q i := by
  simp only [Pt.E, Pt.toRE]
  rw [ends_seq_eps, ends_optRE]

theorem Pt.E_alt (x y : Pt) (text : List Char) (i : Nat) :
    (Pt.alt x y).E u fz text i = x.E u fz text i ++ y.E u fz text i := rfl

/-- A continuation runs after the pattern. -/
theorem Pt.ends_toREk {p : Pt} (k : RE) (text : List Char) :
    p.wf .rest ∨ p.wf .branch → ∀ i,
    (p.toREk fz k).ends u text i = (p.E u fz text i).flatMap fun j => k.ends u text j := by
  induction p with
  | done => intro _ i; simp [Pt.toREk, Pt.E, Pt.toRE, RE.ends]
  | tok t p ih =>
    intro hw i
    have hw' : p.wf .rest := by rcases hw with hw | hw <;> exact hw.2
    simp only [Pt.toREk, Pt.E, Pt.toRE, RE.ends]
    rw [List.flatMap_assoc]
    congr 1
    funext j
    exact ih (Or.inl hw') j
  | last t q => intro _ i; simp [Pt.toREk, Pt.E, Pt.toRE, RE.ends]
  | cls t q => intro _ i; simp [Pt.toREk, Pt.E, Pt.toRE, RE.ends]
  | grp a q ih => intro _ i; simp [Pt.toREk, Pt.E, Pt.toRE, RE.ends, Pt.toREk_eps]
  | alt x y => intro hw; rcases hw with hw | hw <;> exact absurd hw (by simp [Pt.wf])

/-! ## The passes -/

/-- The wildcard stands alone at its branching point. -/
def Pt.lone : Pt → Prop
  | .done => True
  | .tok _ k => k.lone
  | .last _ _ => True
  | .cls _ _ => True
  | .grp a _ => a.lone
  | .alt x y => Tk.dot ∉ x.heads ∧ Tk.dot ∉ y.heads ∧ x.lone ∧ y.lone

/-- Alternatives begin with different characters. -/
def Pt.det : Pt → Prop
  | .done => True
  | .tok _ k => k.det
  | .last _ _ => True
  | .cls _ _ => True
  | .grp a _ => a.det
  | .alt x y => (∀ t ∈ x.heads, ∀ t' ∈ y.heads, ∀ c, ¬ ((t.atom fz).test u c ∧ (t'.atom fz).test u c)) ∧
      x.det ∧ y.det

theorem clsAtom_of_ne {t : Tk} (h : t ≠ .dot) : t.clsAtom fz = t.atom fz := by
  cases t <;> first | rfl | exact absurd rfl h

theorem simple_mem {a : Pt} (hs : a.simple = true) (text : List Char) (i j : Nat) :
    j ∈ a.E u fz text i ↔ j = i + 1 ∧ ∃ t ∈ a.heads, hit u (t.atom fz) text i = true := by
  induction a with
  | tok t k _ =>
    cases k <;> simp [Pt.simple] at hs
    rw [Pt.E_tok]
    simp only [Pt.heads, List.mem_singleton, exists_eq_left]
    split <;> simp_all [Pt.E_done]
  | alt x y _ ihy =>
    cases x with
    | tok t k =>
      cases k <;> simp [Pt.simple] at hs
      rw [Pt.E_alt, List.mem_append, ihy hs.2, Pt.E_tok]
      simp only [Pt.heads, List.cons_append, List.nil_append, List.mem_cons, exists_eq_or_imp]
      split <;> simp_all [Pt.E_done]
    | _ => simp [Pt.simple] at hs
  | _ => simp [Pt.simple] at hs

/-- What single-token alternatives are. -/
theorem simple_cases {a : Pt} (hs : a.simple = true) :
    (∃ t, a = .tok t .done ∧ t.single = true) ∨ (∃ x y, a = .alt x y ∧ 2 ≤ a.heads.length) := by
  cases a with
  | tok t k =>
    cases k <;> simp [Pt.simple] at hs
    exact Or.inl ⟨t, rfl, hs⟩
  | alt x y =>
    right
    refine ⟨x, y, rfl, ?_⟩
    cases x with
    | tok t k =>
      cases k <;> simp [Pt.simple] at hs
      cases y with
      | tok t' k' => simp [Pt.heads]
      | alt x' y' =>
        cases x' with
        | tok t' k' =>
          simp only [Pt.heads, List.length_append, List.length_cons, List.length_nil]
          omega
        | _ => simp [Pt.simple] at hs
      | _ => simp [Pt.simple] at hs
    | _ => simp [Pt.simple] at hs
  | _ => simp [Pt.simple] at hs

theorem any_congr {α : Type} {l : List α} {f g : α → Bool} (h : ∀ a ∈ l, f a = g a) :
    l.any f = l.any g := by
  induction l with
  | nil => rfl
  | cons a l ih =>
    rw [List.any_cons, List.any_cons, h a (by simp), ih (fun b hb => h b (by simp [hb]))]

/-- What passes 1 and 4 make of single-token alternatives. -/
theorem E_simple {a : Pt} (hs : a.simple = true) (hl : a.lone) (q : Bool) (text : List Char)
    (i : Nat) :
    ((Pt.cls a.heads q).s4 false).E u fz text i =
      (if a.heads.any (fun t => hit u (t.atom fz) text i) then [i + 1] else []) ++ stay q i := by
  rcases simple_cases hs with ⟨t, rfl, ht⟩ | ⟨x, y, rfl, h2⟩
  · simp [Pt.heads, Pt.s4, ht, Pt.E_last]
  · have h4 : (Pt.cls (Pt.alt x y).heads q).s4 false = .cls (Pt.alt x y).heads q := by
      generalize (Pt.alt x y).heads = l at h2
      cases l with
      | nil => simp at h2
      | cons a l =>
        cases l with
        | nil => simp at h2
        | cons b l => simp [Pt.s4]
    rw [h4, Pt.E_cls]
    congr 2
    apply congrArg (· = true)
    apply any_congr
    intro t ht
    rw [clsAtom_of_ne]
    rintro rfl
    simp only [Pt.heads, List.mem_append] at ht
    rcases ht with ht | ht
    · exact hl.1 ht
    · exact hl.2.1 ht

theorem mem_s4s1 {p : Pt} (hr : p.raw) (hl : p.lone) (text : List Char) :
    ∀ (b : Bool) (i j : Nat), j ∈ ((p.s1 b).s4 b).E u fz text i ↔ j ∈ p.E u fz text i := by
  induction p with
  | done => exact fun b i j => Iff.rfl
  | tok t k ih =>
    intro b i j
    simp only [Pt.s1, Pt.s4]
    rw [Pt.E_tok, Pt.E_tok]
    split
    · exact ih hr hl _ _ _
    · rfl
  | last t q => exact fun b i j => Iff.rfl
  | cls ts q => exact absurd hr (by simp [Pt.raw])
  | grp a q ih =>
    intro b i j
    simp only [Pt.s1]
    split_ifs with h
    · obtain ⟨rfl, hs⟩ := h
      rw [E_simple u fz hs hl, Pt.E_grp, List.mem_append, List.mem_append, simple_mem u fz hs]
      apply or_congr _ Iff.rfl
      rw [← List.any_eq_true]
      split_ifs with h <;> simp [h]
    · simp only [Pt.s4]
      rw [Pt.E_grp, Pt.E_grp, List.mem_append, List.mem_append, ih hr hl]
  | alt x y ihx ihy =>
    intro b i j
    simp only [Pt.s1, Pt.s4]
    rw [Pt.E_alt, Pt.E_alt, List.mem_append, List.mem_append, ihx hr.1 hl.2.2.1, ihy hr.2 hl.2.2.2]

theorem E_s5 (p : Pt) (text : List Char) : ∀ i, p.s5.E u fz text i = p.E u fz text i := by
  induction p with
  | done => exact fun i => rfl
  | tok t k ih =>
    intro i
    simp only [Pt.s5]
    rw [Pt.E_tok, Pt.E_tok, ih]
  | last t q => exact fun i => rfl
  | cls ts q => exact fun i => rfl
  | grp a q ih =>
    intro i
    rw [Pt.s5_grp]
    cases h : a.one with
    | none => simp only; rw [Pt.E_grp, Pt.E_grp, ih]
    | some t =>
      obtain ⟨rfl, -⟩ := Pt.one_some h
      simp only
      rw [Pt.E_last, Pt.E_grp, Pt.E_tok, Pt.E_done]
  | alt x y ihx ihy =>
    intro i
    simp only [Pt.s5]
    rw [Pt.E_alt, Pt.E_alt, ihx, ihy]

theorem mem_simp {p : Pt} (hr : p.raw) (hl : p.lone) (text : List Char) (i j : Nat) :
    j ∈ p.simp.E u fz text i ↔ j ∈ p.E u fz text i := by
  unfold Pt.simp
  rw [E_s5, mem_s4s1 u fz hr hl]

/-! ## Order -/

theorem hit_iff (a : Atom) (text : List Char) (i : Nat) :
    hit u a text i = true ↔ ∃ c, text[i]? = some c ∧ a.test u c = true := by
  unfold hit
  generalize text[i]? = o
  cases o <;> simp

/-- A match begins with one of the heads. -/
theorem E_heads {p : Pt} (hr : p.raw) (hw : p.wf .branch ∨ p.wf .alts) (text : List Char)
    (i j : Nat) (hj : j ∈ p.E u fz text i) :
    ∃ t ∈ p.heads, hit u (t.atom fz) text i = true := by
  induction p with
  | tok t k _ =>
    rw [Pt.E_tok] at hj
    split_ifs at hj with h
    · exact ⟨t, by simp [Pt.heads], h⟩
    · simp at hj
  | alt x y ihx ihy =>
    have hw' : x.wf .branch ∧ y.wf .alts := by
      rcases hw with hw | hw
      · exact absurd hw (by simp [Pt.wf])
      · exact hw
    rw [Pt.E_alt, List.mem_append] at hj
    rcases hj with hj | hj
    · obtain ⟨t, h1, h2⟩ := ihx hr.1 (Or.inl hw'.1) hj
      exact ⟨t, by simp [Pt.heads, h1], h2⟩
    · obtain ⟨t, h1, h2⟩ := ihy hr.2 (Or.inr hw'.2) hj
      exact ⟨t, by simp [Pt.heads, h1], h2⟩
  | _ => rcases hw with hw | hw <;> exact absurd hw (by simp [Pt.wf])

/-- Of two alternatives that begin differently at most one matches. -/
theorem E_alt_disjoint {x y : Pt} (hr : (Pt.alt x y).raw) (hw : (Pt.alt x y).wf .alts)
    (hd : (Pt.alt x y).det u fz) (text : List Char) (i : Nat) :
    x.E u fz text i = [] ∨ y.E u fz text i = [] := by
  by_contra hne
  push Not at hne
  obtain ⟨a, ha⟩ := List.exists_mem_of_ne_nil _ hne.1
  obtain ⟨b, hb⟩ := List.exists_mem_of_ne_nil _ hne.2
  obtain ⟨t, h1, h2⟩ := E_heads u fz hr.1 (Or.inl hw.1) text i a ha
  obtain ⟨t', h1', h2'⟩ := E_heads u fz hr.2 (Or.inr hw.2) text i b hb
  rw [hit_iff] at h2 h2'
  obtain ⟨c, hc, h2⟩ := h2
  obtain ⟨c', hc', h2'⟩ := h2'
  rw [hc] at hc'
  injection hc' with hc'
  subst hc'
  exact hd.1 t h1 t' h1' c ⟨h2, h2'⟩

/-- The ends come longest first. -/
theorem E_sorted {p : Pt} (hr : p.raw) (hd : p.det u fz) (text : List Char) :
    ∀ {kind : Pt.Kind}, p.wf kind → ∀ i, (p.E u fz text i).Pairwise (· > ·) ∧
      (∀ j ∈ p.E u fz text i, i ≤ j) ∧ (kind ≠ .rest → ∀ j ∈ p.E u fz text i, i < j) := by
  induction p with
  | done =>
    intro kind hw i
    rw [Pt.E_done]
    refine ⟨by simp, by simp, ?_⟩
    intro hk
    cases kind <;> first | exact absurd rfl hk | exact absurd hw (by simp [Pt.wf])
  | tok t k ih =>
    intro kind hw i
    have hw' : k.wf .rest := by cases kind <;> exact hw.2
    rw [Pt.E_tok]
    split_ifs with h
    · obtain ⟨h1, h2, -⟩ := ih hr hd hw' (i + 1)
      refine ⟨h1, fun j hj => ?_, fun _ j hj => ?_⟩ <;> have := h2 j hj <;> omega
    · simp
  | last t q => exact absurd hr (by simp [Pt.raw])
  | cls ts q => exact absurd hr (by simp [Pt.raw])
  | grp a q ih =>
    intro kind hw i
    have hk : kind = .rest := by cases kind <;> first | rfl | exact absurd hw (by simp [Pt.wf])
    subst hk
    obtain ⟨h1, h2, h3⟩ := ih hr hd (kind := .alts) hw i
    rw [Pt.E_grp]
    refine ⟨?_, ?_, by simp⟩
    · rw [List.pairwise_append]
      refine ⟨h1, by cases q <;> simp [stay], ?_⟩
      intro j hj b hb
      have := h3 (by simp) j hj
      cases q <;> simp [stay] at hb
      omega
    · intro j hj
      rw [List.mem_append] at hj
      rcases hj with hj | hj
      · exact h2 j hj
      · cases q <;> simp [stay] at hj
        omega
  | alt x y ihx ihy =>
    intro kind hw i
    have hk : kind = .alts := by cases kind <;> first | rfl | exact absurd hw (by simp [Pt.wf])
    subst hk
    have hx := ihx hr.1 hd.2.1 (kind := .branch) hw.1 i
    have hy := ihy hr.2 hd.2.2 (kind := .alts) hw.2 i
    rw [Pt.E_alt]
    rcases E_alt_disjoint u fz hr hw hd text i with h | h
    · rw [h, List.nil_append]
      exact ⟨hy.1, hy.2.1, fun _ => hy.2.2 (by simp)⟩
    · rw [h, List.append_nil]
      exact ⟨hx.1, hx.2.1, fun _ => hx.2.2 (by simp)⟩

theorem simple_list {a : Pt} (hs : a.simple = true) (hr : a.raw) (hw : a.wf .alts)
    (hd : a.det u fz) (text : List Char) (i : Nat) :
    a.E u fz text i = if a.heads.any (fun t => hit u (t.atom fz) text i) then [i + 1] else [] := by
  have h1 := (E_sorted u fz hr hd text hw i).1
  have h2 := simple_mem u fz hs text i
  generalize a.E u fz text i = l at h1 h2
  split_ifs with h
  · have hm : i + 1 ∈ l := (h2 _).2 ⟨rfl, List.any_eq_true.1 h⟩
    cases l with
    | nil => simp at hm
    | cons b l =>
      have hb := ((h2 b).1 (by simp)).1
      cases l with
      | nil => rw [hb]
      | cons c l =>
        have hc := ((h2 c).1 (by simp)).1
        rw [List.pairwise_cons] at h1
        have := h1.1 c (by simp)
        omega
  · cases l with
    | nil => rfl
    | cons b l =>
      exact absurd (List.any_eq_true.2 ((h2 b).1 (by simp)).2) h

theorem E_s4s1 {p : Pt} (hr : p.raw) (hl : p.lone) (hd : p.det u fz) (text : List Char) :
    ∀ {kind : Pt.Kind}, p.wf kind → ∀ (b : Bool) (i : Nat),
    ((p.s1 b).s4 b).E u fz text i = p.E u fz text i := by
  induction p with
  | done => exact fun _ b i => rfl
  | tok t k ih =>
    intro kind hw b i
    have hw' : k.wf .rest := by cases kind <;> exact hw.2
    simp only [Pt.s1, Pt.s4]
    rw [Pt.E_tok, Pt.E_tok, ih hr hl hd hw']
  | last t q => exact absurd hr (by simp [Pt.raw])
  | cls ts q => exact absurd hr (by simp [Pt.raw])
  | grp a q ih =>
    intro kind hw b i
    have hw' : a.wf .alts := by cases kind <;> first | exact hw | exact absurd hw (by simp [Pt.wf])
    simp only [Pt.s1]
    split_ifs with h
    · obtain ⟨rfl, hs⟩ := h
      rw [E_simple u fz hs hl, Pt.E_grp, simple_list u fz hs hr hw' hd]
    · simp only [Pt.s4]
      rw [Pt.E_grp, Pt.E_grp, ih hr hl hd hw']
  | alt x y ihx ihy =>
    intro kind hw b i
    have hw' : x.wf .branch ∧ y.wf .alts := by
      cases kind <;> first | exact hw | exact absurd hw (by simp [Pt.wf])
    simp only [Pt.s1, Pt.s4]
    rw [Pt.E_alt, Pt.E_alt, ihx hr.1 hl.2.2.1 hd.2.1 hw'.1, ihy hr.2 hl.2.2.2 hd.2.2 hw'.2]

theorem E_simp {p : Pt} (hr : p.raw) (hl : p.lone) (hd : p.det u fz) (hw : p.wf .rest)
    (text : List Char) (i : Nat) : p.simp.E u fz text i = p.E u fz text i := by
  unfold Pt.simp
  rw [E_s5, E_s4s1 u fz hr hl hd text hw]

end

end Regex
end Verif
