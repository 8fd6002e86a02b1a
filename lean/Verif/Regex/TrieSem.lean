import Verif.Regex.Sem
import Verif.Trie.State

/-!
# The pattern of a trie and its keys

Helper lemmas only; the property theorems are in `Verif.Regex.Props`.
-/

namespace Verif
namespace Regex

open RegexSpec
open Trie (Node)

/-! ## Reading a key -/

theorem reads_nil {R : Char → Char → Prop} {text : List Char} {i j : Nat} (hi : i ≤ text.length) :
    Reads R [] text i j ↔ j = i := by
  unfold Reads
  rw [List.forall₂_nil_left_iff]
  constructor
  · rintro ⟨h1, h2, h3⟩
    have := congrArg List.length h3
    simp only [List.length_drop, List.length_take, List.length_nil] at this
    omega
  · rintro rfl
    exact ⟨Nat.le_refl _, hi, by simp⟩

theorem reads_cons {R : Char → Char → Prop} {k : Char} {ks text : List Char} {i j : Nat} :
    Reads R (k :: ks) text i j ↔ ∃ c, text[i]? = some c ∧ R k c ∧ Reads R ks text (i + 1) j := by
  unfold Reads
  constructor
  · rintro ⟨h1, h2, h3⟩
    obtain ⟨c, r, hc, h4, h5⟩ := List.forall₂_cons_left_iff.1 h3
    have hlt : i < j := by
      have := congrArg List.length h5
      simp only [List.length_drop, List.length_take, List.length_cons] at this
      omega
    have hi : i < (text.take j).length := by simp only [List.length_take]; omega
    rw [List.drop_eq_getElem_cons hi] at h5
    simp only [List.cons.injEq, List.getElem_take] at h5
    refine ⟨c, ?_, hc, hlt, h2, h5.2 ▸ h4⟩
    rw [← h5.1]
    exact List.getElem?_eq_getElem _
  · rintro ⟨c, hc, hR, h1, h2, h3⟩
    have hi : i < (text.take j).length := by simp only [List.length_take]; omega
    refine ⟨by omega, h2, ?_⟩
    rw [List.drop_eq_getElem_cons hi]
    refine List.Forall₂.cons ?_ h3
    rw [List.getElem_take]
    rw [List.getElem?_eq_getElem (by omega)] at hc
    injection hc with hc
    rwa [hc]

/-! ## Matches of the tree of a node -/

section
variable {ν : Type} (u : Classes) (fz : Bool) (g : Char → Tk)

theorem kidsPt_mem (f : List (Char × Node Char ν)) (hf : f ≠ []) (text : List Char) (i j : Nat) :
    j ∈ (kidsPt g f).E u fz text i ↔
      ∃ k c, (k, c) ∈ f ∧ hit u ((g k).atom fz) text i = true ∧
        j ∈ (contPt g c).E u fz text (i + 1) := by
  induction f with
  | nil => exact absurd rfl hf
  | cons x rest ih =>
    obtain ⟨k, c⟩ := x
    rw [kidsPt_cons]
    have h1 : j ∈ (Pt.tok (g k) (contPt g c)).E u fz text i ↔
        hit u ((g k).atom fz) text i = true ∧ j ∈ (contPt g c).E u fz text (i + 1) := by
      rw [Pt.E_tok]
      split_ifs with h <;> simp [h]
    split_ifs with hr
    · subst hr
      rw [h1]
      simp
    · rw [Pt.E_alt, List.mem_append, h1, ih hr]
      constructor
      · rintro (⟨h2, h3⟩ | ⟨k', c', h2, h3⟩)
        · exact ⟨k, c, by simp, h2, h3⟩
        · exact ⟨k', c', by simp [h2], h3⟩
      · rintro ⟨k', c', h2, h3⟩
        rcases List.mem_cons.1 h2 with h2 | h2
        · injection h2 with h4 h5
          subst h4 h5
          exact Or.inl h3
        · exact Or.inr ⟨k', c', h2, h3⟩

theorem contPt_E (n : Node Char ν) (hn : n.kids ≠ []) (text : List Char) (i : Nat) :
    (contPt g n).E u fz text i =
      (kidsPt g n.kids.reverse).E u fz text i ++ stay n.val.isSome i := by
  unfold contPt
  rw [if_neg hn]
  split_ifs with h1 h2
  · rw [Pt.E_grp, h1]
  · rw [Pt.E_grp]
    simp [h1]
  · simp [h1, stay]

theorem contPt_mem {R : Char → Char → Prop}
    (hR : ∀ k c, ((g k).atom fz).test u c = true ↔ R k c) (text : List Char)
    {n : Node Char ν} (hn : n.WF) (hl : n.kids ≠ [] ∨ n.val ≠ none) :
    ∀ {i : Nat}, i ≤ text.length → ∀ j,
    (j ∈ (contPt g n).E u fz text i ↔ ∃ key, n.get key ≠ none ∧ Reads R key text i j) := by
  have main : ∀ f : List (Char × Node Char ν), ∀ k n, (k, n) ∈ f → n.WF →
      (n.kids ≠ [] ∨ n.val ≠ none) → ∀ {i : Nat}, i ≤ text.length → ∀ j,
      (j ∈ (contPt g n).E u fz text i ↔ ∃ key, n.get key ≠ none ∧ Reads R key text i j) := by
    intro f
    induction f using kids_induct with
    | h0 => intro k n h; simp at h
    | h1 k c rest ih1 ih2 =>
      intro k' n hm hn hl i hi j
      rcases List.mem_cons.1 hm with hm | hm
      · injection hm with h1 h2
        subst h1 h2
        by_cases hk : n.kids = []
        · have hv : n.val ≠ none := by
            rcases hl with hl | hl
            · exact absurd hk hl
            · exact hl
          have hc : contPt g n = .done := by unfold contPt; rw [if_pos hk]
          rw [hc, Pt.E_done, List.mem_singleton]
          constructor
          · rintro rfl
            exact ⟨[], by simpa using hv, (reads_nil hi).2 rfl⟩
          · rintro ⟨key, h1, h2⟩
            cases key with
            | nil => exact (reads_nil hi).1 h2
            | cons a key => simp [Node.get_cons, hk] at h1
        · rw [contPt_E u fz g n hk, List.mem_append,
            kidsPt_mem u fz g _ (by simpa using hk)]
          constructor
          · rintro (⟨a, c, h1, h2, h3⟩ | h1)
            · rw [hit_iff] at h2
              obtain ⟨d, hd, h2⟩ := h2
              have hlt : i < text.length := by
                rw [List.getElem?_eq_some_iff] at hd
                exact hd.1
              have hmem : (a, c) ∈ n.kids := by simpa using h1
              obtain ⟨key, h4, h5⟩ := (ih1 a c h1 (hn.child hmem) (hn.live hmem) hlt j).1 h3
              refine ⟨a :: key, ?_, reads_cons.2 ⟨d, hd, (hR a d).1 h2, h5⟩⟩
              rw [Node.get_cons, Dict.get?_of_mem hn.nodup hmem]
              exact h4
            · refine ⟨[], ?_, ?_⟩
              · rw [Node.get_nil]
                intro h2
                simp [h2, stay] at h1
              · rw [reads_nil hi]
                cases hv : n.val.isSome <;> simp [hv, stay] at h1
                exact h1
          · rintro ⟨key, h1, h2⟩
            cases key with
            | nil =>
              right
              rw [reads_nil hi] at h2
              subst h2
              rw [Node.get_nil] at h1
              have : n.val.isSome = true := Option.isSome_iff_ne_none.2 h1
              simp [this, stay]
            | cons a key =>
              left
              rw [Node.get_cons] at h1
              cases hg : Dict.get? n.kids a with
              | none => simp [hg] at h1
              | some c =>
                rw [hg] at h1
                have hmem := Dict.mem_of_get? hg
                have hmem' : (a, c) ∈ n.kids.reverse := by simpa using hmem
                obtain ⟨d, hd, h3, h4⟩ := reads_cons.1 h2
                have hlt : i < text.length := by
                  rw [List.getElem?_eq_some_iff] at hd
                  exact hd.1
                refine ⟨a, c, hmem', (hit_iff _ _ _ _).2 ⟨d, hd, (hR a d).2 h3⟩, ?_⟩
                exact (ih1 a c hmem' (hn.child hmem) (hn.live hmem) hlt j).2 ⟨key, h1, h4⟩
      · exact ih2 k' n hm hn hl hi j
  intro i hi j
  exact main [('a', n)] 'a' n (by simp) hn hl hi j

/-! ## Conditions on the tree from conditions on the nodes -/

theorem kidsPt_heads (f : List (Char × Node Char ν)) :
    (kidsPt g f).heads = f.map fun x => g x.1 := by
  induction f with
  | nil => rw [kidsPt_nil]; rfl
  | cons x rest ih =>
    obtain ⟨k, c⟩ := x
    rw [kidsPt_cons]
    split_ifs with hr
    · subst hr; rfl
    · simp [Pt.heads, ih]

/-- A condition on the child tokens holds at the node and everywhere below it. -/
def Everywhere (Q : List Char → Prop) (n : Node Char ν) : Prop :=
  ∀ p m, n.walk p = some m → Q (m.kids.map Prod.fst)

theorem Everywhere.child {Q : List Char → Prop} {n : Node Char ν} (h : Everywhere Q n)
    (hn : n.WF) {k : Char} {c : Node Char ν} (hm : (k, c) ∈ n.kids) : Everywhere Q c := by
  intro p m hw
  refine h (k :: p) m ?_
  rw [Node.walk_cons, Dict.get?_of_mem hn.nodup hm]
  exact hw

/-- Induction over a node: a property of trees that groups, ends and single branches inherit. -/
theorem cont_induct {P : Pt → Prop} {Q : List Char → Prop} (hdone : P .done)
    (htok : ∀ t k, P k → P (.tok t k))
    (hgrp : ∀ (n : Node Char ν) q, n.WF → Q (n.kids.map Prod.fst) →
      P (kidsPt g n.kids.reverse) → P (.grp (kidsPt g n.kids.reverse) q))
    (halt : ∀ (f : List (Char × Node Char ν)), f ≠ [] → ∀ k c (n : Node Char ν), n.WF →
      (∃ pre, pre ++ (k, c) :: f = n.kids.reverse) →
      Q (n.kids.map Prod.fst) → P (.tok (g k) (contPt g c)) → P (kidsPt g f) →
      P (.alt (.tok (g k) (contPt g c)) (kidsPt g f)))
    {n : Node Char ν} (hn : n.WF) (hQ : Everywhere Q n) : P (contPt g n) := by
  have kids : ∀ (n : Node Char ν), n.WF → Q (n.kids.map Prod.fst) →
      (∀ k c, (k, c) ∈ n.kids → P (contPt g c)) →
      ∀ f pre, pre ++ f = n.kids.reverse → P (kidsPt g f) := by
    intro n hn hq hc f
    induction f with
    | nil => intro pre _; rw [kidsPt_nil]; exact hdone
    | cons x rest ih =>
      obtain ⟨k, c⟩ := x
      intro pre he
      have hm : (k, c) ∈ n.kids := by
        have : (k, c) ∈ n.kids.reverse := by rw [← he]; simp
        simpa using this
      rw [kidsPt_cons]
      split_ifs with hr
      · exact htok _ _ (hc k c hm)
      · refine halt rest hr k c n hn ⟨pre, he⟩ hq (htok _ _ (hc k c hm)) ?_
        exact ih (pre ++ [(k, c)]) (by simpa using he)
  have main : ∀ f : List (Char × Node Char ν), ∀ k n, (k, n) ∈ f → n.WF → Everywhere Q n →
      P (contPt g n) := by
    intro f
    induction f using kids_induct with
    | h0 => intro k n h; simp at h
    | h1 k c rest ih1 ih2 =>
      intro k' n hm hn hQ
      rcases List.mem_cons.1 hm with hm | hm
      · injection hm with h1 h2
        subst h1 h2
        have hq := hQ [] n (by simp)
        have hk := kids n hn hq (fun a c hac => ih1 a c (by simpa using hac) (hn.child hac)
          (hQ.child hn hac)) n.kids.reverse [] rfl
        unfold contPt
        split_ifs with h1 h2 h3
        · exact hdone
        · exact hgrp n _ hn hq hk
        · exact hgrp n _ hn hq hk
        · exact hk
      · exact ih2 k' n hm hn hQ
  exact main [('a', n)] 'a' n (by simp) hn hQ

theorem contPt_lone {n : Node Char ν} (hn : n.WF)
    (h : Everywhere (fun l => 2 ≤ l.length → ∀ k ∈ l, g k ≠ .dot) n) : (contPt g n).lone := by
  refine cont_induct g (P := Pt.lone) trivial (fun t k h => h) (fun n q _ _ h => h) ?_ hn h
  rintro f hf k c n - ⟨pre, he⟩ hq h1 h2
  have hmem : ∀ x ∈ (k, c) :: f, x ∈ n.kids := by
    intro x hx
    have : x ∈ n.kids.reverse := by rw [← he]; exact List.mem_append_right _ hx
    simpa using this
  have hlen : 2 ≤ (n.kids.map Prod.fst).length := by
    have := congrArg List.length he
    have h3 := List.length_pos_of_ne_nil hf
    simp only [List.length_append, List.length_cons, List.length_reverse] at this
    simp only [List.length_map]
    omega
  refine ⟨?_, ?_, h1, h2⟩
  · simp only [Pt.heads, List.mem_singleton]
    exact fun h => hq hlen k (List.mem_map.2 ⟨(k, c), hmem _ (by simp), rfl⟩) h.symm
  · rw [kidsPt_heads]
    intro h
    obtain ⟨x, hx, hd⟩ := List.mem_map.1 h
    exact hq hlen x.1 (List.mem_map.2 ⟨x, hmem _ (by simp [hx]), rfl⟩) hd

theorem contPt_det {n : Node Char ν} (hn : n.WF)
    (h : Everywhere (fun l => l.Pairwise fun a b => ∀ c,
      ¬ (((g a).atom fz).test u c ∧ ((g b).atom fz).test u c)) n) : (contPt g n).det u fz := by
  refine cont_induct g (P := Pt.det u fz) trivial (fun t k h => h) (fun n q _ _ h => h) ?_ hn h
  rintro f hf k c n - ⟨pre, he⟩ hq h1 h2
  refine ⟨?_, h1, h2⟩
  intro t ht t' ht' d hd
  simp only [Pt.heads, List.mem_singleton] at ht
  rw [kidsPt_heads] at ht'
  obtain ⟨x, hx, rfl⟩ := List.mem_map.1 ht'
  subst ht
  rw [← List.pairwise_reverse, ← List.map_reverse, ← he, List.map_append, List.pairwise_append,
    List.map_cons, List.pairwise_cons] at hq
  exact hq.2.1.1 x.1 (List.mem_map.2 ⟨x, hx, rfl⟩) d ⟨hd.2, hd.1⟩

/-! ## Doubled spaces -/

/-- No doubled space can arise when groups become classes. -/
def Pt.neat : Pt → Prop
  | .done => True
  | .tok _ k => k.neat
  | .last _ _ => True
  | .cls _ _ => True
  | .grp a _ => cleanList none none a.heads ∧ a.neat
  | .alt x y => x.neat ∧ y.neat

theorem contPt_neat {n : Node Char ν} (hn : n.WF)
    (h : Everywhere (fun l => cleanList none none (l.reverse.map g)) n) : (contPt g n).neat := by
  refine cont_induct g (P := Pt.neat) trivial (fun t k h => h) (fun n q _ hq h => ?_)
    (fun f hf k c n _ _ _ h1 h2 => ⟨h1, h2⟩) hn h
  refine ⟨?_, h⟩
  rw [kidsPt_heads]
  rw [← List.map_reverse, List.map_map] at hq
  exact hq

/-- No doubled space along any path. -/
def Pt.tight : Option Tk → Option Tk → Pt → Prop
  | _, _, .done => True
  | a, b, .tok t k => ¬ (t = Tk.sp ∧ loaded a b) ∧ k.tight (some t) a
  | a, b, .last t _ => ¬ (t = Tk.sp ∧ loaded a b)
  | a, b, .cls ts _ => cleanList none none ts ∧ ∀ t ∈ ts, ¬ (t = Tk.sp ∧ loaded a b)
  | a, b, .grp x _ => x.tight a b
  | a, b, .alt x y => x.tight a b ∧ y.tight a b

theorem loaded_none (b : Option Tk) : ¬ loaded none b := by simp [loaded]

theorem Pt.tight_weaken {p : Pt} : ∀ {a b : Option Tk}, p.tight a b →
    p.tight none none ∧ p.tight a none := by
  induction p with
  | done => exact fun _ => ⟨trivial, trivial⟩
  | tok t k ih =>
    intro a b h
    refine ⟨⟨fun h => loaded_none _ h.2, (ih h.2).2⟩, ⟨?_, h.2⟩⟩
    rintro ⟨h1, h2⟩
    refine h.1 ⟨h1, ?_⟩
    simp [loaded] at h2
    simp [loaded, h2]
  | last t q =>
    intro a b h
    refine ⟨fun h => loaded_none _ h.2, ?_⟩
    rintro ⟨h1, h2⟩
    refine h ⟨h1, ?_⟩
    simp [loaded] at h2
    simp [loaded, h2]
  | cls ts q =>
    intro a b h
    refine ⟨⟨h.1, fun t ht h => loaded_none _ h.2⟩, h.1, ?_⟩
    rintro t ht ⟨h1, h2⟩
    refine h.2 t ht ⟨h1, ?_⟩
    simp [loaded] at h2
    simp [loaded, h2]
  | grp x q ih => exact fun h => ih h
  | alt x y ihx ihy =>
    exact fun h => ⟨⟨(ihx h.1).1, (ihy h.2).1⟩, ⟨(ihx h.1).2, (ihy h.2).2⟩⟩

theorem Pt.tight_clean {p : Pt} : ∀ {a b : Option Tk}, p.tight a b → p.clean a b := by
  induction p with
  | done => exact fun _ => trivial
  | tok t k ih => exact fun h => ⟨h.1, ih h.2⟩
  | last t q => exact fun h => h
  | cls ts q => exact fun h => h.1
  | grp x q ih => exact fun h => ih (tight_weaken h).1
  | alt x y ihx ihy => exact fun h => ⟨ihx (tight_weaken h.1).1, ihy (tight_weaken h.2).1⟩

theorem Pt.simple_tight {x : Pt} (hs : x.simple = true) {a b : Option Tk} (h : x.tight a b) :
    ∀ t ∈ x.heads, ¬ (t = Tk.sp ∧ loaded a b) := by
  induction x with
  | tok t k _ => simpa [Pt.heads] using h.1
  | alt x y _ ihy =>
    cases x with
    | tok t k =>
      cases k <;> simp [Pt.simple] at hs
      simp only [Pt.heads, List.cons_append, List.nil_append, List.mem_cons]
      rintro t' (rfl | ht')
      · exact h.1.1
      · exact ihy hs.2 h.2 t' ht'
    | _ => simp [Pt.simple] at hs
  | _ => simp [Pt.simple] at hs

theorem Pt.s1_tight {p : Pt} (hn : p.neat) :
    ∀ {a b : Option Tk} (f : Bool), p.tight a b → (p.s1 f).tight a b := by
  induction p with
  | done => exact fun _ h => h
  | tok t k ih => exact fun _ h => ⟨h.1, ih hn _ h.2⟩
  | last t q => exact fun _ h => h
  | cls ts q => exact fun _ h => h
  | grp x q ih =>
    intro a b f h
    simp only [Pt.s1]
    split_ifs with hc
    · exact ⟨hn.1, Pt.simple_tight hc.2 h⟩
    · exact ih hn.2 _ h
  | alt x y ihx ihy => exact fun _ h => ⟨ihx hn.1 _ h.1, ihy hn.2 _ h.2⟩

theorem Pt.s4_tight {p : Pt} :
    ∀ {a b : Option Tk} (f : Bool), p.tight a b → (p.s4 f).tight a b := by
  induction p with
  | done => exact fun _ h => h
  | tok t k ih => exact fun _ h => ⟨h.1, ih _ h.2⟩
  | last t q => exact fun _ h => h
  | cls ts q =>
    intro a b f h
    unfold Pt.s4
    split
    · split_ifs
      · exact h.2 _ (by simp)
      · exact h
    · exact h
  | grp x q ih => exact fun _ h => ih _ h
  | alt x y ihx ihy => exact fun _ h => ⟨ihx _ h.1, ihy _ h.2⟩

theorem Pt.s5_tight {p : Pt} : ∀ {a b : Option Tk}, p.tight a b → p.s5.tight a b := by
  induction p with
  | done => exact fun h => h
  | tok t k ih => exact fun h => ⟨h.1, ih h.2⟩
  | last t q => exact fun h => h
  | cls ts q => exact fun h => h
  | grp x q ih =>
    intro a b h
    rw [Pt.s5_grp]
    cases ho : x.one with
    | none => exact ih h
    | some t =>
      obtain ⟨rfl, -⟩ := Pt.one_some ho
      exact h.1
  | alt x y ihx ihy => exact fun h => ⟨ihx h.1, ihy h.2⟩

theorem Pt.simp_tight {p : Pt} (hn : p.neat) {a b : Option Tk} (h : p.tight a b) :
    p.simp.tight a b := Pt.s5_tight (Pt.s4_tight _ (Pt.s1_tight hn _ h))

theorem contPt_tight {n : Node Char ν} (hn : n.WF) :
    ∀ {a b : Option Tk}, (∀ p, n.walk p ≠ none → cleanList a b (p.map g)) →
    (contPt g n).tight a b := by
  have main : ∀ f : List (Char × Node Char ν), ∀ k n, (k, n) ∈ f → n.WF → ∀ {a b : Option Tk},
      (∀ p, n.walk p ≠ none → cleanList a b (p.map g)) → (contPt g n).tight a b := by
    intro f
    induction f using kids_induct with
    | h0 => intro k n h; simp at h
    | h1 k c rest ih1 ih2 =>
      intro k' n hm hn a b h
      rcases List.mem_cons.1 hm with hm | hm
      · injection hm with h1 h2
        subst h1 h2
        have key : ∀ f : List (Char × Node Char ν), (∀ x ∈ f, x ∈ n.kids) →
            (kidsPt g f).tight a b := by
          intro f
          induction f with
          | nil => intro _; rw [kidsPt_nil]; trivial
          | cons x f ih =>
            obtain ⟨d, c⟩ := x
            intro hf
            have hdc := hf (d, c) (by simp)
            have hg := Dict.get?_of_mem hn.nodup hdc
            have htok : (Pt.tok (g d) (contPt g c)).tight a b := by
              refine ⟨?_, ih1 d c (by simpa using hdc) (hn.child hdc) ?_⟩
              · have := h [d] (by rw [Node.walk_cons, hg]; simp)
                exact this.1
              · intro p hp
                have := h (d :: p) (by rw [Node.walk_cons, hg]; exact hp)
                exact this.2
            rw [kidsPt_cons]
            split_ifs
            · exact htok
            · exact ⟨htok, ih (fun x hx => hf x (by simp [hx]))⟩
        have hk := key n.kids.reverse (by simp)
        unfold contPt
        split_ifs
        · trivial
        · exact hk
        · exact hk
        · exact hk
      · exact ih2 k' n hm hn h
  intro a b
  exact main [('a', n)] 'a' n (by simp) hn

/-! ## Keys below a node -/

theorem exists_key {n : Node Char ν} (hn : n.WF) (hl : n.kids ≠ [] ∨ n.val ≠ none) :
    ∃ q, n.get q ≠ none := by
  have main : ∀ f : List (Char × Node Char ν), ∀ k n, (k, n) ∈ f → n.WF →
      (n.kids ≠ [] ∨ n.val ≠ none) → ∃ q, n.get q ≠ none := by
    intro f
    induction f using kids_induct with
    | h0 => intro k n h; simp at h
    | h1 k c rest ih1 ih2 =>
      intro k' n hm hn hl
      rcases List.mem_cons.1 hm with hm | hm
      · injection hm with h1 h2
        subst h1 h2
        cases hk : n.kids with
        | nil =>
          rcases hl with hl | hl
          · exact absurd hk hl
          · exact ⟨[], by simpa using hl⟩
        | cons x ks =>
          obtain ⟨d, c⟩ := x
          have hm : (d, c) ∈ n.kids := by rw [hk]; simp
          obtain ⟨q, hq⟩ := ih1 d c (by simpa using hm) (hn.child hm) (hn.live hm)
          refine ⟨d :: q, ?_⟩
          rw [Node.get_cons, Dict.get?_of_mem hn.nodup hm]
          exact hq
      · exact ih2 k' n hm hn hl
  exact main [('a', n)] 'a' n (by simp) hn hl

theorem live_of_key {n : Node Char ν} {key : List Char} (h : n.get key ≠ none) :
    n.kids ≠ [] ∨ n.val ≠ none := by
  by_contra hc
  push Not at hc
  exact h (Node.get_eq_none_of_kids hc.1 hc.2 key)

/-- A child of a node that is reached by a path begins some key. -/
theorem key_through {n : Node Char ν} (hn : n.WF) {p : List Char} {m : Node Char ν}
    (hw : n.walk p = some m) {k : Char} (hk : k ∈ m.kids.map Prod.fst) :
    ∃ q, n.get (p ++ k :: q) ≠ none := by
  have hm := Node.walk_wf hn hw
  obtain ⟨⟨k', c⟩, hc, rfl⟩ := List.mem_map.1 hk
  obtain ⟨q, hq⟩ := exists_key (hm.child hc) (hm.live hc)
  refine ⟨q, ?_⟩
  unfold Node.get at hq ⊢
  rw [Node.walk_append, hw, Option.bind_some, Node.walk_cons, Dict.get?_of_mem hm.nodup hc]
  exact hq

theorem key_extends {n : Node Char ν} (hn : n.WF) {p : List Char}
    (hw : n.walk p ≠ none) (hp : p ≠ []) : ∃ q, n.get (p ++ q) ≠ none := by
  obtain ⟨a, k, rfl⟩ : ∃ a k, p = a ++ [k] := ⟨p.dropLast, p.getLast hp, (List.dropLast_append_getLast hp).symm⟩
  rw [Node.walk_append] at hw
  cases ha : n.walk a with
  | none => simp [ha] at hw
  | some m =>
    rw [ha, Option.bind_some, Node.walk_cons] at hw
    cases hg : Dict.get? m.kids k with
    | none => simp [hg] at hw
    | some c =>
      obtain ⟨q, hq⟩ := key_through hn ha (List.mem_map.2 ⟨(k, c), Dict.mem_of_get? hg, rfl⟩)
      exact ⟨q, by simpa using hq⟩

end

end Regex
end Verif
