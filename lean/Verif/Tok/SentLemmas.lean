import Verif.Tok.MergeLemmas
import Mathlib.Data.List.Infix

/-!
# Sentences, strip, split and n-grams
-/

namespace Verif
namespace Tok

open TokSpec

/-! ## Where sentences end -/

/-- A closing punctuation mark followed only by closing quotes and brackets. -/
def Closed (pre : List Token) : Prop :=
  ∃ a t b, pre = a ++ t :: b ∧ strIn closingPunctuation t.text = true ∧
    ∀ u ∈ b, strIn closers u.text = true

theorem closed_concat (pre : List Token) (t : Token) :
    Closed (pre ++ [t]) ↔ strIn closingPunctuation t.text = true ∨
      (strIn closers t.text = true ∧ Closed pre) := by
  constructor
  · rintro ⟨a, u, b, h, h1, h2⟩
    rcases List.eq_nil_or_concat b with rfl | ⟨b', v, rfl⟩
    · obtain ⟨-, h⟩ := List.append_inj' h rfl
      simp only [List.cons.injEq, and_true] at h
      subst h
      exact Or.inl h1
    · right
      have h' : pre ++ [t] = (a ++ u :: b') ++ [v] := by simpa using h
      obtain ⟨k1, k2⟩ := List.append_inj' h' rfl
      simp only [List.cons.injEq, and_true] at k2
      subst k2
      exact ⟨h2 t (by simp), a, u, b', k1, h1, fun x hx => h2 x (by simp [hx])⟩
  · rintro (h | ⟨h, a, u, b, rfl, h1, h2⟩)
    · exact ⟨pre, t, [], rfl, h, by simp⟩
    · refine ⟨a, u, b ++ [t], by simp, h1, ?_⟩
      intro x hx
      rcases List.mem_append.mp hx with hx | hx
      · exact h2 x hx
      · rw [List.mem_singleton.mp hx]; exact h

theorem not_closed_nil : ¬ Closed [] := by
  rintro ⟨a, t, b, h, -⟩
  simp at h

/-- Token `i` is a boundary. -/
def Bdry (ts : List Token) (i : ℕ) : Prop :=
  (∃ t, ts[i]? = some t ∧ t.category = .WHITESPACE) ∧ Closed (ts.take i)

theorem boundary_iff (ts : List Token) (i : ℕ) : Boundary ts i ↔ Bdry ts i := by
  unfold Boundary Bdry
  refine and_congr_right ?_
  rintro ⟨w, hw, -⟩
  have hi : i < ts.length := (List.getElem?_eq_some_iff.mp hw).1
  constructor
  · rintro ⟨j, hj, ⟨t, c, h1, h2, h3⟩, h4⟩
    refine ⟨ts.take j, t, (ts.take i).drop (j + 1), ?_, strIn_iff.mpr ⟨c, h3, h2⟩, ?_⟩
    · have hj' : j < (ts.take i).length := by rw [List.length_take]; omega
      conv_lhs => rw [← List.take_append_drop j (ts.take i)]
      rw [List.take_take, Nat.min_eq_left hj.le, List.drop_eq_getElem_cons hj']
      congr 2
      rw [List.getElem_take]
      exact (List.getElem?_eq_some_iff.mp h1).2
    · intro u hu
      obtain ⟨m, hm⟩ := List.mem_iff_getElem?.mp hu
      rw [List.getElem?_drop, List.getElem?_take] at hm
      split_ifs at hm with hlt
      obtain ⟨t', c', g1, g2, g3⟩ := h4 (j + 1 + m) (by omega) hlt
      rw [g1, Option.some.injEq] at hm
      subst hm
      exact strIn_iff.mpr ⟨c', g3, g2⟩
  · rintro ⟨a, t, b, h1, h2, h3⟩
    have hlen : a.length + (b.length + 1) = i := by
      have := congrArg List.length h1
      simp only [List.length_take, List.length_append, List.length_cons] at this
      omega
    have hget : ∀ k, k < i → ts[k]? = (a ++ t :: b)[k]? := by
      intro k hk
      rw [← h1, List.getElem?_take, if_pos hk]
    obtain ⟨c, hc, hc'⟩ := strIn_iff.mp h2
    refine ⟨a.length, by omega, ⟨t, c, ?_, hc', hc⟩, ?_⟩
    · rw [hget _ (by omega)]; simp
    · intro k hk hki
      obtain ⟨m, rfl⟩ : ∃ m, k = a.length + (m + 1) := ⟨k - a.length - 1, by omega⟩
      have hb : m < b.length := by omega
      obtain ⟨d, hd, hd'⟩ := strIn_iff.mp (h3 b[m] (List.getElem_mem hb))
      refine ⟨b[m], d, ?_, hd', hd⟩
      rw [hget _ hki, List.getElem?_append_right (by omega), Nat.add_sub_cancel_left,
        List.getElem?_cons_succ]
      exact List.getElem?_eq_getElem hb

/-- Whitespace tokens are single space characters. -/
abbrev WsOk (t : Token) : Prop := t.category = .WHITESPACE → ∃ c ∈ unicodeSpaces, t.text = [c]

theorem spaces_disjoint : ∀ c ∈ unicodeSpaces, c ∉ closers ∧ c ∉ closingPunctuation := by
  decide +kernel

theorem closers_disjoint : ∀ c ∈ closers, c ∉ closingPunctuation := by decide +kernel

theorem ws_not_closed {pre : List Token} {t : Token} (h : WsOk t) (hw : t.category = .WHITESPACE) :
    ¬ Closed (pre ++ [t]) := by
  obtain ⟨c, hc, ht⟩ := h hw
  rw [closed_concat, strIn_iff, strIn_iff]
  rintro (⟨d, hd, hd'⟩ | ⟨⟨d, hd, hd'⟩, -⟩)
  · rw [ht] at hd'
    simp only [List.cons.injEq, and_true] at hd'
    exact (spaces_disjoint c hc).2 (hd' ▸ hd)
  · rw [ht] at hd'
    simp only [List.cons.injEq, and_true] at hd'
    exact (spaces_disjoint c hc).1 (hd' ▸ hd)

theorem closer_not_closing {s : List ℕ} (h : strIn closers s = true) :
    strIn closingPunctuation s = false := by
  obtain ⟨c, hc, rfl⟩ := strIn_iff.mp h
  rw [← Bool.not_eq_true, strIn_iff]
  rintro ⟨d, hd, hd'⟩
  simp only [List.cons.injEq, and_true] at hd'
  exact closers_disjoint c hc (hd' ▸ hd)

theorem sentLoop_cons (t : Token) (ts buf : List Token) (closed : Bool) :
    sentLoop (t :: ts) buf closed =
      if closed && t.category == .WHITESPACE then (buf ++ [t]) :: sentLoop ts [] false
      else if strIn closers t.text then sentLoop ts (buf ++ [t]) closed
      else sentLoop ts (buf ++ [t]) (strIn closingPunctuation t.text) := by
  rw [sentLoop]
  cases strIn closers t.text <;> simp

theorem sentLoop_spec (ts : List Token) (hws : ∀ t ∈ ts, WsOk t) (pre buf : List Token)
    (closed : Bool) (hcl : closed = true ↔ Closed (pre ++ buf)) :
    (sentLoop ts buf closed).flatten = buf ++ ts ∧
    (∀ s ∈ sentLoop ts buf closed, s ≠ []) ∧
    ∀ i, i < (buf ++ ts).length →
      ((∃ m ≤ (sentLoop ts buf closed).length,
          ((sentLoop ts buf closed).take m).flatten.length = i + 1) ↔
        (buf.length ≤ i ∧ Bdry (pre ++ buf ++ ts) (pre.length + i)) ∨
          i + 1 = (buf ++ ts).length) := by
  induction ts generalizing pre buf closed with
  | nil =>
    unfold sentLoop
    cases buf with
    | nil => simp
    | cons b bs =>
      refine ⟨by simp, by simp, ?_⟩
      intro i hi
      simp only [List.isEmpty_cons, Bool.false_eq_true, if_false, List.append_nil] at *
      constructor
      · rintro ⟨m, hm, hm'⟩
        right
        rcases m with _ | m
        · simp at hm'
        · simpa using hm'.symm
      · rintro (⟨h, -⟩ | h)
        · omega
        · exact ⟨1, le_refl _, by simpa using h.symm⟩
  | cons t ts ih =>
    have hget : (pre ++ buf ++ t :: ts)[pre.length + buf.length]? = some t := by
      rw [List.getElem?_append_right (by simp)]
      simp
    have htake : (pre ++ buf ++ t :: ts).take (pre.length + buf.length) = pre ++ buf := by
      have : pre.length + buf.length = (pre ++ buf).length := by simp
      rw [this, List.take_left']
      rfl
    have hB : Bdry (pre ++ buf ++ t :: ts) (pre.length + buf.length) ↔
        (closed && t.category == .WHITESPACE) = true := by
      unfold Bdry
      rw [htake, hget, Bool.and_eq_true, hcl]
      simp [and_comm]
    rw [sentLoop_cons]
    split_ifs with h1 h3
    · -- the sentence ends
      have hw : t.category = .WHITESPACE := by
        simp only [Bool.and_eq_true, beq_iff_eq] at h1
        exact h1.2
      obtain ⟨g1, g2, g3⟩ := ih (fun u hu => hws u (by simp [hu])) (pre ++ buf ++ [t]) [] false
        (by
          simp only [Bool.false_eq_true, List.append_nil, false_iff]
          exact ws_not_closed (hws t (by simp)) hw)
      refine ⟨by simp [g1], ?_, ?_⟩
      · intro s hs
        rcases List.mem_cons.mp hs with hs | hs
        · rw [hs]; simp
        · exact g2 s hs
      · intro i hi
        rcases Nat.lt_trichotomy i buf.length with hlt | rfl | hgt
        · constructor
          · rintro ⟨m, hm, hm'⟩
            rcases m with _ | m
            · simp at hm'
            · simp only [List.take_succ_cons, List.flatten_cons, List.length_append,
                List.length_cons, List.length_nil] at hm'
              omega
          · rintro (⟨h, -⟩ | h)
            · omega
            · simp only [List.length_append, List.length_cons] at h
              omega
        · constructor
          · intro _
            exact Or.inl ⟨le_refl _, hB.mpr h1⟩
          · intro _
            exact ⟨1, by simp, by simp⟩
        · have hi' : i - (buf.length + 1) < ts.length := by
            simp only [List.length_append, List.length_cons] at hi
            omega
          have e1 : pre ++ buf ++ [t] ++ [] ++ ts = pre ++ buf ++ t :: ts := by simp
          have e2 : (pre ++ buf ++ [t]).length + (i - (buf.length + 1)) = pre.length + i := by
            simp only [List.length_append, List.length_cons, List.length_nil]
            omega
          have e3 : (i + 1 = (buf ++ t :: ts).length) ↔ (i - (buf.length + 1) + 1 = ts.length) := by
            simp only [List.length_append, List.length_cons]; omega
          have e4 : buf.length ≤ i := by omega
          have := g3 (i - (buf.length + 1)) (by simpa using hi')
          rw [e1, e2] at this
          simp only [List.length_nil, Nat.zero_le, true_and, List.nil_append] at this
          rw [show (buf.length ≤ i ∧ Bdry (pre ++ buf ++ t :: ts) (pre.length + i)) ↔
              Bdry (pre ++ buf ++ t :: ts) (pre.length + i) from
            ⟨fun h => h.2, fun h => ⟨e4, h⟩⟩, e3, ← this]
          clear this e3
          constructor
          · rintro ⟨m, hm, hm'⟩
            rcases m with _ | m
            · simp at hm'
            · refine ⟨m, by simpa using hm, ?_⟩
              simp only [List.take_succ_cons, List.flatten_cons, List.length_append,
                List.length_cons, List.length_nil] at hm'
              omega
          · rintro ⟨m, hm, hm'⟩
            refine ⟨m + 1, by simpa using hm, ?_⟩
            simp only [List.take_succ_cons, List.flatten_cons, List.length_append,
                List.length_cons, List.length_nil]
            omega
    all_goals
      -- the sentence goes on
      have hcl' : ∀ b : Bool, (b = true ↔ Closed (pre ++ buf ++ [t])) →
          (sentLoop ts (buf ++ [t]) b).flatten = buf ++ t :: ts ∧
          (∀ s ∈ sentLoop ts (buf ++ [t]) b, s ≠ []) ∧
          ∀ i, i < (buf ++ t :: ts).length →
            ((∃ m ≤ (sentLoop ts (buf ++ [t]) b).length,
                ((sentLoop ts (buf ++ [t]) b).take m).flatten.length = i + 1) ↔
              (buf.length ≤ i ∧ Bdry (pre ++ buf ++ t :: ts) (pre.length + i)) ∨
                i + 1 = (buf ++ t :: ts).length) := by
        intro b hb
        obtain ⟨g1, g2, g3⟩ := ih (fun u hu => hws u (by simp [hu])) pre (buf ++ [t]) b
          (by rw [← List.append_assoc]; exact hb)
        refine ⟨by simp [g1], g2, ?_⟩
        intro i hi
        have := g3 i (by simpa using hi)
        have e1 : pre ++ (buf ++ [t]) ++ ts = pre ++ buf ++ t :: ts := by simp
        have e2 : (buf ++ [t] ++ ts).length = (buf ++ t :: ts).length := by simp
        rw [e1, e2] at this
        rw [this]
        refine or_congr_left ⟨fun h => ⟨?_, h.2⟩, fun h => ⟨?_, h.2⟩⟩
        · have := h.1
          simp only [List.length_append, List.length_cons, List.length_nil] at this
          omega
        · have hne : i ≠ buf.length := by
            rintro rfl
            exact h1 (hB.mp h.2)
          have := h.1
          simp only [List.length_append, List.length_cons, List.length_nil]
          omega
    · exact hcl' _ (by rw [closed_concat]; simp [h3, closer_not_closing h3, hcl])
    · exact hcl' _ (by rw [closed_concat]; simp [h3])

/-- The sentences of one paragraph. -/
theorem sentLoop_cut {ts : List Token} (h : ∀ t ∈ ts, WsOk t) :
    CutAtBoundaries ts (sentLoop ts [] false) := by
  obtain ⟨h1, h2, h3⟩ := sentLoop_spec ts h [] [] false
    (by simpa using not_closed_nil)
  refine ⟨by simpa using h1, h2, ?_⟩
  intro i hi
  have := h3 i (by simpa using hi)
  simpa [boundary_iff] using this

theorem wsOk_of_shape {isText : ℕ → Bool} {t : Token}
    (h : t.category = .WORD ∨ Shape isText t) : WsOk t := by
  intro hw
  rcases h with h | h | ⟨c, h1, -, h3⟩
  · rw [h] at hw; cases hw
  · rw [h.1] at hw; cases hw
  · refine ⟨c, ?_, h1⟩
    by_contra hc
    rw [if_neg (mem_unicodeSpaces.not.mp hc), hw] at h3
    cases h3

theorem sentParas_ok (cat : ℕ → Cat) (merge : Bool) (ps : List (List ℕ)) :
    ∃ groups : List (List (List Token)), sentParas cat merge ps = .ok groups.flatten ∧
      List.Forall₂ (fun p g => ∃ ts, tokenizeTokens cat p merge = .ok ts ∧ Lossless p ts ∧
        CutAtBoundaries ts g) ps groups := by
  induction ps with
  | nil => exact ⟨[], rfl, .nil⟩
  | cons p ps ih =>
    obtain ⟨groups, h1, h2⟩ := ih
    obtain ⟨ts, h3, h4, h5⟩ := tokenizeTokens_ok cat p merge
    refine ⟨sentLoop ts [] false :: groups, ?_, .cons ⟨ts, h3, h4, ?_⟩ h2⟩
    · unfold sentParas
      rw [h3]
      change (do let rest ← sentParas cat merge ps; Except.ok (sentLoop ts [] false ++ rest)) = _
      rw [h1]
      rfl
    · exact sentLoop_cut fun t ht => wsOk_of_shape (h5 t ht)

/-! ## `strip` and `split` -/

theorem visible_append (a b : List ℕ) : visible (a ++ b) = visible a ++ visible b := by
  simp [visible]

theorem visible_dropWhile (s : List ℕ) : visible (s.dropWhile pyIsSpace) = visible s := by
  induction s with
  | nil => rfl
  | cons c s ih =>
    rw [List.dropWhile_cons]
    split_ifs with h
    · rw [ih]
      have : c ∈ blanks := by simpa [pyIsSpace, stripChars_eq] using h
      simp [visible, this]
    · rfl

theorem visible_reverse (s : List ℕ) : visible s.reverse = (visible s).reverse := by
  simp [visible, List.filter_reverse]

theorem visible_strip (s : List ℕ) : visible (pyStrip s) = visible s := by
  unfold pyStrip
  rw [visible_reverse, visible_dropWhile, visible_reverse, List.reverse_reverse, visible_dropWhile]

theorem visible_flatten (ss : List (List ℕ)) : visible ss.flatten = (ss.map visible).flatten := by
  unfold visible
  rw [List.filter_flatten]

theorem dropWhile_head {p : ℕ → Bool} {s : List ℕ} {c : ℕ} (h : (s.dropWhile p).head? = some c) :
    p c = false := by
  have := List.head?_dropWhile_not p s
  rw [h] at this
  simpa using this

theorem strip_head {s : List ℕ} {c : ℕ} (h : (pyStrip s).head? = some c) : c ∉ blanks := by
  unfold pyStrip at h
  rw [List.head?_reverse] at h
  -- the last element of a suffix-free prefix is the first of the dropped list
  generalize hd : s.dropWhile pyIsSpace = d at h
  have hsuf : (d.reverse.dropWhile pyIsSpace) <:+ d.reverse := List.dropWhile_suffix _
  obtain ⟨pre, hpre⟩ := hsuf
  have hne : d.reverse.dropWhile pyIsSpace ≠ [] := by
    intro e
    rw [e] at h
    simp at h
  have hlast : d.reverse.getLast? = some c := by
    rw [← hpre, List.getLast?_append_of_ne_nil _ hne]
    exact h
  rw [List.getLast?_reverse, ← hd] at hlast
  have := dropWhile_head hlast
  simpa [pyIsSpace, stripChars_eq] using this

theorem strip_last {s : List ℕ} {c : ℕ} (h : (pyStrip s).getLast? = some c) : c ∉ blanks := by
  unfold pyStrip at h
  rw [List.getLast?_reverse] at h
  have := dropWhile_head h
  simpa [pyIsSpace, stripChars_eq] using this

theorem strip_trimmed {s : List ℕ} (h : pyStrip s ≠ []) : Trimmed (pyStrip s) :=
  ⟨h, fun _ => strip_head, fun _ => strip_last⟩

theorem takeWhile_blanks (s : List ℕ) : ∀ c ∈ s.takeWhile pyIsSpace, c ∈ blanks := by
  intro c hc
  have h := List.all_eq_true.1 (List.all_takeWhile (l := s) (p := pyIsSpace)) c hc
  simpa [pyIsSpace, stripChars_eq] using h

theorem strips_pyStrip (s : List ℕ) : Strips s (pyStrip s) := by
  refine ⟨⟨s.takeWhile pyIsSpace,
    ((s.dropWhile pyIsSpace).reverse.takeWhile pyIsSpace).reverse, ?_, takeWhile_blanks s, ?_⟩, ?_⟩
  · unfold pyStrip
    rw [List.append_assoc, ← List.reverse_append, List.takeWhile_append_dropWhile,
      List.reverse_reverse, List.takeWhile_append_dropWhile]
  · intro c hc
    exact takeWhile_blanks _ c (List.mem_reverse.1 hc)
  · by_cases h : pyStrip s = []
    · exact Or.inl h
    · exact Or.inr (strip_trimmed h)

theorem strips_map (ss : List (List ℕ)) : List.Forall₂ Strips ss (ss.map pyStrip) := by
  induction ss with
  | nil => exact .nil
  | cons s ss ih => exact .cons (strips_pyStrip s) ih

theorem splitLoop_ne_nil (sep text : List ℕ) (skip : ℕ) (cur : List ℕ) :
    splitLoop sep text skip cur ≠ [] := by
  induction text generalizing skip cur with
  | nil => simp [splitLoop]
  | cons c cs ih =>
    cases skip with
    | succ k => exact ih k cur
    | zero =>
      unfold splitLoop
      split_ifs
      · simp
      · exact ih _ _

theorem prefix_skip {sep : List ℕ} {c : ℕ} {cs : List ℕ} (h0 : sep ≠ [])
    (h : sep.isPrefixOf (c :: cs) = true) :
    sep.length - 1 ≤ cs.length ∧ c :: cs = sep ++ cs.drop (sep.length - 1) := by
  obtain ⟨rest, hr⟩ := List.isPrefixOf_iff_prefix.mp h
  obtain ⟨d, s, rfl⟩ := List.exists_cons_of_ne_nil h0
  simp only [List.cons_append, List.cons.injEq] at hr
  obtain ⟨rfl, rfl⟩ := hr
  simp

theorem splitLoop_join (sep text : List ℕ) (h0 : sep ≠ []) (skip : ℕ) (cur : List ℕ)
    (hs : skip ≤ text.length) :
    sep.intercalate (splitLoop sep text skip cur) = cur ++ text.drop skip := by
  induction text generalizing skip cur with
  | nil => simp [splitLoop, List.intercalate]
  | cons c cs ih =>
    cases skip with
    | succ k =>
      unfold splitLoop
      rw [ih k cur (by simpa using hs)]
      simp
    | zero =>
      unfold splitLoop
      split_ifs with h
      · obtain ⟨h1, h2⟩ := prefix_skip h0 h
        have := ih (sep.length - 1) [] h1
        obtain ⟨x, xs, hx⟩ := List.exists_cons_of_ne_nil
          (splitLoop_ne_nil sep cs (sep.length - 1) [])
        rw [hx] at this ⊢
        simp only [List.nil_append] at this
        rw [List.drop_zero, h2, ← this]
        simp [List.intercalate, List.intersperse]
      · rw [ih 0 (cur ++ [c]) (by simp)]
        simp

theorem splitLoop_free (sep text : List ℕ) (h0 : sep ≠ []) (skip : ℕ) (cur : List ℕ)
    (hs : skip ≤ text.length)
    (hf : ∀ i, i < cur.length → ¬ sep <+: (cur ++ text.drop skip).drop i)
    (hk : skip ≠ 0 → cur = []) :
    ∀ piece ∈ splitLoop sep text skip cur, ¬ sep <:+: piece := by
  have occ : ∀ (piece rest : List ℕ), (∀ i, i < piece.length → ¬ sep <+: (piece ++ rest).drop i) →
      ¬ sep <:+: piece := by
    rintro piece rest h ⟨a, b, hab⟩
    have hlen : a.length < piece.length := by
      have := List.length_pos_of_ne_nil h0
      rw [← hab]
      simp only [List.length_append]
      omega
    refine h a.length hlen ?_
    rw [← hab]
    refine ⟨b ++ rest, ?_⟩
    simp [List.append_assoc]
  induction text generalizing skip cur with
  | nil =>
    intro piece hp
    simp only [splitLoop, List.mem_singleton] at hp
    subst hp
    exact occ piece [] (by simpa using hf)
  | cons c cs ih =>
    cases skip with
    | succ k =>
      have hc := hk (by simp)
      subst hc
      exact ih k [] (by simpa using hs) (by simp) (fun _ => rfl)
    | zero =>
      unfold splitLoop
      split_ifs with h
      · intro piece hp
        rcases List.mem_cons.mp hp with hp | hp
        · rw [hp]
          exact occ cur _ hf
        · exact ih (sep.length - 1) [] (prefix_skip h0 h).1 (by simp) (fun _ => rfl) piece hp
      · refine ih 0 (cur ++ [c]) (by simp) ?_ (by simp)
        intro i hi
        have e : cur ++ [c] ++ cs.drop 0 = cur ++ (c :: cs).drop 0 := by simp
        rw [e]
        rcases Nat.lt_or_ge i cur.length with hlt | hge
        · exact hf i hlt
        · have hi' : i = cur.length := by
            simp only [List.length_append, List.length_cons, List.length_nil] at hi
            omega
          subst hi'
          rw [List.drop_left, List.drop_zero, ← List.isPrefixOf_iff_prefix]
          exact h

theorem split_spec (sep text : List ℕ) (h0 : sep ≠ []) :
    sep.intercalate (pySplit sep text) = text ∧ ∀ piece ∈ pySplit sep text, ¬ sep <:+: piece := by
  refine ⟨by simpa [pySplit] using splitLoop_join sep text h0 0 [] (by simp), ?_⟩
  exact splitLoop_free sep text h0 0 [] (by simp) (by simp) (fun _ => rfl)

theorem visible_intercalate {sep : List ℕ} (h : ∀ c ∈ sep, c ∈ blanks)
    (ps : List (List ℕ)) : visible (sep.intercalate ps) = visible ps.flatten := by
  have hsep : visible sep = [] := by
    unfold visible
    rw [List.filter_eq_nil_iff]
    intro c hc
    simp [h c hc]
  induction ps with
  | nil => rfl
  | cons p ps ih =>
    cases ps with
    | nil => simp [List.intercalate]
    | cons q qs =>
      have : sep.intercalate (p :: q :: qs) = p ++ sep ++ sep.intercalate (q :: qs) := by
        simp [List.intercalate, List.intersperse]
      rw [this, visible_append, visible_append, hsep, ih, List.append_nil, ← visible_append]
      rfl

/-! ## n-grams -/

theorem any_drop_empty {α : Type} (l : List α) (n : ℕ) (hn : 0 < n) :
    (((List.range n).map fun i => l.drop i).isEmpty ||
      ((List.range n).map fun i => l.drop i).any List.isEmpty) = decide (l.length < n) := by
  have h1 : ((List.range n).map fun i => l.drop i).isEmpty = false := by
    cases n with
    | zero => omega
    | succ k => simp [List.range_succ]
  rw [h1, Bool.false_or, Bool.eq_iff_iff, decide_eq_true_iff]
  simp only [List.any_map, List.any_eq_true, List.mem_range, Function.comp, List.isEmpty_iff,
    List.drop_eq_nil_iff]
  constructor
  · rintro ⟨i, hi, hl⟩; omega
  · intro h; exact ⟨n - 1, by omega, by omega⟩

theorem heads_eq {α : Type} (l : List α) (n : ℕ) (h : n ≤ l.length) :
    ((List.range n).map fun i => l.drop i).filterMap List.head? = l.take n := by
  induction n with
  | zero => simp
  | succ k ih =>
    rw [List.range_succ, List.map_append, List.filterMap_append, ih (by omega)]
    have : k < l.length := by omega
    rw [List.take_add_one, List.getElem?_eq_getElem this]
    simp [this]

theorem zipStar_windows {α : Type} (l : List α) (n : ℕ) (hn : 0 < n) (k : ℕ)
    (hk : l.length + 1 - n ≤ k) :
    zipStar k ((List.range n).map fun i => l.drop i) = windows l n := by
  induction k generalizing l with
  | zero =>
    have : l.length + 1 - n = 0 := by omega
    simp [zipStar, windows, this]
  | succ k ih =>
    unfold zipStar
    rw [any_drop_empty l n hn]
    by_cases h : l.length < n
    · have : l.length + 1 - n = 0 := by omega
      simp [windows, this, h]
    · have hl : n ≤ l.length := by omega
      rw [if_neg (by simpa using h), heads_eq l n hl]
      have ht : (((List.range n).map fun i => l.drop i).map List.tail) =
          (List.range n).map fun i => l.tail.drop i := by
        rw [List.map_map]
        refine List.map_congr_left ?_
        intro i _
        simp [List.tail_drop, List.drop_tail]
      rw [ht, ih l.tail (by rw [List.length_tail]; omega)]
      unfold windows
      have e : l.length + 1 - n = (l.tail.length + 1 - n) + 1 := by
        rw [List.length_tail]; omega
      rw [e, List.range_succ_eq_map, List.map_cons, List.map_map]
      congr 1
      refine List.map_congr_left ?_
      intro i _
      simp [List.drop_tail]

theorem wordWindows_eq {α : Type} (l : List α) (n : ℕ) (hn : 0 < n) :
    wordWindows l n = windows l n :=
  zipStar_windows l n hn _ (by omega)

theorem textNGrams_eq (text : List ℕ) (n : ℕ) (hn : 0 < n) :
    textNGrams text n = windows text n := by
  unfold textNGrams windows
  have e : ((text.length : ℤ) - n + 1).toNat = text.length + 1 - n := by omega
  rw [e]
  refine List.map_congr_left ?_
  intro i _
  unfold pySliceZ pySlice
  rw [if_neg (by omega)]
  congr 1
  omega

end Tok
end Verif
