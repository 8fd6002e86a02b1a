import Verif.Trie.ScanSegs

/-!
# The loops of `finditer` and `_translate_tokens`

Helper lemmas only; the property theorems are in `Verif.Trie.ScanProps`.
-/

namespace Verif
namespace Trie

open TrieSpec

variable {κ τ ν σ μ : Type} [DecidableEq τ]

section
variable {root : Node τ ν} {mkS : Node τ ν → List τ → σ} {mkM : Nat → List τ → ν → μ}
  {head : σ → Node τ ν} {next : σ → Node τ ν → σ} {record : σ → ν → μ} {x : τ}

/-- Dead positions stay dead. -/
theorem spansOf_dead (d p q : List (Seg τ ν)) (b : Nat) (hq : flat q = flat p ++ [x])
    (h : spansOf root mkS b (d ++ p) = spansOf root mkS (b + (flat d).length) p)
    (hf : Full (d ++ p)) :
    spansOf root mkS b (d ++ q) = spansOf root mkS (b + (flat d).length) q := by
  induction d generalizing b with
  | nil => simp
  | cons g d ih =>
    have hlen : 0 < g.text.length := List.length_pos_of_ne_nil (hf g (by simp))
    have hf' : Full (d ++ p) := fun g hg => hf g (by
      rw [List.cons_append]; exact List.mem_cons_of_mem _ hg)
    have hfp : Full p := fun g hg => hf' g (by simp [hg])
    rw [List.cons_append] at h ⊢
    rw [spansOf] at h ⊢
    cases hw : root.walk (flat (g :: (d ++ p))) with
    | some n =>
      rw [hw] at h
      have hmem : (b, mkS n (flat (g :: (d ++ p)))) ∈
          spansOf root mkS (b + (flat (g :: d)).length) p := by
        rw [← h]; simp
      have := (spansOf_bound root mkS _ p hfp _ hmem).1
      rw [flat_cons, List.length_append] at this
      simp only at this
      omega
    | none =>
      simp only [hw, List.nil_append] at h
      have hfl : flat (g :: (d ++ q)) = flat (g :: (d ++ p)) ++ [x] := by
        rw [flat_cons, flat_cons, flat_append, flat_append, hq]; simp
      have hk : root.walk (flat (g :: (d ++ q))) = none := by
        rw [hfl, Node.walk_append, hw]; simp
      rw [hk, List.nil_append, flat_cons, List.length_append, ← Nat.add_assoc]
      refine ih (b + g.text.length) ?_ hf'
      rw [h, flat_cons, List.length_append, Nat.add_assoc]

/-- State of the scanning loops: the text so far is cut into a finished part `d` and a pending part
`p`. -/
structure ScanInv (root : Node τ ν) (mkS : Node τ ν → List τ → σ) (mkM : Nat → List τ → ν → μ)
    (text : List τ) (spans : Dict Nat σ) (ms : Dict Nat μ) (d p : List (Seg τ ν)) : Prop where
  cut : LeftmostLongest root.get text (d ++ p)
  spans : spans = spansOf root mkS (flat d).length p
  dead : spansOf root mkS 0 (d ++ p) = spansOf root mkS (0 + (flat d).length) p
  nodup : (Dict.keys ms).Nodup
  matches_ : DEq ms (matchesOf mkM (flat d).length p)

theorem scanInv_nil : ScanInv root mkS mkM [] [] [] [] [] :=
  ⟨LeftmostLongest.nil, rfl, rfl, by simp, fun _ => rfl⟩

/-- One token. -/
theorem scan_step (hh : ∀ n w, head (mkS n w) = n)
    (hn : ∀ n w n', next (mkS n w) n' = mkS n' (w ++ [x]))
    {text : List τ} {spans : Dict Nat σ} {ms : Dict Nat μ} {d p : List (Seg τ ν)}
    (hr : ∀ n w v, record (mkS n w) v = mkM (text.length + 1) w v)
    (h : ScanInv root mkS mkM text spans ms d p) :
    let r := scanToken head next record true (mkS root []) text.length x spans ms
    ∃ d' p', extendSegs root.get x p = d' ++ p' ∧
      minKeyD r.1 text.length = (flat d).length + (flat d').length ∧
      (Dict.keys r.2).Nodup ∧
      DEq r.2 (matchesOf mkM (flat d).length d' ++
        matchesOf mkM ((flat d).length + (flat d').length) p') ∧
      Full (d' ++ p') ∧
      ∀ ms', (Dict.keys ms').Nodup →
        DEq ms' (matchesOf mkM ((flat d).length + (flat d').length) p') →
        ScanInv root mkS mkM (text ++ [x]) r.1 ms' (d ++ d') p' := by
  intro r
  have hfull : Full (d ++ p) := ll_full h.cut
  have hfp : Full p := fun g hg => hfull g (by simp [hg])
  have hlen : text.length = (flat d).length + (flat p).length := by
    rw [← ll_flat h.cut, flat_append, List.length_append]
  have hb := spansOf_bound root mkS (flat d).length p hfp
  have hmb := matchesOf_bound mkM (flat d).length p hfp
  have hmk : ∀ s ∈ Dict.keys ms, s ≤ text.length := by
    intro s hs
    rw [h.matches_.keys] at hs
    obtain ⟨q, hq, rfl⟩ := List.mem_map.mp hs
    have := hmb q hq
    omega
  obtain ⟨h1, h2, h3⟩ := scanToken_forbid head next record (mkS root []) text.length x spans ms
    (by rw [h.spans]; exact asc_spansOf root mkS _ p hfp)
    (by rw [h.spans]; intro q hq; have := hb q hq; omega) hmk h.nodup
  have hsp : r.1 = spansOf root mkS (flat d).length (extendSegs root.get x p) := by
    rw [← stepSpans_spansOf hh hn, ← hlen, ← h.spans]
    exact h1
  have hms : DEq r.2 (matchesOf mkM (flat d).length (extendSegs root.get x p)) := by
    intro s
    rw [firstHit_matchesOf hh hn (flat d).length p hfp (by rw [← hlen]; exact hr) s, ← hlen,
      ← h.spans]
    refine (h3 s).trans ?_
    rw [h.matches_ s]
    all_goals (cases firstHit head next record x (spans ++ [(text.length, mkS root [])]) <;> rfl)
  obtain ⟨d', p', e1, e2, e3, e4⟩ := split_firstSpan (root := root) (mkS := mkS) (x := x)
    (flat d).length p hfp
  have hext : extendSegs root.get x (d ++ p) = (d ++ d') ++ p' := by
    rw [extendSegs_append d p 0 h.dead hfull, e1, List.append_assoc]
  refine ⟨d', p', e1, ?_, h2, ?_, ?_, ?_⟩
  · rw [hsp, e3, hlen]
  · rw [e1, matchesOf_append] at hms
    exact hms
  · rw [← e1]; exact hfp.extend
  · intro ms' hnd hdeq
    refine ⟨?_, ?_, ?_, hnd, ?_⟩
    · rw [← hext]; exact ll_extend h.cut x
    · rw [hsp, e4, flat_append, List.length_append]
    · have := spansOf_dead (x := x) d p (d' ++ p') 0 (by rw [← e1, flat_extendSegs]) h.dead hfull
      rw [List.append_assoc, this, flat_append, List.length_append, Nat.zero_add, Nat.zero_add,
        ← e1, e4]
    · rw [flat_append, List.length_append]; exact hdeq

end

/-! ### `finditer` -/

omit [DecidableEq τ] in
theorem emitHits_split (f : Nat) (L1 L2 : List (Nat × Nat × List τ)) (fuel : Nat)
    (ms : Dict Nat (Nat × List τ)) (out : List (Hit τ)) (hnd : (Dict.keys ms).Nodup)
    (h : DEq ms (L1 ++ L2)) (ha : Asc (L1 ++ L2)) (h1 : ∀ p ∈ L1, p.1 < f)
    (h2 : ∀ p ∈ L2, f ≤ p.1) (hfuel : ms.length ≤ fuel) :
    ∃ ms', emitHits false f fuel ms out = .ok (ms', out ++ L1) ∧ (Dict.keys ms').Nodup ∧
      DEq ms' L2 := by
  induction L1 generalizing fuel ms out with
  | nil =>
    refine ⟨ms, ?_, hnd, h⟩
    cases fuel with
    | zero => simp [emitHits]
    | succ fuel =>
      rw [emitHits]
      cases L2 with
      | nil =>
        rw [DEq.nil h]
        simp
      | cons q L2 =>
        obtain ⟨s, v⟩ := q
        rw [DEq.min h ha]
        have := h2 (s, v) (by simp)
        simp only at this
        have hn : ¬ s < f := not_lt.mpr this
        simp [hn]
  | cons q L1 ih =>
    obtain ⟨s, e, seq⟩ := q
    have hmin := DEq.min h ha
    have hmem : s ∈ Dict.keys ms := by rw [h.keys]; simp
    have hpos : 0 < ms.length := by
      cases ms with
      | nil => simp at hmem
      | cons a l => simp
    obtain ⟨fuel, rfl⟩ : ∃ k, fuel = k + 1 := ⟨fuel - 1, by omega⟩
    rw [emitHits, hmin]
    have hlt : s < f := h1 (s, e, seq) (by simp)
    have hget : Dict.get? ms s = some (e, seq) := by
      rw [h s, List.cons_append, Dict.get?_cons]; simp
    simp only [hlt, decide_true, Bool.or_false, if_true, hget]
    have hasc' : Asc (L1 ++ L2) := (List.pairwise_cons.mp ha).2
    obtain ⟨ms', g1, g2, g3⟩ := ih fuel (Dict.erase ms s) (out ++ [(s, e, seq)])
      (Dict.nodup_keys_erase hnd s) (h.erase ha) hasc'
      (fun p hp => h1 p (by simp [hp])) (by have := length_erase_lt hmem; omega)
    exact ⟨ms', by rw [g1]; simp, g2, g3⟩

/-- Spans of `finditer`. -/
abbrev fS : Node τ ν → List τ → Node τ ν × List τ := fun n w => (n, w)

/-- Matches of `finditer`. -/
abbrev fM : Nat → List τ → ν → Nat × List τ := fun e w _ => (e, w)

omit [DecidableEq τ] in
theorem occurrences_eq (b : Nat) (gs : List (Seg τ ν)) : occurrences b gs = matchesOf fM b gs := by
  induction gs generalizing b with
  | nil => rfl
  | cons g gs ih => cases g <;> simp [occurrences, matchesOf, ih]

theorem findToken_ok {root : Node τ ν} {text : List τ} {st : FindState τ ν} {d p : List (Seg τ ν)}
    (x : τ) (h : ScanInv root fS fM text st.spans st.matches_ d p) (hi : st.index = text.length)
    (ho : st.out = occurrences 0 d) :
    ∃ st' d' p', findToken root false st x = .ok st' ∧
      ScanInv root fS fM (text ++ [x]) st'.spans st'.matches_ d' p' ∧
      st'.index = (text ++ [x]).length ∧ st'.out = occurrences 0 d' := by
  obtain ⟨d', p', e1, e2, e3, e4, e5, e6⟩ := scan_step (root := root) (mkS := fS) (mkM := fM)
    (head := Prod.fst) (next := fun s n => (n, s.2 ++ [x]))
    (record := fun s (_ : ν) => (text.length + 1, s.2)) (x := x)
    (fun _ _ => rfl) (fun _ _ _ => rfl) (fun _ _ _ => rfl) h
  have hfd : Full d' := fun g hg => e5 g (by simp [hg])
  have hfp : Full p' := fun g hg => e5 g (by simp [hg])
  have hasc : Asc (matchesOf (fM (ν := ν)) (flat d).length d' ++
      matchesOf fM ((flat d).length + (flat d').length) p') := by
    rw [← matchesOf_append]; exact asc_matchesOf fM _ _ e5
  obtain ⟨ms', g1, g2, g3⟩ := emitHits_split _ _ _ _ _ st.out e3 e4 hasc
    (fun q hq => (matchesOf_bound fM _ d' hfd q hq).2)
    (fun q hq => (matchesOf_bound fM _ p' hfp q hq).1) (le_refl _)
  refine ⟨⟨text.length + 1, _, ms', st.out ++ matchesOf fM (flat d).length d'⟩, d ++ d', p', ?_,
    e6 ms' g2 g3, by simp, ?_⟩
  · unfold findToken
    rw [hi]
    simp only [Bool.not_false]
    rw [e2, g1]
  · rw [ho, occurrences_eq, occurrences_eq, matchesOf_append, Nat.zero_add]

theorem findLoop_ok {root : Node τ ν} (ts text : List τ) {st : FindState τ ν} {d p : List (Seg τ ν)}
    (h : ScanInv root fS fM text st.spans st.matches_ d p) (hi : st.index = text.length)
    (ho : st.out = occurrences 0 d) :
    ∃ st' d' p', findLoop root false ts st = .ok st' ∧
      ScanInv root fS fM (text ++ ts) st'.spans st'.matches_ d' p' ∧
      st'.out = occurrences 0 d' := by
  induction ts generalizing text st d p with
  | nil => exact ⟨st, d, p, rfl, by simpa using h, ho⟩
  | cons t ts ih =>
    obtain ⟨st1, d1, p1, a1, a2, a3, a4⟩ := findToken_ok t h hi ho
    obtain ⟨st', d', p', b1, b2, b3⟩ := ih (text ++ [t]) a2 a3 a4
    refine ⟨st', d', p', ?_, by simpa using b2, b3⟩
    rw [findLoop, a1]
    exact b1

theorem findTokens_false (root : Node τ ν) (ts : List τ) :
    ∃ gs, LeftmostLongest root.get ts gs ∧ findTokens root false ts = .ok (occurrences 0 gs) := by
  obtain ⟨st, d, p, h1, h2, h3⟩ := findLoop_ok (root := root) ts [] (st := ⟨0, [], [], []⟩)
    (d := []) (p := []) scanInv_nil rfl rfl
  have hf : Full p := fun g hg => ll_full h2.cut g (by simp [hg])
  refine ⟨d ++ p, by simpa using h2.cut, ?_⟩
  unfold findTokens
  rw [h1]
  simp only
  rw [sortedItems_eq h2.matches_ h2.nodup (asc_matchesOf fM _ p hf), h3, occurrences_eq,
    occurrences_eq, matchesOf_append, Nat.zero_add]
  simp

/-! ### `translate` -/

/-- The buffer of `_translate_tokens`. -/
def indexed : Nat → List τ → List (Nat × τ)
  | _, [] => []
  | b, t :: ts => (b, t) :: indexed (b + 1) ts

omit [DecidableEq τ] in
theorem indexed_append (b : Nat) (xs ys : List τ) :
    indexed b (xs ++ ys) = indexed b xs ++ indexed (b + xs.length) ys := by
  induction xs generalizing b with
  | nil => simp [indexed]
  | cons x xs ih => simp [indexed, ih, Nat.add_assoc, Nat.add_comm 1]

omit [DecidableEq τ] in
theorem indexed_snd (b : Nat) (xs : List τ) : (indexed b xs).map Prod.snd = xs := by
  induction xs generalizing b with
  | nil => rfl
  | cons x xs ih => simp [indexed, ih]

omit [DecidableEq τ] in
theorem dropWhile_indexed (b : Nat) (xs ys : List τ) :
    (indexed b (xs ++ ys)).dropWhile (fun p => decide (p.1 < b + xs.length)) =
      indexed (b + xs.length) ys := by
  induction xs generalizing b with
  | nil =>
    cases ys with
    | nil => rfl
    | cons y ys => simp [indexed]
  | cons x xs ih =>
    have h1 : b < b + (x :: xs).length := by simp
    have h2 : b + (x :: xs).length = b + 1 + xs.length := by simp; omega
    rw [List.cons_append, indexed, List.dropWhile_cons]
    simp only [h1, decide_true, if_true]
    rw [h2]
    exact ih (b + 1)

omit [DecidableEq τ] in
theorem takeWhile_indexed_le (b f : Nat) (xs : List τ) (h : f ≤ b) :
    (indexed b xs).takeWhile (fun p => decide (p.1 < f)) = [] ∧
    (indexed b xs).dropWhile (fun p => decide (p.1 < f)) = indexed b xs := by
  cases xs with
  | nil => simp [indexed]
  | cons x xs =>
    have : ¬ b < f := not_lt.mpr h
    simp [indexed, this]

/-- Matches of `_translate_tokens`. -/
abbrev tM : Nat → List τ → ν → Nat × ν := fun e _ v => (e, v)

/-- Spans of `_translate_tokens`. -/
abbrev tS : Node τ ν → List τ → Node τ ν := fun n _ => n

omit [DecidableEq τ] in
theorem emitMatch_tok (tokv : ν → List τ) (b s e : Nat) (v : ν) (t : τ) (rest : List τ)
    (out : List τ) (h : b < s) :
    emitMatch tokv s e v (indexed b (t :: rest)) out =
      emitMatch tokv s e v (indexed (b + 1) rest) (out ++ [t]) := by
  unfold emitMatch
  simp [indexed, h]

omit [DecidableEq τ] in
theorem emitMatch_hit (tokv : ν → List τ) (b : Nat) (v : ν) (w rest : List τ) (out : List τ) :
    emitMatch tokv b (b + w.length) v (indexed b (w ++ rest)) out =
      (indexed (b + w.length) rest, out ++ tokv v) := by
  unfold emitMatch
  have := takeWhile_indexed_le b b (w ++ rest) (le_refl _)
  simp only [this.1, this.2, List.map_nil, List.append_nil]
  rw [dropWhile_indexed]

omit [DecidableEq τ] in
/-- The emission of everything before the first span. -/
theorem emitReplacements_split (tokv : ν → List τ) (index : Nat) (d p : List (Seg τ ν)) (b : Nat)
    (hf : Full (d ++ p)) (fuel : Nat) (ms : Dict Nat (Nat × ν)) (out : List τ)
    (hnd : (Dict.keys ms).Nodup)
    (h : DEq ms (matchesOf tM b d ++ matchesOf tM (b + (flat d).length) p))
    (hidx : b + (flat d).length ≤ index) (hfuel : ms.length ≤ fuel) :
    ∃ ms' buffer' out', emitReplacements tokv index (b + (flat d).length) (fuel + 1) ms
        (indexed b (flat (d ++ p))) out = .ok (ms', buffer', out') ∧
      (Dict.keys ms').Nodup ∧ DEq ms' (matchesOf tM (b + (flat d).length) p) ∧
      buffer'.dropWhile (fun q => decide (q.1 < b + (flat d).length)) =
        indexed (b + (flat d).length) (flat p) ∧
      out' ++ (buffer'.takeWhile (fun q => decide (q.1 < b + (flat d).length))).map Prod.snd =
        out ++ replaced tokv d := by
  induction d generalizing b fuel ms out with
  | nil =>
    have hfp : Full p := hf
    refine ⟨ms, indexed b (flat p), out, ?_, hnd, by simpa [matchesOf] using h, ?_, ?_⟩
    · rw [emitReplacements]
      have hge : ¬ minKeyD ms index < b + (flat ([] : List (Seg τ ν))).length := by
        unfold minKeyD
        simp only [flat_nil, List.length_nil, Nat.add_zero] at *
        cases hm : matchesOf tM b p with
        | nil =>
          rw [hm] at h
          rw [DEq.nil h]
          simp; omega
        | cons q l =>
          obtain ⟨s, v⟩ := q
          have ha := asc_matchesOf (ν := ν) tM b p hfp
          rw [hm] at h ha
          rw [DEq.min h ha]
          have := (matchesOf_bound (ν := ν) tM b p hfp (s, v) (by rw [hm]; simp)).1
          simp only [Option.getD_some]
          exact not_lt.mpr this
      simp only [hge, if_false]
      rfl
    · exact (takeWhile_indexed_le b _ _ (by simp)).2
    · simp [(takeWhile_indexed_le b b (flat p) (le_refl _)).1, replaced]
  | cons g d ih =>
    have hlen : 0 < g.text.length := List.length_pos_of_ne_nil (hf g (by simp))
    have hf' : Full (d ++ p) := fun g hg => hf g (by
      rw [List.cons_append]; exact List.mem_cons_of_mem _ hg)
    have hfd : Full d := fun g hg => hf' g (by simp [hg])
    have hfp : Full p := fun g hg => hf' g (by simp [hg])
    have hpos : b + (flat (g :: d)).length = b + g.text.length + (flat d).length := by
      rw [flat_cons, List.length_append]; omega
    rw [hpos] at h hidx ⊢
    have hasc : ∀ c, Asc (matchesOf (ν := ν) tM c d ++ matchesOf tM (c + (flat d).length) p) := by
      intro c
      rw [← matchesOf_append]; exact asc_matchesOf tM _ _ hf'
    have hbd : ∀ c, ∀ q ∈ matchesOf (ν := ν) tM c d ++ matchesOf tM (c + (flat d).length) p,
        c ≤ q.1 := by
      intro c q hq
      rw [← matchesOf_append] at hq
      exact (matchesOf_bound tM c _ hf' q hq).1
    cases g with
    | tok t =>
      simp only [Seg.text, List.length_singleton] at h hidx ⊢
      rw [matchesOf] at h
      have hfl : flat (Seg.tok t :: d ++ p) = t :: flat (d ++ p) := by
        rw [List.cons_append, flat_cons]; rfl
      rw [hfl]
      obtain ⟨ms', buffer', out', i1, i2, i3, i4, i5⟩ := ih (b + 1) hf' fuel ms (out ++ [t]) hnd h
        hidx hfuel
      -- emitting `t` first makes no difference
      rw [emitReplacements] at i1 ⊢
      have hbm : ∀ s, minKeyD ms index = s → s < b + 1 + (flat d).length → b < s := by
        intro s hs hlt
        unfold minKeyD at hs
        cases hm : matchesOf (ν := ν) tM (b + 1) d ++ matchesOf tM (b + 1 + (flat d).length) p with
        | nil =>
          rw [hm] at h
          rw [DEq.nil h] at hs
          simp at hs
          omega
        | cons q l =>
          obtain ⟨s', v⟩ := q
          have ha := hasc (b + 1)
          have hb := hbd (b + 1) (s', v) (by rw [hm]; simp)
          rw [hm] at h ha
          rw [DEq.min h ha] at hs
          simp at hs hb
          omega
      by_cases hlt : minKeyD ms index < b + 1 + (flat d).length
      · have hb := hbm _ rfl hlt
        simp only [hlt, if_true] at i1 ⊢
        cases hg : Dict.get? ms (minKeyD ms index) with
        | none => simp [hg] at i1
        | some r =>
          obtain ⟨e, v⟩ := r
          simp only [hg] at i1 ⊢
          rw [emitMatch_tok tokv b _ e v t (flat (d ++ p)) out hb]
          exact ⟨ms', buffer', out', i1, i2, i3, i4, i5.trans (by simp [replaced])⟩
      · simp only [hlt, if_false, Except.ok.injEq, Prod.mk.injEq] at i1 ⊢
        obtain ⟨rfl, rfl, rfl⟩ := i1
        have hb : b < b + 1 + (flat d).length := by omega
        refine ⟨ms, _, out, ⟨rfl, rfl, rfl⟩, i2, i3, ?_, ?_⟩
        · rw [indexed, List.dropWhile_cons]
          simp only [hb, decide_true, if_true]
          exact i4
        · rw [indexed, List.takeWhile_cons]
          simp only [hb, decide_true, if_true, List.map_cons]
          rw [replaced]
          have : out ++ t :: replaced tokv d = out ++ [t] ++ replaced tokv d := by simp
          rw [this]
          refine Eq.trans ?_ i5
          simp
          rfl
    | hit w v =>
      simp only [Seg.text] at h hidx hlen ⊢
      rw [matchesOf, List.cons_append] at h
      have hfl : flat (Seg.hit w v :: d ++ p) = w ++ flat (d ++ p) := by
        rw [List.cons_append, flat_cons]; rfl
      have ha : Asc ((b, tM (b + w.length) w v) ::
          (matchesOf (ν := ν) tM (b + w.length) d ++
            matchesOf tM (b + w.length + (flat d).length) p)) := by
        unfold Asc
        rw [List.pairwise_cons]
        exact ⟨fun q hq => lt_of_lt_of_le (by simp only; omega) (hbd _ q hq), hasc _⟩
      have hmin := DEq.min h ha
      have hmem : b ∈ Dict.keys ms := by rw [h.keys]; simp
      have hget : Dict.get? ms b = some (b + w.length, v) := by
        rw [h b, Dict.get?_cons]; simp
      have hpos' : 0 < ms.length := by
        cases ms with
        | nil => simp at hmem
        | cons a l => simp
      obtain ⟨fuel, rfl⟩ : ∃ k, fuel = k + 1 := ⟨fuel - 1, by omega⟩
      have hmk : minKeyD ms index = b := by unfold minKeyD; rw [hmin]; rfl
      have hlt : b < b + w.length + (flat d).length := by omega
      rw [emitReplacements]
      simp only [hmk, hlt, if_true, hget, hfl]
      rw [emitMatch_hit]
      obtain ⟨ms', buffer', out', i1, i2, i3, i4, i5⟩ := ih (b + w.length) hf' fuel
        (Dict.erase ms b) (out ++ tokv v) (Dict.nodup_keys_erase hnd b) (h.erase ha)
        hidx (by have := length_erase_lt hmem; omega)
      exact ⟨ms', buffer', out', i1, i2, i3, i4, i5.trans (by simp [replaced])⟩

omit [DecidableEq τ] in
/-- The final loop over the remaining matches. -/
theorem emitMatch_foldl (tokv : ν → List τ) (p : List (Seg τ ν)) (b : Nat) (hf : Full p)
    (out : List τ) :
    let r := (matchesOf tM b p).foldl (fun r q => emitMatch tokv q.1 q.2.1 q.2.2 r.1 r.2)
      (indexed b (flat p), out)
    r.2 ++ r.1.map Prod.snd = out ++ replaced tokv p := by
  induction p generalizing b out with
  | nil => simp [matchesOf, replaced, indexed]
  | cons g p ih =>
    have hf' : Full p := fun g hg => hf g (by simp [hg])
    cases g with
    | tok t =>
      have ih' := ih (b + 1) hf' (out ++ [t])
      simp only [matchesOf, replaced] at ih' ⊢
      have hfl : flat (Seg.tok t :: p) = t :: flat p := by rw [flat_cons]; rfl
      rw [hfl]
      have : out ++ t :: replaced tokv p = out ++ [t] ++ replaced tokv p := by simp
      rw [this, ← ih']
      cases hm : matchesOf (ν := ν) tM (b + 1) p with
      | nil => simp [indexed]
      | cons q l =>
        obtain ⟨s, e, v⟩ := q
        have hb := (matchesOf_bound (ν := ν) tM (b + 1) p hf' (s, e, v) (by rw [hm]; simp)).1
        simp only [List.foldl_cons]
        rw [emitMatch_tok tokv b s e v t (flat p) out hb]
    | hit w v =>
      have ih' := ih (b + w.length) hf' (out ++ tokv v)
      simp only [matchesOf, replaced] at ih' ⊢
      have hfl : flat (Seg.hit w v :: p) = w ++ flat p := by rw [flat_cons]; rfl
      rw [hfl, List.foldl_cons, emitMatch_hit, ih']
      simp

theorem transToken_ok {root : Node τ ν} (tokv : ν → List τ) {text : List τ} {st : TransState τ ν}
    {d p : List (Seg τ ν)} (x : τ) (h : ScanInv root tS tM text st.spans st.matches_ d p)
    (hi : st.index = text.length) (hb : st.buffer = indexed (flat d).length (flat p))
    (ho : st.out = replaced tokv d) :
    ∃ st' d' p', transToken tokv root st x = .ok st' ∧
      ScanInv root tS tM (text ++ [x]) st'.spans st'.matches_ d' p' ∧
      st'.index = (text ++ [x]).length ∧ st'.buffer = indexed (flat d').length (flat p') ∧
      st'.out = replaced tokv d' := by
  obtain ⟨d', p', e1, e2, e3, e4, e5, e6⟩ := scan_step (root := root) (mkS := tS) (mkM := tM)
    (head := id) (next := fun _ n => n)
    (record := fun _ (v : ν) => (text.length + 1, v)) (x := x)
    (fun _ _ => rfl) (fun _ _ _ => rfl) (fun _ _ _ => rfl) h
  have hlen : text.length = (flat d).length + (flat p).length := by
    rw [← ll_flat h.cut, flat_append, List.length_append]
  have hflat : flat (d' ++ p') = flat p ++ [x] := by rw [← e1, flat_extendSegs]
  have hbuf : st.buffer ++ [(text.length, x)] = indexed (flat d).length (flat (d' ++ p')) := by
    rw [hflat, indexed_append, hb, hlen]; rfl
  have hle : (flat d).length + (flat d').length ≤ text.length := by
    rw [← e2]
    -- the first span is at most the current index
    unfold minKeyD
    cases hm : (Dict.keys (scanToken id (fun _ n => n) (fun _ (v : ν) => (text.length + 1, v)) true
        (tS root []) text.length x st.spans st.matches_).1).min? with
    | none => simp
    | some s =>
      simp only [Option.getD_some]
      have hs := (List.min?_eq_some_iff.mp hm).1
      obtain ⟨q, hq, rfl⟩ := List.mem_map.mp hs
      have hinv := e6 (matchesOf tM ((flat d).length + (flat d').length) p') (by
        exact (asc_matchesOf tM _ _ (fun g hg => e5 g (by simp [hg]))).nodup) (fun _ => rfl)
      rw [hinv.spans] at hq
      have := (spansOf_bound root tS _ p' (fun g hg => e5 g (by simp [hg])) q hq).2
      rw [← List.length_append, ← flat_append, List.append_assoc, flat_append, hflat,
        List.length_append, List.length_append, List.length_singleton] at this
      omega
  have hrep : ∀ a b : List (Seg τ ν), replaced tokv (a ++ b) = replaced tokv a ++ replaced tokv b := by
    intro a b
    induction a with
    | nil => rfl
    | cons g a ih => cases g <;> simp [replaced, ih]
  obtain ⟨ms', buffer', out', i1, i2, i3, i4, i5⟩ := emitReplacements_split tokv text.length d' p'
    (flat d).length e5 _ _ st.out e3 e4 hle (le_refl _)
  refine ⟨⟨text.length + 1,
      buffer'.dropWhile (fun q => decide (q.1 < (flat d).length + (flat d').length)),
      _, ms', out' ++ (buffer'.takeWhile
        (fun q => decide (q.1 < (flat d).length + (flat d').length))).map Prod.snd⟩,
    d ++ d', p', ?_, e6 ms' i2 i3, ?_, ?_, ?_⟩
  · unfold transToken
    rw [hi]
    simp only
    rw [e2, hbuf, i1]
  · simp
  · simp only
    rw [i4, flat_append, List.length_append]
  · simp only
    rw [i5, ho, hrep]

theorem transLoop_ok {root : Node τ ν} (tokv : ν → List τ) (ts text : List τ) {st : TransState τ ν}
    {d p : List (Seg τ ν)} (h : ScanInv root tS tM text st.spans st.matches_ d p)
    (hi : st.index = text.length) (hb : st.buffer = indexed (flat d).length (flat p))
    (ho : st.out = replaced tokv d) :
    ∃ st' d' p', transLoop tokv root ts st = .ok st' ∧
      ScanInv root tS tM (text ++ ts) st'.spans st'.matches_ d' p' ∧
      st'.buffer = indexed (flat d').length (flat p') ∧ st'.out = replaced tokv d' := by
  induction ts generalizing text st d p with
  | nil => exact ⟨st, d, p, rfl, by simpa using h, hb, ho⟩
  | cons t ts ih =>
    obtain ⟨st1, d1, p1, a1, a2, a3, a4, a5⟩ := transToken_ok tokv t h hi hb ho
    obtain ⟨st', d', p', b1, b2, b3⟩ := ih (text ++ [t]) a2 a3 a4 a5
    refine ⟨st', d', p', ?_, by simpa using b2, b3⟩
    rw [transLoop, a1]
    exact b1

theorem translateTokens_ok (tokv : ν → List τ) (root : Node τ ν) (ts : List τ) :
    ∃ gs, LeftmostLongest root.get ts gs ∧
      translateTokens tokv root ts = .ok (replaced tokv gs) := by
  obtain ⟨st, d, p, h1, h2, h3, h4⟩ := transLoop_ok (root := root) tokv ts []
    (st := ⟨0, [], [], [], []⟩) (d := []) (p := []) scanInv_nil rfl rfl rfl
  have hf : Full p := fun g hg => ll_full h2.cut g (by simp [hg])
  have hrep : ∀ a b : List (Seg τ ν), replaced tokv (a ++ b) = replaced tokv a ++ replaced tokv b := by
    intro a b
    induction a with
    | nil => rfl
    | cons g a ih => cases g <;> simp [replaced, ih]
  refine ⟨d ++ p, by simpa using h2.cut, ?_⟩
  unfold translateTokens
  rw [h1]
  simp only
  rw [sortedItems_eq h2.matches_ h2.nodup (asc_matchesOf tM _ p hf), h3, h4, hrep]
  congr 1
  exact emitMatch_foldl tokv p _ hf _

end Trie
end Verif
