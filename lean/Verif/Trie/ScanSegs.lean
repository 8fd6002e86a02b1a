import Verif.Trie.ScanLemmas

/-!
# The leftmost-longest cutting, grown token by token

Helper lemmas only; the property theorems are in `Verif.Trie.ScanProps`.
-/

namespace Verif
namespace Trie

open TrieSpec

variable {κ τ ν σ μ : Type}

/-- The text of a list of pieces. -/
def flat (gs : List (Seg τ ν)) : List τ := gs.flatMap Seg.text

@[simp] theorem flat_nil : flat ([] : List (Seg τ ν)) = [] := rfl
theorem flat_cons (g : Seg τ ν) (gs : List (Seg τ ν)) : flat (g :: gs) = g.text ++ flat gs := by
  simp [flat]
@[simp] theorem flat_append (gs gs' : List (Seg τ ν)) : flat (gs ++ gs') = flat gs ++ flat gs' := by
  simp [flat]

/-- The cutting of a text extended by one token. -/
def extendSegs (m : Map τ ν) (x : τ) : List (Seg τ ν) → List (Seg τ ν)
  | [] =>
    match m [x] with
    | some v => [.hit [x] v]
    | none => [.tok x]
  | g :: gs =>
    match m (flat (g :: gs) ++ [x]) with
    | some v => [.hit (flat (g :: gs) ++ [x]) v]
    | none => g :: extendSegs m x gs

theorem flat_extendSegs (m : Map τ ν) (x : τ) (gs : List (Seg τ ν)) :
    flat (extendSegs m x gs) = flat gs ++ [x] := by
  induction gs with
  | nil =>
    rw [extendSegs]
    cases m [x] <;> simp [flat_cons, Seg.text]
  | cons g gs ih =>
    rw [extendSegs]
    cases m (flat (g :: gs) ++ [x]) with
    | none => simp [flat_cons, ih]
    | some v => simp [flat_cons, Seg.text]

theorem ll_flat {m : Map τ ν} {ts : List τ} {gs : List (Seg τ ν)}
    (h : LeftmostLongest m ts gs) : flat gs = ts := by
  induction h with
  | nil => rfl
  | hit _ _ _ _ ih => simp [flat_cons, Seg.text, ih]
  | tok _ _ ih => simp [flat_cons, Seg.text, ih]

theorem prefix_concat {w ts : List τ} {x : τ} (h : w <+: ts ++ [x]) : w <+: ts ∨ w = ts ++ [x] := by
  obtain ⟨r, hr⟩ := h
  rcases List.eq_nil_or_concat r with rfl | ⟨r', y, rfl⟩
  · right; simpa using hr
  · left
    refine ⟨r', ?_⟩
    rw [List.concat_eq_append, ← List.append_assoc] at hr
    exact (List.append_inj' hr rfl).1

theorem ll_extend {m : Map τ ν} {ts : List τ} {gs : List (Seg τ ν)}
    (h : LeftmostLongest m ts gs) (x : τ) : LeftmostLongest m (ts ++ [x]) (extendSegs m x gs) := by
  have hlen : ∀ (u : List τ) (v : ν), m (u ++ [x]) = some v →
      LeftmostLongest m (u ++ [x]) [.hit (u ++ [x]) v] := by
    intro u v hv
    have := LeftmostLongest.hit (m := m) (w := u ++ [x]) (rest := []) (v := v) (segs := [])
      (by simp) hv (fun w' hw' _ => by simpa using hw'.length_le) LeftmostLongest.nil
    simpa using this
  induction h with
  | nil =>
    rw [extendSegs]
    cases hm : m [x] with
    | some v => exact hlen [] v hm
    | none =>
      refine LeftmostLongest.tok ?_ LeftmostLongest.nil
      intro w hw hne
      rcases prefix_concat (ts := []) hw with h | h
      · simp at h; exact absurd h hne
      · rw [h]; exact hm
  | @hit w rest v gs hne hv hmax hrest ih =>
    rw [extendSegs]
    have hf : flat (Seg.hit w v :: gs) = w ++ rest := by
      rw [flat_cons, Seg.text, ll_flat hrest]
    rw [hf]
    cases hm : m (w ++ rest ++ [x]) with
    | some v' => exact hlen _ v' hm
    | none =>
      simp only
      rw [List.append_assoc]
      refine LeftmostLongest.hit hne hv ?_ ih
      intro w' hw' hk
      rw [← List.append_assoc] at hw'
      rcases prefix_concat hw' with h | h
      · exact hmax w' h hk
      · rw [h, hm] at hk; exact absurd rfl hk
  | @tok t rest gs hno hrest ih =>
    rw [extendSegs]
    have hf : flat (Seg.tok t :: gs : List (Seg τ ν)) = t :: rest := by
      rw [flat_cons, Seg.text, ll_flat hrest]; rfl
    rw [hf]
    cases hm : m (t :: rest ++ [x]) with
    | some v' => exact hlen _ v' hm
    | none =>
      simp only
      refine LeftmostLongest.tok ?_ ih
      intro w' hw' hne
      rcases prefix_concat (ts := t :: rest) hw' with h | h
      · exact hno w' h hne
      · rw [h, hm]

/-- No piece is empty. -/
def Full (gs : List (Seg τ ν)) : Prop := ∀ g ∈ gs, g.text ≠ []

theorem ll_full {m : Map τ ν} {ts : List τ} {gs : List (Seg τ ν)}
    (h : LeftmostLongest m ts gs) : Full gs := by
  induction h with
  | nil => intro g hg; simp at hg
  | hit hne _ _ _ ih =>
    intro g hg
    rcases List.mem_cons.mp hg with rfl | hg
    · exact hne
    · exact ih g hg
  | tok _ _ ih =>
    intro g hg
    rcases List.mem_cons.mp hg with rfl | hg
    · simp [Seg.text]
    · exact ih g hg

theorem Full.extend {m : Map τ ν} {x : τ} {gs : List (Seg τ ν)} (h : Full gs) :
    Full (extendSegs m x gs) := by
  induction gs with
  | nil =>
    rw [extendSegs]
    cases m [x] <;> (intro g hg; simp at hg; subst hg; simp [Seg.text])
  | cons g gs ih =>
    rw [extendSegs]
    cases m (flat (g :: gs) ++ [x]) with
    | some v => intro g hg; simp at hg; subst hg; simp [flat_cons, Seg.text]
    | none =>
      intro g' hg'
      rcases List.mem_cons.mp hg' with rfl | hg'
      · exact h _ (by simp)
      · exact ih (fun g hg => h g (by simp [hg])) g' hg'

/-! ### Spans and matches of a cutting -/

section
variable [DecidableEq τ] (root : Node τ ν) (mkS : Node τ ν → List τ → σ)
  (mkM : Nat → List τ → ν → μ)

/-- Live spans of a cutting that starts at position `b`. -/
def spansOf : Nat → List (Seg τ ν) → List (Nat × σ)
  | _, [] => []
  | b, g :: gs =>
    (match root.walk (flat (g :: gs)) with
      | some n => [(b, mkS n (flat (g :: gs)))]
      | none => []) ++ spansOf (b + g.text.length) gs

omit [DecidableEq τ] in
/-- Matches of a cutting that starts at position `b`. -/
def matchesOf : Nat → List (Seg τ ν) → List (Nat × μ)
  | _, [] => []
  | b, .tok _ :: gs => matchesOf (b + 1) gs
  | b, .hit w v :: gs => (b, mkM (b + w.length) w v) :: matchesOf (b + w.length) gs

theorem spansOf_bound (b : Nat) (gs : List (Seg τ ν)) (hf : Full gs) :
    ∀ p ∈ spansOf root mkS b gs, b ≤ p.1 ∧ p.1 < b + (flat gs).length := by
  induction gs generalizing b with
  | nil => simp [spansOf]
  | cons g gs ih =>
    intro p hp
    have hg : 0 < g.text.length := List.length_pos_of_ne_nil (hf g (by simp))
    rw [spansOf, List.mem_append] at hp
    rw [flat_cons, List.length_append]
    rcases hp with hp | hp
    · cases hw : root.walk (flat (g :: gs)) with
      | none => simp [hw] at hp
      | some n => simp only [hw, List.mem_singleton] at hp; subst hp; simp only; omega
    · have := ih (b + g.text.length) (fun g hg => hf g (by simp [hg])) p hp
      omega

theorem asc_spansOf (b : Nat) (gs : List (Seg τ ν)) (hf : Full gs) :
    Asc (spansOf root mkS b gs) := by
  induction gs generalizing b with
  | nil => simp [spansOf, Asc]
  | cons g gs ih =>
    have hg : 0 < g.text.length := List.length_pos_of_ne_nil (hf g (by simp))
    have hf' : Full gs := fun g hg => hf g (by simp [hg])
    rw [spansOf]
    unfold Asc
    rw [List.pairwise_append]
    refine ⟨by cases root.walk (flat (g :: gs)) <;> simp, ih _ hf', ?_⟩
    intro p hp q hq
    have h2 := spansOf_bound root mkS _ gs hf' q hq
    cases hw : root.walk (flat (g :: gs)) with
    | none => simp [hw] at hp
    | some n => simp only [hw, List.mem_singleton] at hp; subst hp; simp only; omega

omit [DecidableEq τ] in
theorem matchesOf_bound (b : Nat) (gs : List (Seg τ ν)) (hf : Full gs) :
    ∀ p ∈ matchesOf mkM b gs, b ≤ p.1 ∧ p.1 < b + (flat gs).length := by
  induction gs generalizing b with
  | nil => simp [matchesOf]
  | cons g gs ih =>
    intro p hp
    have hg : 0 < g.text.length := List.length_pos_of_ne_nil (hf g (by simp))
    have hf' : Full gs := fun g hg => hf g (by simp [hg])
    rw [flat_cons, List.length_append]
    cases g with
    | tok t =>
      rw [matchesOf] at hp
      have := ih _ hf' p hp
      simp only [Seg.text, List.length_singleton] at *
      omega
    | hit w v =>
      rw [matchesOf, List.mem_cons] at hp
      simp only [Seg.text] at *
      rcases hp with rfl | hp
      · simp only; omega
      · have := ih _ hf' p hp
        omega

omit [DecidableEq τ] in
theorem asc_matchesOf (b : Nat) (gs : List (Seg τ ν)) (hf : Full gs) :
    Asc (matchesOf mkM b gs) := by
  induction gs generalizing b with
  | nil => simp [matchesOf, Asc]
  | cons g gs ih =>
    have hg : 0 < g.text.length := List.length_pos_of_ne_nil (hf g (by simp))
    have hf' : Full gs := fun g hg => hf g (by simp [hg])
    cases g with
    | tok t => rw [matchesOf]; exact ih _ hf'
    | hit w v =>
      rw [matchesOf]
      unfold Asc
      rw [List.pairwise_cons]
      refine ⟨?_, ih _ hf'⟩
      intro q hq
      have := matchesOf_bound mkM _ gs hf' q hq
      simp only [Seg.text] at *
      omega

omit [DecidableEq τ] in
theorem matchesOf_append (b : Nat) (gs gs' : List (Seg τ ν)) :
    matchesOf mkM b (gs ++ gs') = matchesOf mkM b gs ++ matchesOf mkM (b + (flat gs).length) gs' := by
  induction gs generalizing b with
  | nil => simp [matchesOf]
  | cons g gs ih =>
    cases g with
    | tok t =>
      have : (flat (Seg.tok t :: gs : List (Seg τ ν))).length = 1 + (flat gs).length := by
        rw [flat_cons, List.length_append]; rfl
      rw [this, List.cons_append, matchesOf, matchesOf, ih, Nat.add_assoc]
    | hit w v =>
      simp only [List.cons_append, matchesOf, ih, flat_cons, Seg.text, List.length_append,
        Nat.add_assoc]

variable {root mkS mkM}
variable {head : σ → Node τ ν} {next : σ → Node τ ν → σ} {record : σ → ν → μ} {index : Nat} {x : τ}

theorem stepSpans_spansOf (hh : ∀ n w, head (mkS n w) = n)
    (hn : ∀ n w n', next (mkS n w) n' = mkS n' (w ++ [x])) (b : Nat) (gs : List (Seg τ ν)) :
    stepSpans head next x (spansOf root mkS b gs ++ [(b + (flat gs).length, mkS root [])]) =
      spansOf root mkS b (extendSegs root.get x gs) := by
  induction gs generalizing b with
  | nil =>
    simp only [spansOf, List.nil_append, stepSpans, hh, hn, extendSegs, flat_nil, List.length_nil,
      Nat.add_zero]
    have hw : root.walk [x] = Dict.get? root.kids x := by
      rw [Node.walk_cons]; cases Dict.get? root.kids x <;> simp
    have hg : root.get [x] = (Dict.get? root.kids x).bind Node.val := by
      rw [Node.get, hw]
    rw [hg]
    cases hc : Dict.get? root.kids x with
    | none => simp [spansOf, flat_cons, Seg.text, hw, hc]
    | some n => cases hv : n.val <;> simp [spansOf, flat_cons, Seg.text, hw, hc, hv]
  | cons g gs ih =>
    have hpos : b + (flat (g :: gs)).length = b + g.text.length + (flat gs).length := by
      simp [flat_cons, Nat.add_assoc]
    have ih' := ih (b + g.text.length)
    rw [hpos, spansOf, extendSegs]
    have hwx : root.walk (flat (g :: gs) ++ [x]) =
        (root.walk (flat (g :: gs))).bind (fun n => Dict.get? n.kids x) := by
      rw [Node.walk_append]
      congr 1
      funext n
      rw [Node.walk_cons]
      cases Dict.get? n.kids x <;> simp
    have hgx : root.get (flat (g :: gs) ++ [x]) =
        (root.walk (flat (g :: gs) ++ [x])).bind Node.val := rfl
    have hflat : flat (g :: extendSegs root.get x gs) = flat (g :: gs) ++ [x] := by
      rw [flat_cons, flat_extendSegs, flat_cons, List.append_assoc]
    rw [hgx, hwx]
    cases hw : root.walk (flat (g :: gs)) with
    | none =>
      simp only [Option.bind_none, List.nil_append]
      rw [ih', spansOf, hflat, hwx, hw]
      simp
    | some n =>
      simp only [Option.bind_some, List.cons_append, stepSpans, hh, hn]
      cases hc : Dict.get? n.kids x with
      | none =>
        simp only [Option.bind_none]
        rw [List.nil_append, ih', spansOf, hflat, hwx, hw]
        simp [hc]
      | some n' =>
        cases hv : n'.val with
        | none =>
          simp only [Option.bind_some, hv, Option.isSome_none, Bool.false_eq_true, if_false]
          rw [List.nil_append, ih', spansOf, hflat, hwx, hw]
          simp [hc]
        | some v =>
          simp only [Option.bind_some, hv, Option.isSome_some, if_true]
          have hflat2 : flat [Seg.hit (flat (g :: gs) ++ [x]) v] = flat (g :: gs) ++ [x] := by
            simp [flat_cons, Seg.text]
          rw [spansOf, hflat2, hwx, hw]
          simp [hc, spansOf]

theorem firstHit_matchesOf (hh : ∀ n w, head (mkS n w) = n)
    (hn : ∀ n w n', next (mkS n w) n' = mkS n' (w ++ [x])) (b : Nat) (gs : List (Seg τ ν))
    (hf : Full gs) (hr : ∀ n w v, record (mkS n w) v = mkM (b + (flat gs).length + 1) w v) (s : Nat) :
    Dict.get? (matchesOf mkM b (extendSegs root.get x gs)) s =
      match firstHit head next record x
        (spansOf root mkS b gs ++ [(b + (flat gs).length, mkS root [])]) with
      | none => Dict.get? (matchesOf mkM b gs) s
      | some (s0, r) =>
        if s < s0 then Dict.get? (matchesOf mkM b gs) s else if s = s0 then some r else none := by
  induction gs generalizing b with
  | nil =>
    simp only [spansOf, List.nil_append, firstHit, hh, hn, extendSegs, flat_nil, List.length_nil,
      Nat.add_zero, matchesOf]
    have hw : root.walk [x] = Dict.get? root.kids x := by
      rw [Node.walk_cons]; cases Dict.get? root.kids x <;> simp
    have hg : root.get [x] = (Dict.get? root.kids x).bind Node.val := by
      rw [Node.get, hw]
    rw [hg]
    cases hc : Dict.get? root.kids x with
    | none => simp [matchesOf]
    | some n =>
      cases hv : n.val with
      | none => simp [matchesOf, hv]
      | some v =>
        simp only [Option.bind_some, hv, matchesOf, Dict.get?_cons, Dict.get?_nil, hr, flat_nil,
          List.length_nil, List.length_singleton, Nat.add_zero]
        by_cases h : b = s
        · simp [h]
        · have : ¬ s = b := fun e => h e.symm
          simp [h, this]
  | cons g gs ih =>
    have hlen : 0 < g.text.length := List.length_pos_of_ne_nil (hf g (by simp))
    have hf' : Full gs := fun g hg => hf g (by simp [hg])
    have hpos : b + (flat (g :: gs)).length = b + g.text.length + (flat gs).length := by
      simp [flat_cons, Nat.add_assoc]
    rw [hpos] at hr
    have ih' := ih (b + g.text.length) hf' hr
    have hwx : root.walk (flat (g :: gs) ++ [x]) =
        (root.walk (flat (g :: gs))).bind (fun n => Dict.get? n.kids x) := by
      rw [Node.walk_append]
      congr 1
      funext n
      rw [Node.walk_cons]
      cases Dict.get? n.kids x <;> simp
    have hgx : root.get (flat (g :: gs) ++ [x]) =
        (root.walk (flat (g :: gs) ++ [x])).bind Node.val := rfl
    -- adding one more piece in front
    have hcons : ∀ (r : Option (Nat × μ)) (gs' : List (Seg τ ν)),
        (∀ s0 y, r = some (s0, y) → b + g.text.length ≤ s0) →
        (Dict.get? (matchesOf mkM (b + g.text.length) gs') s = match r with
          | none => Dict.get? (matchesOf mkM (b + g.text.length) gs) s
          | some (s0, y) => if s < s0 then Dict.get? (matchesOf mkM (b + g.text.length) gs) s
            else if s = s0 then some y else none) →
        (Dict.get? (matchesOf mkM b (g :: gs')) s = match r with
          | none => Dict.get? (matchesOf mkM b (g :: gs)) s
          | some (s0, y) => if s < s0 then Dict.get? (matchesOf mkM b (g :: gs)) s
            else if s = s0 then some y else none) := by
      intro r gs' hs h
      cases g with
      | tok t =>
        simp only [matchesOf]
        exact h
      | hit w v =>
        simp only [matchesOf, Dict.get?_cons]
        by_cases hbs : b = s
        · subst hbs
          cases r with
          | none => simp
          | some r =>
            obtain ⟨s0, y⟩ := r
            have := hs s0 y rfl
            have hlt : b < s0 := by omega
            simp [hlt]
        · simp only [hbs, if_false]
          exact h
    have hpos0 : ∀ s0 y, firstHit head next record x
        (spansOf root mkS (b + g.text.length) gs ++
          [(b + g.text.length + (flat gs).length, mkS root [])]) = some (s0, y) →
        b + g.text.length ≤ s0 := by
      have : ∀ (l : List (Nat × σ)), (∀ p ∈ l, b + g.text.length ≤ p.1) → ∀ s0 y,
          firstHit head next record x l = some (s0, y) → b + g.text.length ≤ s0 := by
        intro l
        induction l with
        | nil => intro _ s0 y h; simp [firstHit] at h
        | cons p l ihl =>
          intro hl s0 y h
          rw [firstHit] at h
          have hl' := fun q hq => hl q (List.mem_cons_of_mem p hq)
          cases hc : Dict.get? (head p.2).kids x with
          | none => simp only [hc] at h; exact ihl hl' s0 y h
          | some n =>
            simp only [hc] at h
            cases hv : n.val with
            | none => simp only [hv] at h; exact ihl hl' s0 y h
            | some v =>
              simp only [hv, Option.some.injEq, Prod.mk.injEq] at h
              rw [← h.1]
              exact hl p (by simp)
      apply this
      intro p hp
      rcases List.mem_append.mp hp with hp | hp
      · exact (spansOf_bound root mkS _ gs hf' p hp).1
      · simp at hp; subst hp; simp
    have key := hcons _ _ hpos0 ih'
    rw [hpos, spansOf, extendSegs, hgx, hwx]
    cases hw : root.walk (flat (g :: gs)) with
    | none =>
      simp only [Option.bind_none, List.nil_append]
      exact key
    | some n =>
      simp only [Option.bind_some, List.cons_append, firstHit, hh, hn]
      cases hc : Dict.get? n.kids x with
      | none => simp only [Option.bind_none, List.nil_append]; exact key
      | some n' =>
        cases hv : n'.val with
        | none => simp only [Option.bind_some, hv, List.nil_append]; exact key
        | some v =>
          simp only [Option.bind_some, hv, hr, matchesOf, Dict.get?_cons, Dict.get?_nil]
          by_cases hbs : b = s
          · subst hbs
            have e : b + (flat (g :: gs) ++ [x]).length = b + g.text.length + (flat gs).length + 1 := by
              rw [List.length_append, flat_cons, List.length_append, List.length_singleton]; omega
            rw [e]; simp
          · simp only [hbs, if_false]
            have h1 : ¬ s = b := fun e => hbs e.symm
            simp only [h1, if_false]
            split
            · rename_i hlt
              symm
              rw [Dict.get?_eq_none]
              intro hm
              obtain ⟨q, hq, rfl⟩ := List.mem_map.mp hm
              have := matchesOf_bound mkM b (g :: gs) hf q hq
              omega
            · rfl

/-- Where the first live span cuts a cutting. -/
theorem split_firstSpan (b : Nat) (gs : List (Seg τ ν)) (hf : Full gs) :
    ∃ d p, extendSegs root.get x gs = d ++ p ∧ p ≠ [] ∧
      b + (flat d).length =
        minKeyD (spansOf root mkS b (extendSegs root.get x gs)) (b + (flat gs).length) ∧
      spansOf root mkS b (extendSegs root.get x gs) = spansOf root mkS (b + (flat d).length) p := by
  induction gs generalizing b with
  | nil =>
    have hmin : ∀ g : Seg τ ν, minKeyD (spansOf root mkS b [g]) b = b := by
      intro g
      simp only [spansOf]
      cases root.walk (flat [g]) <;> simp [minKeyD, Dict.keys]
    have hne : extendSegs root.get x ([] : List (Seg τ ν)) ≠ [] := by
      rw [extendSegs]; cases root.get [x] <;> simp
    refine ⟨[], extendSegs root.get x [], rfl, hne, ?_, by simp⟩
    rw [extendSegs]
    cases root.get [x] <;> simp [hmin]
  | cons g gs ih =>
    have hlen : 0 < g.text.length := List.length_pos_of_ne_nil (hf g (by simp))
    have hf' : Full gs := fun g hg => hf g (by simp [hg])
    rw [extendSegs]
    cases hm : root.get (flat (g :: gs) ++ [x]) with
    | some v =>
      refine ⟨[], _, rfl, by simp, ?_, by simp⟩
      have : flat [Seg.hit (flat (g :: gs) ++ [x]) v] = flat (g :: gs) ++ [x] := by
        simp [flat_cons, Seg.text]
      simp only [spansOf, this]
      have hsome : ∃ n, root.walk (flat (g :: gs) ++ [x]) = some n := by
        cases hw : root.walk (flat (g :: gs) ++ [x]) with
        | none => simp [Node.get, hw] at hm
        | some n => exact ⟨n, rfl⟩
      obtain ⟨n, hn⟩ := hsome
      simp [hn, minKeyD, Dict.keys]
    | none =>
      simp only
      cases hw : root.walk (flat (g :: extendSegs root.get x gs)) with
      | some n =>
        refine ⟨[], _, rfl, by simp, ?_, by simp⟩
        have hasc := asc_spansOf root mkS b (g :: extendSegs root.get x gs) (by
          intro g' hg'
          rcases List.mem_cons.mp hg' with rfl | hg'
          · exact hf _ (by simp)
          · exact hf'.extend g' hg')
        simp only [spansOf, hw, List.singleton_append] at hasc ⊢
        unfold minKeyD
        rw [DEq.min (fun _ => rfl) hasc]
        simp
      | none =>
        obtain ⟨d, p, h1, h2, h3, h4⟩ := ih (b + g.text.length) hf'
        refine ⟨g :: d, p, by rw [h1]; rfl, h2, ?_, ?_⟩
        · simp only [spansOf, hw, List.nil_append]
          rw [flat_cons, flat_cons, List.length_append, List.length_append, ← Nat.add_assoc, ← Nat.add_assoc, h3]
        · simp only [spansOf, hw, List.nil_append]
          rw [flat_cons, List.length_append, h4, Nat.add_assoc]

/-- A finished part is not touched by further tokens. -/
theorem extendSegs_append (d p : List (Seg τ ν)) (b : Nat)
    (h : spansOf root mkS b (d ++ p) = spansOf root mkS (b + (flat d).length) p) (hf : Full (d ++ p)) :
    extendSegs root.get x (d ++ p) = d ++ extendSegs root.get x p := by
  induction d generalizing b with
  | nil => rfl
  | cons g d ih =>
    have hlen : 0 < g.text.length := List.length_pos_of_ne_nil (hf g (by simp))
    have hf' : Full (d ++ p) := fun g hg => hf g (by
      rw [List.cons_append]; exact List.mem_cons_of_mem _ hg)
    have hfp : Full p := fun g hg => hf' g (by simp [hg])
    rw [List.cons_append] at h ⊢
    rw [spansOf] at h
    cases hw : root.walk (flat (g :: (d ++ p))) with
    | some n =>
      rw [hw] at h
      have hmem : (b, mkS n (flat (g :: (d ++ p)))) ∈
          spansOf root mkS (b + (flat (g :: d)).length) p := by
        rw [← h]; simp
      have := (spansOf_bound root mkS _ p hfp _ hmem).1
      rw [flat_cons, List.length_append] at this
      simp only at this
      omega
    | none =>
      simp only [hw, List.nil_append] at h
      have hk : root.get (flat (g :: (d ++ p)) ++ [x]) = none := by
        rw [Node.get, Node.walk_append, hw]; simp
      rw [extendSegs, hk]
      simp only [List.cons_append, List.cons.injEq, true_and]
      refine ih (b + g.text.length) ?_ hf'
      rw [h, flat_cons, List.length_append, Nat.add_assoc]

end

end Trie
end Verif
