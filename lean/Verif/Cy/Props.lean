import Verif.Cy.Dp

/-!
# Properties of the Cython version of `emd_1d_dp` (C113–C116)
-/

namespace Verif
namespace Cy

open Fp

variable {R : Rounding}

/-- A sequence of numbers. -/
def Numbers (p : PySeq) : Prop := ∃ qs : List ℚ, p = some (qs.map some)

/-- Every allocation of a call with arguments of lengths `n` and `m` succeeds, when `c` calls of
`malloc` came before. -/
def AllocsOk (env : Env) (c n m : ℕ) : Prop :=
  env.mallocOk c n = true ∧ env.listOk false = true ∧ env.mallocOk (c + 1) m = true ∧
  env.listOk true = true ∧ env.mallocOk (c + 2) (max n m + 1) = true ∧
  env.mallocOk (c + 3) (max n m + 1) = true

theorem tryExcept_ok {body handler : M Unit} {h h' : Heap} (e : body.run h = (.ok (), h')) :
    (tryExcept body handler).run h = (.ok (), h') := by
  unfold tryExcept
  simp only [e]

theorem tryExcept_exc {body handler : M Unit} {h h' h'' : Heap} {x : CExc}
    (e : body.run h = (.error (.exc x), h')) (e' : handler.run h' = (.ok (), h'')) :
    (tryExcept body handler).run h = (.error (.exc x), h'') := by
  unfold tryExcept
  simp only [e, e']

/-- What a call does, in the order of the code. -/
theorem run_hp (env : Env) (px py : PySeq) (base : List (Option Block)) (c : ℕ) :
    (∃ xs ys ext c', px = some (List.map some xs) ∧ py = some (List.map some ys) ∧
      AllocsOk env c xs.length ys.length ∧ (∀ b ∈ ext, b = none) ∧
      (emdCython R env px py).run (hp base [] c) =
        (.ok (emdF R (xs.map R.fl) (ys.map R.fl)), hp base ext c')) ∨
    (∃ e ext c', (emdCython R env px py).run (hp base [] c) = (.error (.exc e), hp base ext c') ∧
      (∀ b ∈ ext, b = none) ∧
      ((e = .typeError ∧ (¬ Numbers px ∨ ∃ ys, py = some ys ∧ ¬ Numbers py)) ∨
       (e = .memoryError ∧ ∃ xs ys, px = some xs ∧ py = some ys ∧
          ¬ AllocsOk env c xs.length ys.length) ∨
       (e = .memoryError ∧ py = none ∧ ∃ xs, px = some xs ∧
          ¬ (env.mallocOk c xs.length = true ∧ env.listOk false = true)))) ∨
    (∃ xs b c', px = some (List.map some xs) ∧ py = none ∧
      (emdCython R env px py).run (hp base [] c) = (.error (.exc .typeError), hp base [some b] c') ∧
      b.length = xs.length ∧ env.mallocOk c xs.length = true ∧ env.listOk false = true) := by
  have hno : ∀ {l : List (Option ℚ)}, none ∈ l → ¬ Numbers (some l) := by
    rintro l hl ⟨qs, e⟩
    cases e
    simp at hl
  unfold emdCython
  cases px with
  | none =>
    refine .inr (.inl ⟨.typeError, [], c, bind_err rfl, by simp, .inl ⟨rfl, ?_⟩⟩)
    refine .inl ?_
    rintro ⟨qs, e⟩
    cases e
  | some xs =>
    rw [bind_ok (show (lenOf (some xs)).run _ = _ from rfl)]
    cases h1 : env.mallocOk c xs.length with
    | false =>
      rw [bind_ok (malloc_fail h1)]
      refine .inr (.inl ⟨.memoryError, [], c + 1, rfl, by simp, ?_⟩)
      cases py with
      | none => exact .inr (.inr ⟨rfl, rfl, xs, rfl, by simp [h1]⟩)
      | some ys => exact .inr (.inl ⟨rfl, xs, ys, rfl, rfl, fun ha => by
          have := ha.1
          rw [h1] at this; cases this⟩)
    | true =>
      rw [bind_ok (malloc_ok h1)]
      simp only [Option.isNone_some, Bool.false_eq_true, if_false, List.nil_append, List.length_nil]
      rcases convert_spec (R := R) (base := base) (c := c + 1) xs (env.listOk false) (k := 0)
        (l := [some (List.replicate xs.length none)]) rfl (by simp) with
        ⟨qs, hqs, hok, e⟩ | ⟨b', x, e, hx⟩
      · rw [bind_ok (tryExcept_ok e)]
        simp only [List.set_cons_zero]
        unfold second
        cases py with
        | none =>
          refine .inr (.inr ⟨qs, _, c + 1, by rw [hqs], rfl, bind_err rfl, ?_, ?_, hok⟩)
          · rw [List.length_map]
            exact (List.perm_insertionSort _ _).length_eq.trans (by simp)
          · rw [hqs, List.length_map] at h1; exact h1
        | some ys =>
          rw [bind_ok (show (lenOf (some ys)).run _ = _ from rfl)]
          have hsx : (pySorted (qs.map R.fl)).length = qs.length :=
            (List.perm_insertionSort _ _).length_eq.trans (by simp)
          cases h2 : env.mallocOk (c + 1) ys.length with
          | false =>
            rw [bind_ok (malloc_fail h2)]
            simp only [Option.isNone_none, if_true]
            refine .inr (.inl ⟨.memoryError, [none], c + 1 + 1, ?_, by simp, .inr (.inl
              ⟨rfl, xs, ys, rfl, rfl, fun ha => by
                have := ha.2.2.1
                rw [h2] at this; cases this⟩)⟩)
            rw [bind_ok (freeIf_ok (k := 0) rfl)]
            rfl
          | true =>
            rw [bind_ok (malloc_ok h2)]
            simp only [Option.isNone_some, Bool.false_eq_true, if_false, List.length_cons,
              List.length_nil, List.cons_append, List.nil_append, Nat.zero_add]
            rcases convert_spec (R := R) (base := base) (c := c + 1 + 1) ys (env.listOk true)
              (k := 1) (l := [some ((pySorted (qs.map R.fl)).map some),
                some (List.replicate ys.length none)]) rfl (by simp) with
              ⟨rs, hrs, hok2, e2⟩ | ⟨b2, x2, e2, hx2⟩
            · rw [bind_ok (tryExcept_ok e2)]
              simp only [List.set_cons_succ, List.set_cons_zero]
              have hsy : (pySorted (rs.map R.fl)).length = rs.length :=
                (List.perm_insertionSort _ _).length_eq.trans (by simp)
              have hxl : xs.length = qs.length := by rw [hqs, List.length_map]
              have hyl : ys.length = rs.length := by rw [hrs, List.length_map]
              by_cases hgt : xs.length > ys.length
              · rw [if_pos hgt]
                obtain ⟨ext, hext, he⟩ := dp_spec (R := R) (base := base) (c := c + 1 + 1)
                  (env := env) (swapped := true) (kx := 1) (ky := 0)
                  (l := [some ((pySorted (qs.map R.fl)).map some),
                    some ((pySorted (rs.map R.fl)).map some)]) rfl (.inr ⟨rfl, rfl⟩) rfl rfl
                rw [hsx, hsy, ← hxl, ← hyl] at he
                have hmax : max xs.length ys.length = xs.length := by omega
                by_cases ha : env.mallocOk (c + 1 + 1) (xs.length + 1) = true ∧
                    env.mallocOk (c + 1 + 1 + 1) (xs.length + 1) = true
                · rw [if_pos ha] at he
                  refine .inl ⟨qs, rs, ext, c + 1 + 1 + 2, by rw [hqs], by rw [hrs], ?_, hext, ?_⟩
                  · rw [← hxl, ← hyl]
                    exact ⟨h1, hok, h2, hok2, by rw [hmax]; exact ha.1, by rw [hmax]; exact ha.2⟩
                  · refine he.trans ?_
                    rw [emdF_eq_align, alignF_comm]
                · rw [if_neg ha] at he
                  refine .inr (.inl ⟨.memoryError, ext, _, he, hext, .inr (.inl
                    ⟨rfl, xs, ys, rfl, rfl, fun h => ha ?_⟩)⟩)
                  have h5 := h.2.2.2.2
                  rw [hmax] at h5
                  exact h5
              · rw [if_neg hgt]
                obtain ⟨ext, hext, he⟩ := dp_spec (R := R) (base := base) (c := c + 1 + 1)
                  (env := env) (swapped := false) (kx := 0) (ky := 1)
                  (l := [some ((pySorted (qs.map R.fl)).map some),
                    some ((pySorted (rs.map R.fl)).map some)]) rfl (.inl ⟨rfl, rfl⟩) rfl rfl
                rw [hsx, hsy, ← hxl, ← hyl] at he
                have hmax : max xs.length ys.length = ys.length := by omega
                by_cases ha : env.mallocOk (c + 1 + 1) (ys.length + 1) = true ∧
                    env.mallocOk (c + 1 + 1 + 1) (ys.length + 1) = true
                · rw [if_pos ha] at he
                  refine .inl ⟨qs, rs, ext, c + 1 + 1 + 2, by rw [hqs], by rw [hrs], ?_, hext, ?_⟩
                  · rw [← hxl, ← hyl]
                    exact ⟨h1, hok, h2, hok2, by rw [hmax]; exact ha.1, by rw [hmax]; exact ha.2⟩
                  · refine he.trans ?_
                    rw [emdF_eq_align]
                · rw [if_neg ha] at he
                  refine .inr (.inl ⟨.memoryError, ext, _, he, hext, .inr (.inl
                    ⟨rfl, xs, ys, rfl, rfl, fun h => ha ?_⟩)⟩)
                  have h5 := h.2.2.2.2
                  rw [hmax] at h5
                  exact h5
            · refine .inr (.inl ⟨x2, [none, none], c + 1 + 1, ?_, by simp, ?_⟩)
              · refine bind_err (tryExcept_exc e2 ?_)
                rw [bind_ok (freeIf_ok (k := 0) rfl), freeIf_ok (k := 1) rfl]
                rfl
              · rcases hx2 with ⟨rfl, hn⟩ | ⟨rfl, hf, _⟩
                · exact .inl ⟨rfl, Or.inr ⟨ys, rfl, hno hn⟩⟩
                · exact .inr (.inl ⟨rfl, xs, ys, rfl, rfl, fun ha => by
                    have := ha.2.2.2.1
                    rw [hf] at this; cases this⟩)
      · refine .inr (.inl ⟨x, [none], c + 1, ?_, by simp, ?_⟩)
        · refine bind_err (tryExcept_exc e ?_)
          rw [freeIf_ok (k := 0) rfl]
          rfl
        · rcases hx with ⟨rfl, hn⟩ | ⟨rfl, hf, _⟩
          · exact .inl ⟨rfl, Or.inl (hno hn)⟩
          · cases py with
            | none => exact .inr (.inr ⟨rfl, rfl, xs, rfl, by simp [hf]⟩)
            | some ys => exact .inr (.inl ⟨rfl, xs, ys, rfl, rfl, fun ha => by
                have := ha.2.1
                rw [hf] at this; cases this⟩)

/-- The same for any heap. -/
theorem run_spec (env : Env) (px py : PySeq) (h : Heap) :
    (∃ xs ys ext c, px = some (List.map some xs) ∧ py = some (List.map some ys) ∧
      AllocsOk env h.calls xs.length ys.length ∧ (∀ b ∈ ext, b = none) ∧
      (emdCython R env px py).run h =
        (.ok (emdF R (xs.map R.fl) (ys.map R.fl)), ⟨h.blocks ++ ext, c⟩)) ∨
    (∃ e ext c, (emdCython R env px py).run h = (.error (.exc e), ⟨h.blocks ++ ext, c⟩) ∧
      (∀ b ∈ ext, b = none) ∧
      ((e = .typeError ∧ (¬ Numbers px ∨ ∃ ys, py = some ys ∧ ¬ Numbers py)) ∨
       (e = .memoryError ∧ ∃ xs ys, px = some xs ∧ py = some ys ∧
          ¬ AllocsOk env h.calls xs.length ys.length) ∨
       (e = .memoryError ∧ py = none ∧ ∃ xs, px = some xs ∧
          ¬ (env.mallocOk h.calls xs.length = true ∧ env.listOk false = true)))) ∨
    (∃ xs b c, px = some (List.map some xs) ∧ py = none ∧
      (emdCython R env px py).run h = (.error (.exc .typeError), ⟨h.blocks ++ [some b], c⟩) ∧
      b.length = xs.length ∧ env.mallocOk h.calls xs.length = true ∧ env.listOk false = true) := by
  have hh : h = hp h.blocks [] h.calls := by simp [hp]
  have := run_hp (R := R) env px py h.blocks h.calls
  rw [← hh] at this
  exact this

/-! ## C113 -/

/-- Whatever the arguments, the state of the heap and the outcome of the allocations: no null pointer
is followed, no access is outside its block, nothing uninitialised is read, nothing is used after it
was freed or freed twice; and the blocks of the caller are not touched. -/
theorem C113_memory_safe (env : Env) (px py : PySeq) (h : Heap) :
    (∀ u, ((emdCython R env px py).run h).1 ≠ .error (.ub u)) ∧
    ∃ ext, ((emdCython R env px py).run h).2.blocks = h.blocks ++ ext := by
  rcases run_spec (R := R) env px py h with
    ⟨xs, ys, ext, c, _, _, _, _, e⟩ | ⟨x, ext, c, e, _, _⟩ | ⟨xs, b, c, _, _, e, _⟩ <;>
  · rw [e]
    exact ⟨by simp, _, rfl⟩

/-! ## C114 -/

/-- Every block allocated by the call has been freed when it returns or raises, if the second argument
has a length. -/
theorem C114_no_leak (env : Env) (px : PySeq) (ys : List (Option ℚ)) (h : Heap) :
    ∃ ext, ((emdCython R env px (some ys)).run h).2.blocks = h.blocks ++ ext ∧
      ∀ b ∈ ext, b = none := by
  rcases run_spec (R := R) env px (some ys) h with
    ⟨xs, ys, ext, c, _, _, _, hext, e⟩ | ⟨x, ext, c, e, hext, _⟩ | ⟨xs, b, c, _, hc, e, _⟩
  · rw [e]; exact ⟨ext, rfl, hext⟩
  · rw [e]; exact ⟨ext, rfl, hext⟩
  · cases hc

/-- If `len(positions_y)` raises, the array made for `positions_x` is never freed. -/
theorem C114_leak (env : Env) (xs : List ℚ) (h : Heap)
    (h1 : env.mallocOk h.calls xs.length = true) (h2 : env.listOk false = true) :
    ((emdCython R env (some (xs.map some)) none).run h).1 = .error (.exc .typeError) ∧
    ∃ b : Block, ((emdCython R env (some (xs.map some)) none).run h).2.blocks =
      h.blocks ++ [some b] ∧ b.length = xs.length := by
  rcases run_spec (R := R) env (some (xs.map some)) none h with
    ⟨xs', ys, ext, c, _, hc, _⟩ | ⟨x, ext, c, e, hext, hr⟩ | ⟨xs', b, c, hx, hc, e, hb, _⟩
  · cases hc
  · exfalso
    rcases hr with ⟨_, hn⟩ | ⟨_, _, _, _, hc, _⟩ | ⟨_, _, xs', hx, hn⟩
    · rcases hn with hn | ⟨ys, hc, _⟩
      · exact hn ⟨xs, rfl⟩
      · cases hc
    · cases hc
    · cases hx
      exact hn ⟨by rw [List.length_map]; exact h1, h2⟩
  · rw [e]
    refine ⟨rfl, b, rfl, ?_⟩
    rw [hb]
    have := Option.some.inj hx
    simpa using (congrArg List.length this).symm

/-! ## C115 -/

/-- With two sequences of numbers and enough memory, the result is that of `emd_1d_dp` on the numbers
converted to floats. -/
theorem C115_result (env : Env) (xs ys : List ℚ) (h : Heap)
    (ha : AllocsOk env h.calls xs.length ys.length) :
    ((emdCython R env (some (xs.map some)) (some (ys.map some))).run h).1 =
      .ok (emdF R (xs.map R.fl) (ys.map R.fl)) := by
  rcases run_spec (R := R) env (some (xs.map some)) (some (ys.map some)) h with
    ⟨xs', ys', ext, c, hx, hy, _, _, e⟩ | ⟨x, ext, c, e, hext, hr⟩ | ⟨xs', b, c, _, hc, _⟩
  · rw [e]
    have h1 := List.map_injective_iff.2 (Option.some_injective ℚ) (Option.some.inj hx)
    have h2 := List.map_injective_iff.2 (Option.some_injective ℚ) (Option.some.inj hy)
    rw [h1, h2]
  · exfalso
    rcases hr with ⟨_, hn⟩ | ⟨_, xs', ys', hx, hy, hn⟩ | ⟨_, hc, _⟩
    · rcases hn with hn | ⟨_, _, hn⟩
      · exact hn ⟨xs, rfl⟩
      · exact hn ⟨ys, rfl⟩
    · cases hx; cases hy
      rw [List.length_map, List.length_map] at hn
      exact hn ha
    · cases hc
  · cases hc

/-- On floats it agrees bit for bit with `emd_1d_dp`. -/
theorem C115_same_as_python (env : Env) (xs ys : List ℚ) (h : Heap)
    (ha : AllocsOk env h.calls xs.length ys.length) (hx : ∀ q ∈ xs, R.fl q = q)
    (hy : ∀ q ∈ ys, R.fl q = q) :
    ∃ v, emdDpF R xs ys = .ok v ∧
      ((emdCython R env (some (xs.map some)) (some (ys.map some))).run h).1 = .ok v := by
  refine ⟨_, emdDpF_ok xs ys, ?_⟩
  rw [C115_result env xs ys h ha, List.map_congr_left hx, List.map_congr_left hy,
    List.map_id', List.map_id']

/-- The only exceptions are `TypeError`, only if an argument is not a sequence of numbers, and
`MemoryError`, only if an allocation fails. -/
theorem C115_exceptions (env : Env) (px py : PySeq) (h : Heap) (s : Stop)
    (hs : ((emdCython R env px py).run h).1 = .error s) :
    (s = .exc .typeError ∧ ¬ (Numbers px ∧ Numbers py)) ∨
    (s = .exc .memoryError ∧ ∃ xs ys, px = some xs ∧ (py = some ys ∨ py = none) ∧
      ¬ AllocsOk env h.calls xs.length ys.length) := by
  rcases run_spec (R := R) env px py h with
    ⟨xs, ys, ext, c, _, _, _, _, e⟩ | ⟨x, ext, c, e, _, hr⟩ | ⟨xs, b, c, hx, hc, e, _⟩
  · rw [e] at hs; cases hs
  · rw [e] at hs; cases hs
    rcases hr with ⟨rfl, hn⟩ | ⟨rfl, xs, ys, hx, hy, hn⟩ | ⟨rfl, hc, xs, hx, hn⟩
    · refine .inl ⟨rfl, ?_⟩
      rintro ⟨h1, h2⟩
      rcases hn with hn | ⟨_, _, hn⟩
      · exact hn h1
      · exact hn h2
    · exact .inr ⟨rfl, xs, ys, hx, .inl hy, hn⟩
    · exact .inr ⟨rfl, xs, [], hx, .inr hc, fun ha => hn ⟨ha.1, ha.2.1⟩⟩
  · rw [e] at hs; cases hs
    refine .inl ⟨rfl, ?_⟩
    rintro ⟨_, qs, hq⟩
    rw [hc] at hq; cases hq

/-- On a platform where `malloc(0)` returns `NULL`, an empty sequence raises `MemoryError`, while
`emd_1d_dp` returns the number of points on the other side. -/
theorem C115_empty (env : Env) (ys : List ℚ) (h : Heap) (h0 : env.mallocOk h.calls 0 = false) :
    ((emdCython R env (some []) (some (ys.map some))).run h).1 = .error (.exc .memoryError) ∧
    ∃ v, emdDpF R [] ys = .ok v ∧ v = R.fl ys.length := by
  refine ⟨?_, _, emdDpF_ok [] ys, ?_⟩
  · rcases run_spec (R := R) env (some []) (some (ys.map some)) h with
      ⟨xs', ys', ext, c, hx, hy, ha, _, e⟩ | ⟨x, ext, c, e, hext, hr⟩ | ⟨xs', b, c, _, hc, _⟩
    · exfalso
      have h1 : xs' = [] := by
        have := Option.some.inj hx
        simpa using this.symm
      subst h1
      have := ha.1
      rw [List.length_nil, h0] at this
      cases this
    · rw [e]
      rcases hr with ⟨_, hn⟩ | ⟨rfl, _⟩ | ⟨rfl, _⟩
      · rcases hn with hn | ⟨_, _, hn⟩
        · exact absurd ⟨[], rfl⟩ hn
        · exact absurd ⟨ys, rfl⟩ hn
      · rfl
      · rfl
    · cases hc
  · rw [emdF_eq_align]
    have : (pySorted ys).length = ys.length := (List.perm_insertionSort _ _).length_eq
    simp [pySorted, alignF_nil_left] at this ⊢

/-! ## C116 -/

/-- The docstring promises space proportional to the shorter sequence; but the two rows have one cell
more than the LONGER sequence: where a request of more than `max(N, M)` cells is refused, the call
raises `MemoryError`, however short the other sequence is. -/
theorem C116_space (env : Env) (xs ys : List ℚ) (h : Heap)
    (hb : ∀ k size, max xs.length ys.length < size → env.mallocOk k size = false) :
    ((emdCython R env (some (xs.map some)) (some (ys.map some))).run h).1 =
      .error (.exc .memoryError) := by
  rcases run_spec (R := R) env (some (xs.map some)) (some (ys.map some)) h with
    ⟨xs', ys', ext, c, hx, hy, ha, _, e⟩ | ⟨x, ext, c, e, hext, hr⟩ | ⟨xs', b, c, _, hc, _⟩
  · exfalso
    have h1 := List.map_injective_iff.2 (Option.some_injective ℚ) (Option.some.inj hx)
    have h2 := List.map_injective_iff.2 (Option.some_injective ℚ) (Option.some.inj hy)
    subst h1; subst h2
    have := ha.2.2.2.2.1
    rw [hb _ _ (Nat.lt_succ_self _)] at this
    cases this
  · rw [e]
    rcases hr with ⟨_, hn⟩ | ⟨rfl, _⟩ | ⟨rfl, _⟩
    · rcases hn with hn | ⟨_, _, hn⟩
      · exact absurd ⟨xs, rfl⟩ hn
      · exact absurd ⟨ys, rfl⟩ hn
    · rfl
    · rfl
  · cases hc

/-! ## Sample runs -/

/-- Everything can be allocated. -/
def rich : Env := ⟨fun _ _ => true, fun _ => true⟩

/-- The third call of `malloc` fails. -/
def poor : Env := ⟨fun k _ => k != 2, fun _ => true⟩

/-- At most three cells at a time. -/
def small : Env := ⟨fun _ size => size ≤ 3, fun _ => true⟩

example : ∀ k size, max 1 3 < size → small.mallocOk k size = false := by
  intro k size h
  simp only [small, decide_eq_false_iff_not]
  omega

example : (emdCython binary64 small (some [some 3]) (some [some 0, some 2])).run ⟨[], 0⟩ =
    (.ok 2, ⟨[none, none, none, none], 4⟩) := by decide +kernel

example : (emdCython binary64 small (some [some 3]) (some [some 0, some 2, some 5])).run ⟨[], 0⟩ =
    (.error (.exc .memoryError), ⟨[none, none], 4⟩) := by decide +kernel

example : AllocsOk rich 0 3 2 := by simp [AllocsOk, rich]

example : (emdCython binary64 rich (some [some 3, some 1, some (1 / 2)]) (some [some 0, some 2])).run
      ⟨[some [some 7]], 0⟩ =
    (.ok (5 / 2), ⟨[some [some 7], none, none, none, none], 4⟩) := by decide +kernel

example : (emdCython binary64 poor (some [some 3, some 1]) (some [some 0, some 2])).run ⟨[], 0⟩ =
    (.error (.exc .memoryError), ⟨[none, none, none], 4⟩) := by decide +kernel

example : (emdCython binary64 rich (some [some 3, none]) (some [some 0])).run ⟨[], 0⟩ =
    (.error (.exc .typeError), ⟨[none], 1⟩) := by decide +kernel

example : (emdCython binary64 rich (some [some 3, some 2]) none).run ⟨[], 0⟩ =
    (.error (.exc .typeError), ⟨[some [some 2, some 3]], 1⟩) := by decide +kernel

end Cy
end Verif
