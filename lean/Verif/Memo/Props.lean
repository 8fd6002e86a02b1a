import Verif.Memo.Bridge
import Verif.Memo.Spec

/-!
# C197, C198: what one can see of the caches
-/

namespace Verif.Memo

open Verif.MemoSpec

variable {S : Type} [Ring S] [LinearOrder S]

theorem step_lists (M : ℕ) (agg : List ℚ → S) (cf : List Char → List Char) {p : Proc} {o : Objs}
    (hv : Valid p.caches) (hw : p.wls = o.wls) (op : Op) (hn : NoWrite op) :
    Valid (p.step M agg cf op).1.caches ∧
      (p.step M agg cf op).1.wls = (o.step agg cf op).1.wls ∧
      (OnList op → (p.step M agg cf op).2 = (o.step agg cf op).2) := by
  cases op with
  | grams w n =>
    have h := callGrams_valid hv M w n
    have ho : (Objs.step (S := S) agg cf o (.grams w n)).1 = o := by cases n <;> rfl
    rw [ho]
    simp only [Proc.step]
    rcases hc : callGrams M p.caches w n with ⟨r, c⟩
    rw [hc] at h
    cases r <;> exact ⟨h, hw, fun h => h.elim⟩
  | write a l => exact hn.elim
  | nums l n =>
    have ho : (Objs.step (S := S) agg cf o (.nums l n)).1 = o := by cases n <;> rfl
    rw [ho]
    exact ⟨callNums_valid hv M l n, hw, fun h => h.elim⟩
  | clearGrams => exact ⟨⟨by simp [Proc.step], hv.nums⟩, hw, fun h => h.elim⟩
  | clearNums => exact ⟨⟨hv.grams, by simp [Proc.step]⟩, hw, fun h => h.elim⟩
  | newList n cs f =>
    simp only [Proc.step, Objs.step]
    cases WL.new n cs f with
    | error e => exact ⟨hv, hw, fun _ => rfl⟩
    | ok st => exact ⟨hv, by simp only [hw], fun _ => rfl⟩
  | add i word =>
    simp only [Proc.step, Objs.step, ← hw]
    cases p.wls[i]? with
    | none => exact ⟨hv, hw, fun _ => rfl⟩
    | some st =>
      have h := exec_insens M (addWordP_insens cf st word) hv
      rw [runU_addWordP] at h
      simp only [h]
      exact ⟨exec_valid M _ hv, trivial, fun _ => trivial⟩
  | lookup i word topK nm =>
    simp only [Proc.step, Objs.step, ← hw]
    cases p.wls[i]? with
    | none => exact ⟨hv, hw, fun _ => rfl⟩
    | some st =>
      have h := exec_insens M (lookupP_insens agg cf st word topK nm) hv
      have h2 := U_lookupP agg cf st word topK nm
      unfold U at h2
      rw [h2] at h
      simp only [h]
      exact ⟨exec_valid M _ hv, hw, fun _ => trivial⟩
  | lookupV5 i word topK inv nm =>
    simp only [Proc.step, Objs.step, ← hw]
    cases p.wls[i]? with
    | none => exact ⟨hv, hw, fun _ => rfl⟩
    | some st =>
      have h := exec_insens M (lookupV5P_insens agg cf st word topK inv nm) hv
      have h2 := U_lookupV5P agg cf st word topK inv nm
      unfold U at h2
      rw [h2] at h
      simp only [h]
      exact ⟨exec_valid M _ hv, hw, fun _ => trivial⟩
  | newV5b n cs f =>
    simp only [Proc.step, Objs.step]
    cases WL.v5bNew n cs f with
    | error e => exact ⟨hv, hw, fun _ => rfl⟩
    | ok st => exact ⟨hv, by simp only [hw], fun _ => rfl⟩
  | addV5b i word =>
    simp only [Proc.step, Objs.step, ← hw]
    cases p.wls[i]? with
    | none => exact ⟨hv, hw, fun _ => rfl⟩
    | some st =>
      have h := exec_insens M (v5bAddWordP_insens cf st word) hv
      rw [runU_v5bAddWordP] at h
      simp only [h]
      exact ⟨exec_valid M _ hv, trivial, fun _ => trivial⟩
  | lookupV5b i word topK nm =>
    simp only [Proc.step, Objs.step, ← hw]
    cases p.wls[i]? with
    | none => exact ⟨hv, hw, fun _ => rfl⟩
    | some st =>
      have h := exec_insens M (v5bLookupP_insens agg cf st word topK nm) hv
      have h2 := U_v5bLookupP agg cf st word topK nm
      unfold U at h2
      rw [h2] at h
      simp only [h]
      exact ⟨exec_valid M _ hv, hw, fun _ => trivial⟩
  | newV3 ns cs => exact ⟨hv, hw, fun h => h.elim⟩
  | addV3 i word =>
    have ho : (Objs.step (S := S) agg cf o (.addV3 i word)).1.wls = o.wls := by
      simp only [Objs.step]; split <;> rfl
    rw [ho]
    simp only [Proc.step]
    cases p.v3s[i]? with
    | none => exact ⟨hv, hw, fun h => h.elim⟩
    | some x => exact ⟨exec_valid M _ hv, hw, fun h => h.elim⟩
  | lookupV3 i word topK =>
    have ho : (Objs.step (S := S) agg cf o (.lookupV3 i word topK)).1.wls = o.wls := by
      simp only [Objs.step]; split <;> rfl
    rw [ho]
    simp only [Proc.step]
    cases p.v3s[i]? with
    | none => exact ⟨hv, hw, fun h => h.elim⟩
    | some x => exact ⟨exec_valid M _ hv, hw, fun h => h.elim⟩

theorem run_lists (M : ℕ) (agg : List ℚ → S) (cf : List Char → List Char) (ops : List Op)
    (hn : ∀ op ∈ ops, NoWrite op) {p : Proc} {o : Objs} (hv : Valid p.caches)
    (hw : p.wls = o.wls) :
    (p.run M agg cf ops).1.wls = (o.run agg cf ops).1.wls ∧
      ∀ (i : ℕ) (op : Op), ops[i]? = some op → OnList op →
        (p.run M agg cf ops).2[i]? = (o.run agg cf ops).2[i]? := by
  induction ops generalizing p o with
  | nil => exact ⟨hw, by simp⟩
  | cons op ops ih =>
    obtain ⟨h1, h2, h3⟩ := step_lists M agg cf hv hw op (hn op (by simp))
    have ih := ih (fun x hx => hn x (List.mem_cons_of_mem _ hx)) h1 h2
    refine ⟨ih.1, fun i op' hi ho => ?_⟩
    cases i with
    | zero =>
      simp only [List.getElem?_cons_zero, Option.some.injEq] at hi
      subst hi
      simp only [Proc.run, Objs.run, List.getElem?_cons_zero, h3 ho]
    | succ i =>
      simp only [List.getElem?_cons_succ] at hi
      simp only [Proc.run, Objs.run, List.getElem?_cons_succ]
      exact ih.2 i op' hi ho

/-- **C197.** In every run of every program that changes no list returned by `get_n_grams` — with
any number of word lists of any version, calls of `get_n_grams` and `num_grams` with ints or
floats, and a cache of any size — the word lists V5, V6 and V5b have the contents and return the results
that they would have and return if nothing were remembered. -/
theorem C197_caches_invisible_to_lists (M : ℕ) (agg : List ℚ → S) (cf : List Char → List Char)
    (ops : List Op) (hn : ∀ op ∈ ops, NoWrite op) :
    (Proc.start.run M agg cf ops).1.wls = (Objs.run agg cf ⟨[], []⟩ ops).1.wls ∧
      ∀ (i : ℕ) (op : Op), ops[i]? = some op → OnList op →
        (Proc.start.run M agg cf ops).2[i]? = (Objs.run agg cf ⟨[], []⟩ ops).2[i]? :=
  run_lists M agg cf ops hn Valid.empty rfl

/-- A program that uses floats, two word lists and a cache of two entries. -/
def shared : List Op :=
  [.newV3 [.float 2] true, .newList (.iter [2, 3]) true 0, .newList (.int 2) true 2,
   .addV3 0 (.str ['h', 'e', 'l', 'l', 'o']), .add 0 (.str ['h', 'e', 'l', 'l', 'o']),
   .add 1 (.str ['h', 'e', 'l', 'l', 'o']), .clearGrams, .add 1 (.str ['j', 'e', 'l', 'l', 'o']),
   .grams ['h', 'e', 'l', 'l', 'o'] (.float 2), .lookup 1 (.str ['c', 'e', 'l', 'l', 'o']) (.int 1) true,
   .newV5b (.int 2) (some true) none, .addV5b 2 (.str ['h', 'e', 'l', 'l', 'o']),
   .lookupV5b 2 (.str ['h', 'e', 'l', 'l']) (.int 1) false]

example : ∀ op ∈ shared, NoWrite op := by simp [shared, NoWrite]

set_option maxRecDepth 4000 in
example : (Proc.start.run 2 mean1 id shared).2[12]? =
    some (Out.foundV5 (.ok [(['h', 'e', 'l', 'l', 'o'], 77 / 10)])) := by
  with_unfolding_all rfl

set_option maxRecDepth 4000 in
example : ((Proc.start.run 2 mean1 id shared).2[3]?, (Proc.start.run 2 mean1 id shared).2[9]?)
      = (some (Out.unit (.error .typeError)),
         some (Out.found (.ok [(['h', 'e', 'l', 'l', 'o'], toLex (2 / 3, 2 / 3))]))) := by
  with_unfolding_all rfl

/-! ## Ints only -/

/-- The objects V3 of the two processes are the same, and their `n` are ints. -/
def SameV3 (p : Proc) (o : Objs) : Prop :=
  p.v3s = o.v3s.map (fun st => (st.nList.map Num.int, st))

theorem step_whole (M : ℕ) (agg : List ℚ → S) (cf : List Char → List Char) {p : Proc} {o : Objs}
    (hv : Valid p.caches) (hi : Ints p.caches) (hw : p.wls = o.wls) (h3 : SameV3 p o)
    (op : Op) (hn : NoWrite op) (ho : IntsOnly op) :
    Ints (p.step M agg cf op).1.caches ∧
      SameV3 (p.step M agg cf op).1 (o.step agg cf op).1 ∧
      contents (p.step M agg cf op).2 = (o.step agg cf op).2 := by
  have hl := (step_lists M agg cf hv hw op hn).2.2
  have hs : p.v3s = o.v3s.map (fun st => (st.nList.map Num.int, st)) := h3
  cases op with
  | grams w n =>
    obtain ⟨z, rfl⟩ := ho
    obtain ⟨a, ha, hg⟩ := callGrams_int hv M w z
    have hc' := callGrams_nums M p.caches w (.int z)
    simp only [Proc.step, Objs.step]
    rcases hc : callGrams M p.caches w (.int z) with ⟨r, c⟩
    rw [hc] at ha hg hc'
    simp only at ha hg hc'
    subst ha
    refine ⟨by unfold Ints; simp only [hc']; exact hi, h3, ?_⟩
    simp only [contents, hg]
  | write a l => exact hn.elim
  | nums l n =>
    obtain ⟨z, rfl⟩ := ho
    refine ⟨callNums_ints hi M l z, h3, ?_⟩
    simp only [Proc.step, Objs.step, contents, callNums_int hi]
  | clearGrams => exact ⟨hi, h3, rfl⟩
  | clearNums => exact ⟨by simp [Proc.step, Ints], h3, rfl⟩
  | newList n cs f =>
    rw [hl trivial]
    simp only [Proc.step, Objs.step]
    cases WL.new n cs f <;> exact ⟨hi, h3, rfl⟩
  | add i word =>
    rw [hl trivial]
    simp only [Proc.step, Objs.step, ← hw]
    cases p.wls[i]? with
    | none => exact ⟨hi, h3, rfl⟩
    | some st => exact ⟨(exec_whole M (addWordP_insens cf st word).whole hv hi).2, h3, rfl⟩
  | lookup i word topK nm =>
    rw [hl trivial]
    simp only [Proc.step, Objs.step, ← hw]
    cases p.wls[i]? with
    | none => exact ⟨hi, h3, rfl⟩
    | some st => exact ⟨(exec_whole M (Insens.whole (lookupP_insens agg cf st word topK nm)) hv hi).2,
        h3, rfl⟩
  | lookupV5 i word topK inv nm =>
    rw [hl trivial]
    simp only [Proc.step, Objs.step, ← hw]
    cases p.wls[i]? with
    | none => exact ⟨hi, h3, rfl⟩
    | some st =>
      exact ⟨(exec_whole M (Insens.whole (lookupV5P_insens agg cf st word topK inv nm)) hv hi).2,
        h3, rfl⟩
  | newV5b n cs f =>
    rw [hl trivial]
    simp only [Proc.step, Objs.step]
    cases WL.v5bNew n cs f <;> exact ⟨hi, h3, rfl⟩
  | addV5b i word =>
    rw [hl trivial]
    simp only [Proc.step, Objs.step, ← hw]
    cases p.wls[i]? with
    | none => exact ⟨hi, h3, rfl⟩
    | some st => exact ⟨(exec_whole M (v5bAddWordP_insens cf st word).whole hv hi).2, h3, rfl⟩
  | lookupV5b i word topK nm =>
    rw [hl trivial]
    simp only [Proc.step, Objs.step, ← hw]
    cases p.wls[i]? with
    | none => exact ⟨hi, h3, rfl⟩
    | some st =>
      exact ⟨(exec_whole M (Insens.whole (v5bLookupP_insens agg cf st word topK nm)) hv hi).2,
        h3, rfl⟩
  | newV3 ns cs =>
    obtain ⟨zs, rfl⟩ := ho
    refine ⟨hi, ?_, rfl⟩
    have hz : (zs.map Num.int).map Num.toInt = zs := by
      rw [List.map_map]; exact List.map_id _
    simp only [SameV3, Proc.step, Objs.step, hs, List.map_append, List.map_cons, List.map_nil,
      v3New, hz]
  | addV3 i word =>
    simp only [Proc.step, Objs.step, hs, List.getElem?_map]
    cases hoi : o.v3s[i]? with
    | none => exact ⟨hi, h3, rfl⟩
    | some st =>
      obtain ⟨h1, h2⟩ := exec_whole M (v3AddWordP_whole cf st.nList st word) hv hi
      rw [runU_v3AddWordP] at h1
      simp only [Option.map_some, h1]
      refine ⟨h2, ?_, rfl⟩
      simp only [SameV3, List.map_set, addWord_v3_nList]
  | lookupV3 i word topK =>
    simp only [Proc.step, Objs.step, hs, List.getElem?_map]
    cases hoi : o.v3s[i]? with
    | none => exact ⟨hi, h3, rfl⟩
    | some st =>
      obtain ⟨h1, h2⟩ := exec_whole M (v3LookupP_whole agg cf st.nList st word topK) hv hi
      have hu := U_v3LookupP agg cf st word topK
      unfold U at hu
      rw [hu] at h1
      simp only [Option.map_some, h1]
      exact ⟨h2, by simp only [SameV3], rfl⟩

theorem run_whole (M : ℕ) (agg : List ℚ → S) (cf : List Char → List Char) (ops : List Op)
    (hn : ∀ op ∈ ops, NoWrite op ∧ IntsOnly op) {p : Proc} {o : Objs} (hv : Valid p.caches)
    (hi : Ints p.caches) (hw : p.wls = o.wls) (h3 : SameV3 p o) :
    SameV3 (p.run M agg cf ops).1 (o.run agg cf ops).1 ∧
      (p.run M agg cf ops).2.map contents = (o.run agg cf ops).2 := by
  induction ops generalizing p o with
  | nil => exact ⟨h3, rfl⟩
  | cons op ops ih =>
    obtain ⟨hno, hio⟩ := hn op (by simp)
    obtain ⟨h1, h2, -⟩ := step_lists M agg cf hv hw op hno
    obtain ⟨g1, g2, g3⟩ := step_whole M agg cf hv hi hw h3 op hno hio
    have ih := ih (fun x hx => hn x (List.mem_cons_of_mem _ hx)) h1 g1 h2 g2
    refine ⟨ih.1, ?_⟩
    simp only [Proc.run, Objs.run, List.map_cons, g3, ih.2]

/-- **C198.** If moreover every `n` that the program passes is an int, then nothing at all can be
seen of the caches: all calls, also those of `get_n_grams`, `num_grams` and of word lists V3, return
what they would return if nothing were remembered, and all word lists have the contents that they
would have. -/
theorem C198_caches_invisible (M : ℕ) (agg : List ℚ → S) (cf : List Char → List Char)
    (ops : List Op) (hn : ∀ op ∈ ops, NoWrite op ∧ IntsOnly op) :
    (Proc.start.run M agg cf ops).2.map contents = (Objs.run agg cf ⟨[], []⟩ ops).2 ∧
      (Proc.start.run M agg cf ops).1.wls = (Objs.run agg cf ⟨[], []⟩ ops).1.wls ∧
      (Proc.start.run M agg cf ops).1.v3s.map Prod.snd = (Objs.run agg cf ⟨[], []⟩ ops).1.v3s := by
  obtain ⟨h1, h2⟩ := run_whole M agg cf ops hn (p := Proc.start) (o := ⟨[], []⟩) Valid.empty
    Ints.empty rfl rfl
  refine ⟨h2, (run_lists M agg cf ops (fun op h => (hn op h).1) (p := Proc.start) (o := ⟨[], []⟩)
    Valid.empty rfl).1, ?_⟩
  unfold SameV3 at h1
  rw [h1, List.map_map]
  exact List.map_id _

/-- Two word lists and calls of the functions themselves. -/
def whole : List Op :=
  [.newV3 [.int 2] true, .newList (.int 2) true 0, .grams ['a', 'b'] (.int 2),
   .addV3 0 (.str ['a', 'b']), .add 0 (.str ['a', 'b']), .nums 2 (.int 2),
   .lookupV3 0 (.str ['a', 'b']) none, .lookup 0 (.str ['a', 'b']) (.int 1) false]

example : ∀ op ∈ whole, NoWrite op ∧ IntsOnly op := by
  simp only [whole, List.forall_mem_cons, NoWrite, IntsOnly, true_and, and_true,
    List.not_mem_nil, false_imp_iff, implies_true]
  exact ⟨⟨[2], rfl⟩, ⟨2, rfl⟩, ⟨2, rfl⟩⟩

example : (Proc.start.run 3 mean1 id whole).2.drop 5 =
    [.num (.int 3), .foundV3 (.ok [(['a', 'b'], 1, 1)]),
     .found (.ok [(['a', 'b'], toLex (6, 6))])] := by
  with_unfolding_all rfl

end Verif.Memo
