import Verif.WordSet.Props
import Verif.Core.Mirror

/-!
# Property C180: word sets of renamed and reversed words

The same calls with all words renamed (or all words reversed) give the same observations with all
words renamed (or reversed).
-/

namespace Verif

open GramSpec WordSetSpec

/-! ### The same calls with other words -/

/-- Replace a string argument. -/
def renVal (φ : List Char → List Char) : PyVal → PyVal
  | .str w => .str (φ w)
  | .int i => .int i
  | .other => .other

/-- Replace the words in the arguments of a call. -/
def renOp (φ : List Char → List Char) : WSOp → WSOp
  | .add v => .add (renVal φ v)
  | .discard v => .discard (renVal φ v)
  | .remove v => .remove (renVal φ v)
  | .clear => .clear
  | .pop => .pop
  | .ior vs => .ior (vs.map (renVal φ))
  | .isub vs => .isub (vs.map (renVal φ))
  | .contains v => .contains (renVal φ v)
  | .len => .len
  | .iter => .iter
  | .findSimilar q k ms => .findSimilar (renVal φ q) k ms
  | .suggest q k => .suggest (renVal φ q) k

/-- Replace the words in an observation; scores stay. -/
def renOut (φ : List Char → List Char) : WSOut → WSOut
  | .unit r => .unit r
  | .bool r => .bool r
  | .word r => .word (r.map φ)
  | .nat n => .nat n
  | .words ws => .words (ws.map φ)
  | .found r => .found (r.map (List.map fun p => (φ p.1, p.2)))
  | .names r => .names (r.map (List.map φ))

/-- The words among the arguments of a call. -/
def opWords : WSOp → List PyVal
  | .add v | .discard v | .remove v | .contains v => [v]
  | .ior vs | .isub vs => vs
  | .findSimilar q _ _ | .suggest q _ => [q]
  | .clear | .pop | .len | .iter => []

/-- All string arguments lie in `G`. -/
def OpsIn (G : Set (List Char)) (ops : List WSOp) : Prop :=
  ∀ op ∈ ops, ∀ w, PyVal.str w ∈ opWords op → w ∈ G

/-! ### Symmetries -/

/-- `φ` respects, on the words of `G`, everything the set looks at. -/
structure WordSym (ky : List Char → Option (List Char)) (sc : List Char → List Char → ℚ)
    (cd : List Char → List Char → Prop) (G : Set (List Char)) (φ : List Char → List Char) :
    Prop where
  inj : Set.InjOn φ G
  nil : ∀ w ∈ G, φ w = [] ↔ w = []
  key : ∀ w ∈ G, ky (φ w) = (ky w).map φ
  closed : ∀ w ∈ G, ∀ k, ky w = some k → k ∈ G
  cand : ∀ q ∈ G, ∀ w ∈ G, cd (φ q) (φ w) ↔ cd q w
  score : ∀ q ∈ G, ∀ w ∈ G, sc (φ q) (φ w) = sc q w

/-- The renamed member. -/
def renMem (φ : List Char → List Char) (m : Member) : Member := ⟨φ m.key, φ m.orig⟩

/-- Words of all members. -/
def MemIn (G : Set (List Char)) (s : List Member) : Prop := ∀ m ∈ s, m.key ∈ G

section

variable {key : List Char → Option (List Char)} {sc : List Char → List Char → ℚ}
  {cand : List Char → List Char → Prop} {G : Set (List Char)} {φ : List Char → List Char}

theorem mem_ren (h : WordSym key sc cand G φ) {s : List Member} (hs : MemIn G s) {k : List Char}
    (hk : k ∈ G) : Mem (s.map (renMem φ)) (φ k) ↔ Mem s k := by
  unfold Mem
  constructor
  · rintro ⟨m, hm, e⟩
    obtain ⟨m', hm', rfl⟩ := List.mem_map.1 hm
    exact ⟨m', hm', h.inj (hs m' hm') hk e⟩
  · rintro ⟨m, hm, rfl⟩
    exact ⟨_, List.mem_map_of_mem hm, rfl⟩

theorem delete_ren (h : WordSym key sc cand G φ) {s : List Member} (hs : MemIn G s) {k : List Char}
    (hk : k ∈ G) : delete (s.map (renMem φ)) (φ k) = (delete s k).map (renMem φ) := by
  unfold delete
  rw [List.filter_map]
  congr 1
  apply List.filter_congr
  intro m hm
  exact decide_eq_decide.2 (not_iff_not.2
    ⟨fun e => h.inj (hs m hm) hk e, fun e => by rw [renMem, e]⟩)

theorem memIn_delete {s : List Member} (hs : MemIn G s) (k : List Char) : MemIn G (delete s k) :=
  fun m hm => hs m (List.mem_filter.1 hm).1

theorem add_ren (h : WordSym key sc cand G φ) {s : List Member} (hs : MemIn G s) {v : PyVal}
    (hv : ∀ w, v = .str w → w ∈ G) :
    absAdd key (s.map (renMem φ)) (renVal φ v) =
      ((absAdd key s v).1.map (renMem φ), (absAdd key s v).2) ∧ MemIn G (absAdd key s v).1 := by
  cases v with
  | int i => exact ⟨rfl, hs⟩
  | other => exact ⟨rfl, hs⟩
  | str w =>
    have hw := hv w rfl
    have hnil := h.nil w hw
    have hkey := h.key w hw
    unfold absAdd renVal
    simp only
    cases w with
    | nil =>
      rw [hnil.2 rfl]
      exact ⟨rfl, hs⟩
    | cons c w =>
      have hne : φ (c :: w) ≠ [] := fun e => by simpa using hnil.1 e
      obtain ⟨c', w', e⟩ := List.exists_cons_of_ne_nil hne
      rw [hkey]
      cases hk : key (c :: w) with
      | none =>
        rw [e]
        exact ⟨rfl, hs⟩
      | some k =>
        have hkG := h.closed _ hw k hk
        cases k with
        | nil =>
          rw [e, Option.map_some, (h.nil [] hkG).2 rfl]
          exact ⟨rfl, hs⟩
        | cons d k =>
          have hne' : φ (d :: k) ≠ [] := fun e' => by simpa using (h.nil _ hkG).1 e'
          obtain ⟨d', k', e'⟩ := List.exists_cons_of_ne_nil hne'
          have hm := mem_ren h hs hkG
          constructor
          · rw [Option.map_some, e', e]
            simp only
            unfold WordSetSpec.insert
            simp only
            rw [e'] at hm
            simp only [hm]
            split
            · rfl
            · rw [List.map_append]
              simp [renMem, e, e']
          · simp only
            unfold WordSetSpec.insert
            split
            · exact hs
            · intro m hm'
              rcases List.mem_append.1 hm' with h1 | h1
              · exact hs m h1
              · rw [List.mem_singleton.1 h1]; exact hkG

theorem discard_ren (h : WordSym key sc cand G φ) {s : List Member} (hs : MemIn G s) {v : PyVal}
    (hv : ∀ w, v = .str w → w ∈ G) :
    absDiscard key (s.map (renMem φ)) (renVal φ v) =
      ((absDiscard key s v).1.map (renMem φ), (absDiscard key s v).2) ∧
    MemIn G (absDiscard key s v).1 := by
  cases v with
  | int i => exact ⟨rfl, hs⟩
  | other => exact ⟨rfl, hs⟩
  | str w =>
    have hw := hv w rfl
    unfold absDiscard renVal
    simp only
    rw [h.key w hw]
    cases hk : key w with
    | none => exact ⟨rfl, hs⟩
    | some k =>
      simp only [Option.map_some]
      exact ⟨by rw [delete_ren h hs (h.closed w hw k hk)], memIn_delete hs k⟩

theorem remove_ren (h : WordSym key sc cand G φ) {s : List Member} (hs : MemIn G s) {v : PyVal}
    (hv : ∀ w, v = .str w → w ∈ G) :
    absRemove key (s.map (renMem φ)) (renVal φ v) =
      ((absRemove key s v).1.map (renMem φ), (absRemove key s v).2) ∧
    MemIn G (absRemove key s v).1 := by
  cases v with
  | int i => exact ⟨rfl, hs⟩
  | other => exact ⟨rfl, hs⟩
  | str w =>
    have hw := hv w rfl
    unfold absRemove renVal
    simp only
    rw [h.key w hw]
    cases hk : key w with
    | none => exact ⟨rfl, hs⟩
    | some k =>
      have hkG := h.closed w hw k hk
      simp only [Option.map_some, mem_ren h hs hkG]
      split
      · exact ⟨by rw [delete_ren h hs hkG], memIn_delete hs k⟩
      · exact ⟨rfl, hs⟩

theorem forEach_ren {f : List Member → PyVal → List Member × Except PyErr Unit}
    (hf : ∀ s v, MemIn G s → (∀ w, v = .str w → w ∈ G) →
      f (s.map (renMem φ)) (renVal φ v) = ((f s v).1.map (renMem φ), (f s v).2) ∧
      MemIn G (f s v).1) :
    ∀ (vs : List PyVal) (s : List Member), MemIn G s → (∀ w, PyVal.str w ∈ vs → w ∈ G) →
      absForEach f (s.map (renMem φ)) (vs.map (renVal φ)) =
        ((absForEach f s vs).1.map (renMem φ), (absForEach f s vs).2) ∧
      MemIn G (absForEach f s vs).1
  | [], s, hs, _ => ⟨rfl, hs⟩
  | v :: vs, s, hs, hv => by
    obtain ⟨h1, h2⟩ := hf s v hs fun w e => hv w (by rw [e]; exact List.mem_cons_self)
    rw [List.map_cons]
    unfold absForEach
    rw [h1]
    rcases hfs : f s v with ⟨s', r⟩
    rw [hfs] at h2
    cases r with
    | error e => exact ⟨rfl, h2⟩
    | ok _ =>
      exact forEach_ren hf vs s' h2 fun w hw => hv w (List.mem_cons_of_mem _ hw)

theorem contains_ren (h : WordSym key sc cand G φ) {s : List Member} (hs : MemIn G s) {v : PyVal}
    (hv : ∀ w, v = .str w → w ∈ G) :
    absContains key (s.map (renMem φ)) (renVal φ v) = absContains key s v := by
  cases v with
  | int i => rfl
  | other => rfl
  | str w =>
    have hw := hv w rfl
    unfold absContains renVal
    simp only
    rw [h.key w hw]
    cases hk : key w with
    | none => rfl
    | some k => simp only [Option.map_some, mem_ren h hs (h.closed w hw k hk)]

/-- Sorting the candidates commutes with renaming. -/
theorem ranked_ren [∀ q w, Decidable (cand q w)] (h : WordSym key sc cand G φ) {s : List Member}
    (hs : MemIn G s) {q : List Char} (hq : q ∈ G) (k : ℕ) :
    (((s.map (renMem φ)).filter (fun m => cand (φ q) m.key)).insertionSort
      (fun a b => sc (φ q) b.key ≤ sc (φ q) a.key)).take k =
    (((s.filter (fun m => cand q m.key)).insertionSort
      (fun a b => sc q b.key ≤ sc q a.key)).take k).map (renMem φ) := by
  rw [List.map_take]
  congr 1
  rw [List.filter_map]
  have e : s.filter ((fun m : Member => decide (cand (φ q) m.key)) ∘ renMem φ) =
      s.filter (fun m => decide (cand q m.key)) := by
    apply List.filter_congr
    intro m hm
    exact decide_eq_decide.2 (h.cand q hq _ (hs m hm))
  rw [e]
  symm
  apply List.map_insertionSort
  intro a ha b hb
  have ha' := hs a (List.mem_filter.1 ha).1
  have hb' := hs b (List.mem_filter.1 hb).1
  simp only [renMem]
  rw [h.score q hq _ ha', h.score q hq _ hb']

theorem find_ren {ns : List ℕ} (h : WordSym key (score ns) (Candidate ns) G φ) {s : List Member}
    (hs : MemIn G s) {q : PyVal} (hq : ∀ w, q = .str w → w ∈ G) (k : PyVal) (ms : MinSim) :
    absFind key ns (s.map (renMem φ)) (renVal φ q) k ms =
      (absFind key ns s q k ms).map (List.map fun p => (φ p.1, p.2)) := by
  cases q with
  | int i => cases k <;> rfl
  | other => cases k <;> rfl
  | str w =>
    have hw := hq w rfl
    cases k with
    | str _ => rfl
    | other => rfl
    | int k =>
      unfold absFind renVal
      simp only
      split
      · rfl
      · have e : (φ w = [] ∨ s.map (renMem φ) = []) ↔ (w = [] ∨ s = []) := by
          rw [h.nil w hw, List.map_eq_nil_iff]
        simp only [e]
        split
        · rfl
        · rw [h.key w hw]
          cases hk : key w with
          | none => rfl
          | some nq =>
            have hn := h.closed w hw nq hk
            simp only [Option.map_some, h.nil nq hn]
            split
            · rfl
            · simp only [Except.map]
              congr 1
              have := ranked_ren h hs hn k.toNat
              unfold ranked
              rw [this, List.map_map, List.map_map]
              apply List.map_congr_left
              intro m hm
              have hm' := hs m (List.mem_filter.1
                ((List.mem_insertionSort _).1 (List.mem_of_mem_take hm))).1
              simp only [Function.comp_apply, renMem]
              rw [h.score nq hn _ hm']

theorem step_ren {ns : List ℕ} (h : WordSym key (score ns) (Candidate ns) G φ) {s : List Member}
    (hs : MemIn G s) (op : WSOp) (hop : ∀ w, PyVal.str w ∈ opWords op → w ∈ G) :
    absStep key ns (s.map (renMem φ)) (renOp φ op) =
      ((absStep key ns s op).1.map (renMem φ), renOut φ (absStep key ns s op).2) ∧
    MemIn G (absStep key ns s op).1 := by
  cases op with
  | add v =>
    obtain ⟨h1, h2⟩ := add_ren h hs (v := v) fun w e => hop w (by simp [opWords, e])
    refine ⟨?_, h2⟩
    simp only [absStep, renOp, h1, renOut]
  | discard v =>
    obtain ⟨h1, h2⟩ := discard_ren h hs (v := v) fun w e => hop w (by simp [opWords, e])
    refine ⟨?_, h2⟩
    simp only [absStep, renOp, h1, renOut]
  | remove v =>
    obtain ⟨h1, h2⟩ := remove_ren h hs (v := v) fun w e => hop w (by simp [opWords, e])
    refine ⟨?_, h2⟩
    simp only [absStep, renOp, h1, renOut]
  | clear => exact ⟨rfl, fun m hm => by cases hm⟩
  | pop =>
    cases s with
    | nil => exact ⟨rfl, hs⟩
    | cons m s => exact ⟨rfl, fun x hx => hs x (List.mem_cons_of_mem _ hx)⟩
  | ior vs =>
    obtain ⟨h1, h2⟩ := forEach_ren (f := absAdd key) (fun s v hs hv => add_ren h hs hv) vs s hs hop
    refine ⟨?_, h2⟩
    simp only [absStep, renOp, h1, renOut]
  | isub vs =>
    obtain ⟨h1, h2⟩ := forEach_ren (f := absDiscard key) (fun s v hs hv => discard_ren h hs hv) vs s
      hs hop
    refine ⟨?_, h2⟩
    simp only [absStep, renOp, h1, renOut]
  | contains v =>
    refine ⟨?_, hs⟩
    simp only [absStep, renOp, renOut]
    rw [contains_ren h hs fun w e => hop w (by simp [opWords, e])]
  | len => exact ⟨by simp [absStep, renOp, renOut], hs⟩
  | iter => exact ⟨by simp [absStep, renOp, renOut, renMem, Function.comp_def], hs⟩
  | findSimilar q k ms =>
    refine ⟨?_, hs⟩
    simp only [absStep, renOp, renOut]
    rw [find_ren h hs fun w e => hop w (by simp [opWords, e])]
  | suggest q k =>
    refine ⟨?_, hs⟩
    simp only [absStep, renOp, renOut]
    rw [find_ren h hs fun w e => hop w (by simp [opWords, e])]
    cases absFind key ns s q k .none with
    | error e => rfl
    | ok l => simp [Except.map, Function.comp_def]

theorem outputs_ren {ns : List ℕ} (h : WordSym key (score ns) (Candidate ns) G φ) :
    ∀ (ops : List WSOp) {s : List Member}, MemIn G s → OpsIn G ops →
      absOutputs key ns (s.map (renMem φ)) (ops.map (renOp φ)) =
        (absOutputs key ns s ops).map (renOut φ)
  | [], _, _, _ => rfl
  | op :: ops, s, hs, hops => by
    obtain ⟨h1, h2⟩ := step_ren h hs op (hops op List.mem_cons_self)
    rw [List.map_cons]
    unfold absOutputs
    rw [h1, List.map_cons, outputs_ren h ops h2 fun o ho => hops o (List.mem_cons_of_mem _ ho)]

end

/-! ### Renaming -/

theorem bracketed_map {f : Char → Char} (hs : f stx = stx) (he : f etx = etx) (w : List Char) :
    bracketed (w.map f) = (bracketed w).map f := by
  unfold bracketed
  rw [List.map_append, List.map_append]
  simp [hs, he]

theorem grams_map {f : Char → Char} (hs : f stx = stx) (he : f etx = etx) (n : ℕ) (w : List Char) :
    grams n (w.map f) = (grams n w).map (List.map f) := by
  unfold grams count gramAt
  rw [bracketed_map hs he, List.length_map, List.map_map]
  apply List.map_congr_left
  intro i _
  simp only [Function.comp_apply]
  rw [← List.map_drop, ← List.map_take]

theorem keyOf_sym {cs : Bool} {cf : List Char → List Char} {un : Normalizer}
    {φ : List Char → List Char} {w : List Char} (hcf : cs = false → cf (φ w) = φ (cf w))
    (hun : ∀ g, un = some g → ∀ v, g (φ v) = (g v).map φ)
    (h0 : ∀ v, '\x00' ∈ φ v ↔ '\x00' ∈ v) :
    keyOf cs cf un (φ w) = (keyOf cs cf un w).map φ := by
  unfold keyOf
  have e : (if cs = true then φ w else cf (φ w)) = φ (if cs = true then w else cf w) := by
    cases cs with
    | true => rfl
    | false => simpa using hcf rfl
  simp only [e]
  generalize (if cs = true then w else cf w) = v
  cases un with
  | none =>
    simp only [h0]
    split <;> rfl
  | some g =>
    simp only [hun g rfl v]
    cases g v with
    | none => rfl
    | some k =>
      simp only [Option.map_some, h0]
      split <;> rfl

/-- Renaming of characters by an injective map that keeps the markers and the null character is a
symmetry of every set whose case folding and normaliser commute with it. -/
theorem rename_sym {cs : Bool} {cf : List Char → List Char} {un : Normalizer} {f : Char → Char}
    (hf : Function.Injective f) (hs : f stx = stx) (he : f etx = etx) (h0 : f '\x00' = '\x00')
    (hcf : cs = false → ∀ w, cf (w.map f) = (cf w).map f)
    (hun : ∀ g, un = some g → ∀ v : List Char, g (v.map f) = (g v).map (List.map f)) (ns : List ℕ) :
    WordSym (keyOf cs cf un) (score ns) (Candidate ns) Set.univ (List.map f) := by
  have hcount : ∀ n w, count n (List.map f w) = count n w := by
    intro n w; rw [count_eq, count_eq, List.length_map]
  have htot : ∀ q w, totalCount ns (q.map f) (w.map f) = totalCount ns q w := by
    intro q w; unfold totalCount; simp only [hcount]
  refine ⟨(List.map_injective_iff.2 hf).injOn, fun w _ => List.map_eq_nil_iff, ?_, fun _ _ _ _ =>
    Set.mem_univ _, ?_, ?_⟩
  · intro w _
    refine keyOf_sym (fun h => hcf h w) hun ?_
    intro v
    rw [List.mem_map]
    constructor
    · rintro ⟨c, hc, e⟩
      rw [← h0] at e
      rw [hf e] at hc
      exact hc
    · intro h; exact ⟨_, h, h0⟩
  · intro q _ w _
    unfold Candidate
    cases filterSize ns with
    | none => simp only [htot]
    | some n =>
      simp only [grams_map hs he, List.mem_map]
      constructor
      · rintro ⟨_, ⟨g, hg, rfl⟩, g', hg', e⟩
        exact ⟨g, hg, List.map_injective_iff.2 hf e ▸ hg'⟩
      · rintro ⟨g, h1, h2⟩
        exact ⟨_, ⟨g, h1, rfl⟩, g, h2, rfl⟩
  · intro q _ w _
    unfold score
    rw [htot]
    congr 2
    apply List.map_congr_left
    intro n _
    rw [simOf_eq, simOf_eq]
    exact locSim_rename n (bracketed_map hs he q) (bracketed_map hs he w) fun c _ d _ e => hf e

/-- **C180.** A set does not care which characters the words are made of: the same calls with all
words renamed by an injective map of characters (keeping the two markers and the null character)
give the same observations with renamed words, in the same order and with the same scores;
exceptions included. Case folding and the normaliser, if used, must commute with the map. -/
theorem C180_rename {cs : Option Bool} {callable : Bool} {sizes : NArg} {st₀ : WS}
    (h : WS.new cs callable sizes = .ok st₀) {cf : List Char → List Char} {un : Normalizer}
    {f : Char → Char} (hf : Function.Injective f) (hs : f stx = stx) (he : f etx = etx)
    (h0 : f '\x00' = '\x00') (hcf : st₀.caseSensitive = false → ∀ w, cf (w.map f) = (cf w).map f)
    (hun : ∀ g, un = some g → ∀ v : List Char, g (v.map f) = (g v).map (List.map f))
    (ops : List WSOp) :
    st₀.outputs cf un (ops.map (renOp (List.map f))) =
      (st₀.outputs cf un ops).map (renOut (List.map f)) := by
  have hr := Rep.new (cf := cf) (un := un) h
  rw [hr.outputs, hr.outputs]
  exact outputs_ren (rename_sym hf hs he h0 hcf hun _) ops (s := []) (fun m hm => by cases hm)
    fun _ _ _ _ => Set.mem_univ _

deriving instance DecidableEq for WSOut

/-- A short session: three words, a query, a membership test and a pop. -/
def symOps : List WSOp :=
  [.add (.str "abba".toList), .add (.str "abc".toList), .add (.str "cab".toList),
    .findSimilar (.str "abb".toList) (.int 2) .none, .contains (.str "cab".toList), .pop]

/-- A new set with sizes 2 and 3, case-sensitive. -/
def symSet : WS :=
  match WS.new (some true) true (.iter [3, 2]) with
  | .ok st => st
  | .error _ => ⟨true, [], none, [], [], 0, [], []⟩

example : symSet.outputs id none (symOps.map (renOp (List.map (Equiv.swap 'a' 'b')))) =
    (symSet.outputs id none symOps).map (renOut (List.map (Equiv.swap 'a' 'b'))) := by
  decide +kernel

example : (symSet.outputs id none symOps)[5]? = some (.word (.ok "abba".toList)) ∧
    (symSet.outputs id none (symOps.map (renOp (List.map (Equiv.swap 'a' 'b')))))[5]? =
      some (.word (.ok "baab".toList)) := by
  decide +kernel

/-! ### Reversal -/

theorem mem_grams_reverse {n : ℕ} {w g : List Char} (hw : Clean w) :
    g ∈ grams n w.reverse ↔ (g.map swapMark).reverse ∈ grams n w := by
  have key : ∀ {w g : List Char}, Clean w → g ∈ grams n w.reverse →
      (g.map swapMark).reverse ∈ grams n w := by
    intro w g hw hg
    obtain ⟨i, hi, rfl⟩ := List.mem_map.1 hg
    rw [List.mem_range, count_reverse] at hi
    rw [gramAt_reverse hw hi, List.map_reverse, List.reverse_reverse, List.map_map]
    have : swapMark ∘ swapMark = id := by funext c; exact swapMark_swapMark c
    rw [this, List.map_id]
    exact List.mem_map_of_mem (List.mem_range.2 (by omega))
  refine ⟨key hw, fun h => ?_⟩
  have h2 := key (w := w.reverse) (clean_reverse hw) (by rwa [List.reverse_reverse])
  rw [List.map_reverse, List.reverse_reverse, List.map_map] at h2
  have : swapMark ∘ swapMark = id := by funext c; exact swapMark_swapMark c
  rwa [this, List.map_id] at h2

/-- Reversal is a symmetry for words without markers. -/
theorem reverse_sym {cs : Bool} {cf : List Char → List Char} {un : Normalizer}
    (hcf : cs = false → ∀ w, cf w.reverse = (cf w).reverse)
    (hun : ∀ g, un = some g → ∀ v : List Char, g v.reverse = (g v).map List.reverse)
    (hcl : ∀ w k, Clean w → keyOf cs cf un w = some k → Clean k) (ns : List ℕ) :
    WordSym (keyOf cs cf un) (score ns) (Candidate ns) {w | Clean w} List.reverse := by
  have htot : ∀ q w : List Char, totalCount ns q.reverse w.reverse = totalCount ns q w := by
    intro q w; unfold totalCount; simp only [count_reverse]
  refine ⟨List.reverse_injective.injOn, fun w _ => List.reverse_eq_nil_iff, ?_,
    fun w hw k hk => hcl w k hw hk, ?_, ?_⟩
  · intro w _
    exact keyOf_sym (fun h => hcf h w) hun fun v => List.mem_reverse
  · intro q hq w hw
    unfold Candidate
    cases filterSize ns with
    | none => simp only [htot]
    | some n =>
      simp only [mem_grams_reverse hq, mem_grams_reverse hw]
      constructor
      · rintro ⟨g, h1, h2⟩
        exact ⟨_, h1, h2⟩
      · rintro ⟨g, h1, h2⟩
        refine ⟨(g.map swapMark).reverse, ?_, ?_⟩ <;>
        · rw [List.map_reverse, List.reverse_reverse, List.map_map]
          have : swapMark ∘ swapMark = id := by funext c; exact swapMark_swapMark c
          rw [this, List.map_id]
          assumption
  · intro q hq w hw
    unfold score
    rw [htot]
    congr 2
    apply List.map_congr_left
    intro n _
    rw [simOf_eq, simOf_eq]
    exact locSim_reverse hq hw

/-- **C180.** The same for reading all words backwards, for words without markers. -/
theorem C180_reverse {cs : Option Bool} {callable : Bool} {sizes : NArg} {st₀ : WS}
    (h : WS.new cs callable sizes = .ok st₀) {cf : List Char → List Char} {un : Normalizer}
    (hcf : st₀.caseSensitive = false → ∀ w, cf w.reverse = (cf w).reverse)
    (hun : ∀ g, un = some g → ∀ v : List Char, g v.reverse = (g v).map List.reverse)
    (hcl : ∀ w k, Clean w → keyOf st₀.caseSensitive cf un w = some k → Clean k)
    (ops : List WSOp) (hops : OpsIn {w | Clean w} ops) :
    st₀.outputs cf un (ops.map (renOp List.reverse)) =
      (st₀.outputs cf un ops).map (renOut List.reverse) := by
  have hr := Rep.new (cf := cf) (un := un) h
  rw [hr.outputs, hr.outputs]
  exact outputs_ren (reverse_sym hcf hun hcl _) ops (s := []) (fun m hm => by cases hm) hops

example : symSet.outputs id none (symOps.map (renOp List.reverse)) =
    (symSet.outputs id none symOps).map (renOut List.reverse) := by
  decide +kernel

example : OpsIn {w | Clean w} symOps := by
  intro op hop w hw
  have : ∀ v ∈ symOps.flatMap opWords, v ∈ ["abba", "abc", "cab", "abb"].map
      (fun s => PyVal.str s.toList) := by decide +kernel
  obtain ⟨s, hs, e⟩ := List.mem_map.1 (this _ (List.mem_flatMap.2 ⟨op, hop, hw⟩))
  injection e with e
  subst e
  have : ∀ s ∈ ["abba", "abc", "cab", "abb"], stx ∉ s.toList ∧ etx ∉ s.toList := by decide +kernel
  exact this s hs

end Verif
