import Verif.WordSet.Rank

/-!
# `WordSet` refines an abstract insertion-ordered set

`WSOp` lists the calls of the public interface. `WS.step` is the model; `absStep` is the
specification: it manipulates the list of members directly.
-/

namespace Verif

open GramSpec WordSetSpec

/-- Calls of the public interface of `WordSet`. -/
inductive WSOp where
  | add (v : PyVal)
  | discard (v : PyVal)
  | remove (v : PyVal)
  | clear
  | pop
  | ior (vs : List PyVal)
  | isub (vs : List PyVal)
  | contains (v : PyVal)
  | len
  | iter
  | findSimilar (q k : PyVal) (minSim : MinSim)
  | suggest (q k : PyVal)

/-- What the caller observes. -/
inductive WSOut where
  | unit (r : Except PyErr Unit)
  | bool (r : Except PyErr Bool)
  | word (r : Except PyErr (List Char))
  | nat (n : ℕ)
  | words (ws : List (List Char))
  | found (r : Except PyErr (List (List Char × ℚ)))
  | names (r : Except PyErr (List (List Char)))

/-- One call on the modelled object (the methods cited in `Verif.WordSet.Model`). -/
def WS.step (cf : List Char → List Char) (un : Normalizer) (st : WS) : WSOp → WS × WSOut
  | .add v => ((st.add cf un v).1, .unit (st.add cf un v).2)
  | .discard v => ((st.discard cf un v).1, .unit (st.discard cf un v).2)
  | .remove v => ((st.remove cf un v).1, .unit (st.remove cf un v).2)
  | .clear => (st.clear, .unit (.ok ()))
  | .pop => ((st.pop cf un).1, .word (st.pop cf un).2)
  | .ior vs => ((st.ior cf un vs).1, .unit (st.ior cf un vs).2)
  | .isub vs => ((st.isub cf un vs).1, .unit (st.isub cf un vs).2)
  | .contains v => (st, .bool (st.contains cf un v))
  | .len => (st, .nat st.len)
  | .iter => (st, .words st.iter)
  | .findSimilar q k ms => (st, .found (st.findSimilar cf un q k ms))
  | .suggest q k => (st, .names (st.suggest cf un q k))

/-- State after a sequence of calls. -/
def WS.run (cf : List Char → List Char) (un : Normalizer) (st : WS) (ops : List WSOp) : WS :=
  ops.foldl (fun st op => (st.step cf un op).1) st

/-- Observations made by a sequence of calls. -/
def WS.outputs (cf : List Char → List Char) (un : Normalizer) : WS → List WSOp → List WSOut
  | _, [] => []
  | st, op :: ops => (st.step cf un op).2 :: WS.outputs cf un (st.step cf un op).1 ops

/-! ### Specification -/

/-- Specification of `add`: `key` is the normalisation. -/
def absAdd (key : List Char → Option (List Char)) (s : List Member) (v : PyVal) :
    List Member × Except PyErr Unit :=
  match v with
  | .str w =>
    match w, key w with
    | [], _ => (s, .error .valueError)
    | _, none => (s, .error .valueError)
    | _, some [] => (s, .error .valueError)
    | _, some k => (WordSetSpec.insert s ⟨k, w⟩, .ok ())
  | _ => (s, .error .typeError)

/-- Specification of `discard`. -/
def absDiscard (key : List Char → Option (List Char)) (s : List Member) (v : PyVal) :
    List Member × Except PyErr Unit :=
  match v with
  | .str w =>
    match key w with
    | none => (s, .error .valueError)
    | some k => (delete s k, .ok ())
  | _ => (s, .error .typeError)

/-- Specification of `remove`. -/
def absRemove (key : List Char → Option (List Char)) (s : List Member) (v : PyVal) :
    List Member × Except PyErr Unit :=
  match v with
  | .str w =>
    match key w with
    | none => (s, .error .valueError)
    | some k => if Mem s k then (delete s k, .ok ()) else (s, .error .keyError)
  | _ => (s, .error .typeError)

/-- Specification of `pop`: the earliest member. -/
def absPop : List Member → List Member × Except PyErr (List Char)
  | [] => ([], .error .keyError)
  | m :: s => (s, .ok m.orig)

/-- Specification of the loops `|=` and `-=`. -/
def absForEach (f : List Member → PyVal → List Member × Except PyErr Unit) :
    List Member → List PyVal → List Member × Except PyErr Unit
  | s, [] => (s, .ok ())
  | s, v :: vs =>
    match f s v with
    | (s, .ok _) => absForEach f s vs
    | (s, .error e) => (s, .error e)

/-- Specification of `in`. -/
def absContains (key : List Char → Option (List Char)) (s : List Member) (v : PyVal) :
    Except PyErr Bool :=
  match v with
  | .str w =>
    match key w with
    | none => .error .valueError
    | some k => .ok (decide (Mem s k))
  | _ => .ok false

instance (ms : MinSim) : Decidable (∃ x, ms = .num x ∧ ¬ (0 ≤ x ∧ x ≤ 1)) :=
  match ms with
  | .none => .isFalse (by rintro ⟨x, h, _⟩; cases h)
  | .bad => .isFalse (by rintro ⟨x, h, _⟩; cases h)
  | .num y =>
    if hy : 0 ≤ y ∧ y ≤ 1 then .isFalse (by rintro ⟨x, h, hx⟩; injection h with h; subst h; exact hx hy)
    else .isTrue ⟨y, rfl, hy⟩

/-- Specification of `find_similar`. -/
def absFind (key : List Char → Option (List Char)) (ns : List ℕ) (s : List Member) (q k : PyVal)
    (ms : MinSim) : Except PyErr (List (List Char × ℚ)) :=
  match q, k with
  | .str q, .int k =>
    if k ≤ 0 ∨ ms = .bad ∨ (∃ x, ms = .num x ∧ ¬ (0 ≤ x ∧ x ≤ 1)) then .error .valueError
    else if q = [] ∨ s = [] then .ok []
    else
      match key q with
      | none => .error .valueError
      | some nq =>
        if nq = [] then .ok []
        else .ok ((ranked ns nq s k.toNat).map (fun m => (m.orig, score ns nq m.key)))
  | .str _, _ => .error .valueError
  | _, _ => .error .typeError

/-- One call on the specification. -/
def absStep (key : List Char → Option (List Char)) (ns : List ℕ) (s : List Member) :
    WSOp → List Member × WSOut
  | .add v => ((absAdd key s v).1, .unit (absAdd key s v).2)
  | .discard v => ((absDiscard key s v).1, .unit (absDiscard key s v).2)
  | .remove v => ((absRemove key s v).1, .unit (absRemove key s v).2)
  | .clear => ([], .unit (.ok ()))
  | .pop => ((absPop s).1, .word (absPop s).2)
  | .ior vs => ((absForEach (absAdd key) s vs).1, .unit (absForEach (absAdd key) s vs).2)
  | .isub vs => ((absForEach (absDiscard key) s vs).1, .unit (absForEach (absDiscard key) s vs).2)
  | .contains v => (s, .bool (absContains key s v))
  | .len => (s, .nat s.length)
  | .iter => (s, .words (s.map Member.orig))
  | .findSimilar q k ms => (s, .found (absFind key ns s q k ms))
  | .suggest q k => (s, .names ((absFind key ns s q k .none).map (List.map Prod.fst)))

/-- Observations made by a sequence of calls on the specification. -/
def absOutputs (key : List Char → Option (List Char)) (ns : List ℕ) :
    List Member → List WSOp → List WSOut
  | _, [] => []
  | s, op :: ops => (absStep key ns s op).2 :: absOutputs key ns (absStep key ns s op).1 ops

/-- Members after a sequence of calls on the specification. -/
def absRun (key : List Char → Option (List Char)) (ns : List ℕ) (s : List Member)
    (ops : List WSOp) : List Member := ops.foldl (fun s op => (absStep key ns s op).1) s

/-! ### Refinement -/

variable {cf : List Char → List Char} {un : Normalizer}

/-- The configuration does not change. -/
def SameConfig (st st' : WS) : Prop :=
  st'.caseSensitive = st.caseSensitive ∧ st'.nList = st.nList ∧ st'.filterN = st.filterN

theorem SameConfig.refl (st : WS) : SameConfig st st := ⟨rfl, rfl, rfl⟩

theorem SameConfig.trans {a b c : WS} (h : SameConfig a b) (h' : SameConfig b c) :
    SameConfig a c := ⟨h'.1.trans h.1, h'.2.1.trans h.2.1, h'.2.2.trans h.2.2⟩

/-- The state represents the members `s`. -/
def Rep (cf : List Char → List Char) (un : Normalizer) (st : WS) (s : List Member) : Prop :=
  ∃ E, WSRep cf un st E ∧ E.map (fun e => e.m) = s

/-- The normalisation used by a state. -/
def WS.key (cf : List Char → List Char) (un : Normalizer) (st : WS) :
    List Char → Option (List Char) := keyOf st.caseSensitive cf un

theorem SameConfig.key {st st' : WS} (h : SameConfig st st') : st'.key cf un = st.key cf un := by
  unfold WS.key; rw [h.1]

theorem Rep.nodup {st : WS} {s : List Member} (h : Rep cf un st s) :
    (s.map Member.key).Nodup := by
  obtain ⟨E, h, rfl⟩ := h
  rw [List.map_map]; exact h.nodup

theorem Rep.keys {st : WS} {s : List Member} (h : Rep cf un st s) :
    ∀ m ∈ s, st.key cf un m.orig = some m.key ∧ m.key ≠ [] := by
  obtain ⟨E, h, rfl⟩ := h
  intro m hm
  obtain ⟨e, he, rfl⟩ := List.mem_map.1 hm
  exact h.keys e he

theorem Rep.add {st : WS} {s : List Member} (h : Rep cf un st s) (v : PyVal) :
    Rep cf un (st.add cf un v).1 (absAdd (st.key cf un) s v).1 ∧
    (st.add cf un v).2 = (absAdd (st.key cf un) s v).2 ∧ SameConfig st (st.add cf un v).1 := by
  cases v with
  | int i => exact ⟨h, rfl, SameConfig.refl _⟩
  | other => exact ⟨h, rfl, SameConfig.refl _⟩
  | str w =>
    cases w with
    | nil => exact ⟨h, rfl, SameConfig.refl _⟩
    | cons c w =>
      cases hk : st.key cf un (c :: w) with
      | none =>
        have e : st.add cf un (.str (c :: w)) = (st, .error .valueError) := by
          unfold WS.key at hk
          simp [WS.add, normalizeWord_eq, hk]
        have e' : absAdd (st.key cf un) s (.str (c :: w)) = (s, .error .valueError) := by
          simp [absAdd, hk]
        rw [e, e']; exact ⟨h, rfl, SameConfig.refl _⟩
      | some k =>
        cases k with
        | nil =>
          have e : st.add cf un (.str (c :: w)) = (st, .error .valueError) := by
            unfold WS.key at hk
            simp [WS.add, normalizeWord_eq, hk]
          have e' : absAdd (st.key cf un) s (.str (c :: w)) = (s, .error .valueError) := by
            simp [absAdd, hk]
          rw [e, e']; exact ⟨h, rfl, SameConfig.refl _⟩
        | cons d k =>
          have e' : absAdd (st.key cf un) s (.str (c :: w)) =
              (WordSetSpec.insert s ⟨d :: k, c :: w⟩, .ok ()) := by simp [absAdd, hk]
          rw [e']
          obtain ⟨E, hE, rfl⟩ := h
          by_cases hm : Mem (E.map (fun e => e.m)) (d :: k)
          · have e : st.add cf un (.str (c :: w)) = (st, .ok ()) := by
              unfold WS.key at hk
              simp [WS.add, normalizeWord_eq, hk, (mem_vocab hE (d :: k)).2 hm]
            rw [e]
            refine ⟨⟨E, hE, ?_⟩, rfl, SameConfig.refl _⟩
            unfold WordSetSpec.insert; rw [if_pos hm]
          · obtain ⟨h1, h2⟩ := hE.add_new (by simp) hk (by simp) hm
            refine ⟨⟨_, h2, ?_⟩, h1, ?_⟩
            · unfold WordSetSpec.insert; rw [if_neg hm]; simp
            · unfold WS.key at hk
              have hv : ¬ Dict.has st.vocab (d :: k) = true := fun hc => hm ((mem_vocab hE _).1 hc)
              simp [WS.add, normalizeWord_eq, hk, hv, SameConfig]

theorem Rep.discard {st : WS} {s : List Member} (h : Rep cf un st s) (v : PyVal) :
    Rep cf un (st.discard cf un v).1 (absDiscard (st.key cf un) s v).1 ∧
    (st.discard cf un v).2 = (absDiscard (st.key cf un) s v).2 ∧
    SameConfig st (st.discard cf un v).1 := by
  cases v with
  | int i => exact ⟨h, rfl, SameConfig.refl _⟩
  | other => exact ⟨h, rfl, SameConfig.refl _⟩
  | str w =>
    cases hk : st.key cf un w with
    | none =>
      have e : st.discard cf un (.str w) = (st, .error .valueError) := by
        unfold WS.key at hk
        simp [WS.discard, normalizeWord_eq, hk]
      have e' : absDiscard (st.key cf un) s (.str w) = (s, .error .valueError) := by
        simp [absDiscard, hk]
      rw [e, e']; exact ⟨h, rfl, SameConfig.refl _⟩
    | some k =>
      have e' : absDiscard (st.key cf un) s (.str w) = (delete s k, .ok ()) := by
        simp [absDiscard, hk]
      rw [e']
      obtain ⟨E, hE, rfl⟩ := h
      by_cases hm : Mem (E.map (fun e => e.m)) k
      · obtain ⟨h1, h2, h3⟩ := hE.discard_present hk hm
        refine ⟨⟨_, h2, ?_⟩, h1, h3⟩
        unfold WordSetSpec.delete
        rw [List.filter_map]; rfl
      · have hg : Dict.get? st.vocab k = none := by
          rw [Dict.get?_eq_none]
          intro hc
          exact hm ((mem_vocab hE k).1 (Dict.has_iff.2 hc))
        have e : st.discard cf un (.str w) = (st, .ok ()) := by
          unfold WS.key at hk
          simp [WS.discard, normalizeWord_eq, hk, hg]
        rw [e]
        refine ⟨⟨E, hE, ?_⟩, rfl, SameConfig.refl _⟩
        unfold WordSetSpec.delete
        rw [eq_comm, List.filter_eq_self]
        intro m hmm
        simp only [ne_eq, decide_not, Bool.not_eq_true', decide_eq_false_iff_not]
        exact fun hc => hm ⟨m, hmm, hc⟩

theorem Rep.remove {st : WS} {s : List Member} (h : Rep cf un st s) (v : PyVal) :
    Rep cf un (st.remove cf un v).1 (absRemove (st.key cf un) s v).1 ∧
    (st.remove cf un v).2 = (absRemove (st.key cf un) s v).2 ∧
    SameConfig st (st.remove cf un v).1 := by
  cases v with
  | int i => exact ⟨h, rfl, SameConfig.refl _⟩
  | other => exact ⟨h, rfl, SameConfig.refl _⟩
  | str w =>
    cases hk : st.key cf un w with
    | none =>
      have e : st.remove cf un (.str w) = (st, .error .valueError) := by
        unfold WS.key at hk
        simp [WS.remove, normalizeWord_eq, hk]
      have e' : absRemove (st.key cf un) s (.str w) = (s, .error .valueError) := by
        simp [absRemove, hk]
      rw [e, e']; exact ⟨h, rfl, SameConfig.refl _⟩
    | some k =>
      have hv : Dict.has st.vocab k = true ↔ Mem s k := by
        obtain ⟨E, hE, rfl⟩ := h
        exact mem_vocab hE k
      by_cases hm : Mem s k
      · have e : st.remove cf un (.str w) = st.discard cf un (.str w) := by
          unfold WS.key at hk
          simp [WS.remove, normalizeWord_eq, hk, hv.2 hm]
        have e' : absRemove (st.key cf un) s (.str w) = absDiscard (st.key cf un) s (.str w) := by
          simp [absRemove, absDiscard, hk, hm]
        rw [e, e']; exact h.discard _
      · have e : st.remove cf un (.str w) = (st, .error .keyError) := by
          unfold WS.key at hk
          simp [WS.remove, normalizeWord_eq, hk, mt hv.1 hm]
        have e' : absRemove (st.key cf un) s (.str w) = (s, .error .keyError) := by
          simp [absRemove, hk, hm]
        rw [e, e']; exact ⟨h, rfl, SameConfig.refl _⟩

theorem Rep.iter {st : WS} {s : List Member} (h : Rep cf un st s) :
    st.iter = s.map Member.orig := by
  obtain ⟨E, hE, rfl⟩ := h
  unfold WS.iter Dict.values
  rw [hE.originals, List.map_map, List.map_map]; rfl

theorem Rep.len {st : WS} {s : List Member} (h : Rep cf un st s) : st.len = s.length := by
  obtain ⟨E, hE, rfl⟩ := h
  unfold WS.len
  rw [hE.vocab, List.length_map, List.length_map]

theorem Rep.pop {st : WS} {s : List Member} (h : Rep cf un st s) :
    Rep cf un (st.pop cf un).1 (absPop s).1 ∧ (st.pop cf un).2 = (absPop s).2 ∧
    SameConfig st (st.pop cf un).1 := by
  unfold WS.pop
  rw [h.iter]
  cases s with
  | nil => exact ⟨h, rfl, SameConfig.refl _⟩
  | cons m s =>
    obtain ⟨h1, h2, h3⟩ := h.discard (.str m.orig)
    have hk := (h.keys m List.mem_cons_self).1
    have e' : absDiscard (st.key cf un) (m :: s) (.str m.orig) = (s, .ok ()) := by
      have hn := h.nodup
      rw [List.map_cons, List.nodup_cons] at hn
      simp only [absDiscard, hk, WordSetSpec.delete]
      rw [List.filter_cons_of_neg (by simp), List.filter_eq_self.2]
      intro x hx
      simp only [ne_eq, decide_not, Bool.not_eq_true', decide_eq_false_iff_not]
      exact fun hc => hn.1 (hc ▸ List.mem_map.2 ⟨x, hx, rfl⟩)
    rw [e'] at h1 h2
    simp only [List.map_cons]
    cases hd : st.discard cf un (.str m.orig) with
    | mk st' r =>
      rw [hd] at h1 h2 h3
      simp only at h2
      subst h2
      exact ⟨h1, rfl, h3⟩

theorem Rep.forEach {f : WS → PyVal → WS × Except PyErr Unit}
    {g : List Member → PyVal → List Member × Except PyErr Unit} {st : WS}
    (hfg : ∀ st' s v, SameConfig st st' → Rep cf un st' s →
      Rep cf un (f st' v).1 (g s v).1 ∧ (f st' v).2 = (g s v).2 ∧ SameConfig st' (f st' v).1)
    {st' : WS} (hc : SameConfig st st') {s : List Member} (h : Rep cf un st' s) (vs : List PyVal) :
    Rep cf un (WS.forEach f st' vs).1 (absForEach g s vs).1 ∧
    (WS.forEach f st' vs).2 = (absForEach g s vs).2 ∧
    SameConfig st' (WS.forEach f st' vs).1 := by
  induction vs generalizing st' s with
  | nil => exact ⟨h, rfl, SameConfig.refl _⟩
  | cons v vs ih =>
    obtain ⟨h1, h2, h3⟩ := hfg st' s v hc h
    unfold WS.forEach absForEach
    cases hf : f st' v with
    | mk st'' r =>
      cases hg : g s v with
      | mk s'' r' =>
        rw [hf, hg] at h1 h2
        rw [hf] at h3
        simp only at h1 h2 h3
        subst h2
        cases r with
        | error e => exact ⟨h1, rfl, h3⟩
        | ok u =>
          obtain ⟨h4, h5, h6⟩ := ih (hc.trans h3) h1
          exact ⟨h4, h5, h3.trans h6⟩

theorem accepted_iff (ms : MinSim) :
    ms.accepted = true ↔ ¬ (ms = .bad ∨ ∃ x, ms = .num x ∧ ¬ (0 ≤ x ∧ x ≤ 1)) := by
  cases ms with
  | none => simp [MinSim.accepted]
  | num x => simp [MinSim.accepted]
  | bad => simp [MinSim.accepted]

theorem Rep.findSimilar {st : WS} {s : List Member} (h : Rep cf un st s) (q k : PyVal)
    (ms : MinSim) :
    st.findSimilar cf un q k ms =
      absFind (st.key cf un) (st.nList.map Int.toNat) s q k ms := by
  cases q with
  | int i => cases k <;> rfl
  | other => cases k <;> rfl
  | str q =>
    cases k with
    | str w => rfl
    | other => rfl
    | int k =>
      obtain ⟨E, hE, rfl⟩ := h
      by_cases hk : k ≤ 0
      · simp [WS.findSimilar, absFind, hk]
      · by_cases ha : ms.accepted = true
        · rw [findSimilar_eq hE (not_le.1 hk) ha]
          have := (accepted_iff ms).1 ha
          unfold absFind WS.key
          simp only
          have hn : ¬ (k ≤ 0 ∨ ms = .bad ∨ ∃ x, ms = .num x ∧ ¬ (0 ≤ x ∧ x ≤ 1)) := by
            rw [not_or]; exact ⟨hk, this⟩
          rw [if_neg hn]
          by_cases hq : q = [] ∨ E = []
          · rw [if_pos hq, if_pos (by rwa [List.map_eq_nil_iff])]
          · rw [if_neg hq, if_neg (by rwa [List.map_eq_nil_iff])]
            all_goals (cases keyOf st.caseSensitive cf un q <;> rfl)
        · have hn := not_not.1 (mt (accepted_iff ms).2 ha)
          rw [Bool.not_eq_true] at ha
          unfold absFind WS.findSimilar
          simp only [if_neg hk, ha]
          rw [if_pos (Or.inr hn)]

theorem Rep.step {st : WS} {s : List Member} (h : Rep cf un st s) (op : WSOp) :
    Rep cf un (st.step cf un op).1 (absStep (st.key cf un) (st.nList.map Int.toNat) s op).1 ∧
    (st.step cf un op).2 = (absStep (st.key cf un) (st.nList.map Int.toNat) s op).2 ∧
    SameConfig st (st.step cf un op).1 := by
  cases op with
  | add v =>
    obtain ⟨h1, h2, h3⟩ := h.add v
    exact ⟨h1, by simp only [WS.step, absStep, h2], h3⟩
  | discard v =>
    obtain ⟨h1, h2, h3⟩ := h.discard v
    exact ⟨h1, by simp only [WS.step, absStep, h2], h3⟩
  | remove v =>
    obtain ⟨h1, h2, h3⟩ := h.remove v
    exact ⟨h1, by simp only [WS.step, absStep, h2], h3⟩
  | clear =>
    obtain ⟨E, hE, rfl⟩ := h
    exact ⟨⟨[], hE.clear, rfl⟩, rfl, SameConfig.refl _⟩
  | pop =>
    obtain ⟨h1, h2, h3⟩ := h.pop
    exact ⟨h1, by simp only [WS.step, absStep, h2], h3⟩
  | ior vs =>
    obtain ⟨h1, h2, h3⟩ := Rep.forEach (f := WS.add cf un) (g := absAdd (st.key cf un)) (st := st)
      (fun st' s v hc hr => by rw [← hc.key]; exact hr.add v) (SameConfig.refl _) h vs
    exact ⟨h1, by simp only [WS.step, absStep, WS.ior, h2], h3⟩
  | isub vs =>
    obtain ⟨h1, h2, h3⟩ := Rep.forEach (f := WS.discard cf un) (g := absDiscard (st.key cf un))
      (st := st) (fun st' s v hc hr => by rw [← hc.key]; exact hr.discard v)
      (SameConfig.refl _) h vs
    exact ⟨h1, by simp only [WS.step, absStep, WS.isub, h2], h3⟩
  | contains v =>
    refine ⟨h, ?_, SameConfig.refl _⟩
    simp only [WS.step, absStep]
    cases v with
    | int i => rfl
    | other => rfl
    | str w =>
      simp only [WS.contains, absContains, normalizeWord_eq, WS.key]
      cases hk : keyOf st.caseSensitive cf un w with
      | none => rfl
      | some k =>
        simp only
        obtain ⟨E, hE, rfl⟩ := h
        congr 2
        rw [Bool.eq_iff_iff, mem_vocab hE, decide_eq_true_eq]
  | len => exact ⟨h, by simp only [WS.step, absStep, h.len], SameConfig.refl _⟩
  | iter => exact ⟨h, by simp only [WS.step, absStep, h.iter], SameConfig.refl _⟩
  | findSimilar q k ms =>
    exact ⟨h, by simp only [WS.step, absStep, h.findSimilar], SameConfig.refl _⟩
  | suggest q k =>
    refine ⟨h, ?_, SameConfig.refl _⟩
    simp only [WS.step, absStep, WS.suggest, h.findSimilar]
    cases absFind (st.key cf un) (st.nList.map Int.toNat) s q k .none <;> rfl

theorem Rep.run {st : WS} {s : List Member} (h : Rep cf un st s) (ops : List WSOp) :
    Rep cf un (st.run cf un ops) (absRun (st.key cf un) (st.nList.map Int.toNat) s ops) ∧
    SameConfig st (st.run cf un ops) := by
  induction ops generalizing st s with
  | nil => exact ⟨h, SameConfig.refl _⟩
  | cons op ops ih =>
    obtain ⟨h1, _, h3⟩ := h.step op
    obtain ⟨h4, h5⟩ := ih h1
    rw [h3.key, h3.2.1] at h4
    exact ⟨h4, h3.trans h5⟩

theorem Rep.outputs {st : WS} {s : List Member} (h : Rep cf un st s) (ops : List WSOp) :
    st.outputs cf un ops = absOutputs (st.key cf un) (st.nList.map Int.toNat) s ops := by
  induction ops generalizing st s with
  | nil => rfl
  | cons op ops ih =>
    obtain ⟨h1, h2, h3⟩ := h.step op
    unfold WS.outputs absOutputs
    rw [h2, ih h1, h3.key, h3.2.1]

theorem Rep.new {cs : Option Bool} {cb : Bool} {sizes : NArg} {st : WS}
    (h : WS.new cs cb sizes = .ok st) : Rep cf un st [] := ⟨[], WSRep.new h, rfl⟩

end Verif
