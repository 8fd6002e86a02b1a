import Verif.Trie.Node
import Verif.Trie.Spec

/-!
# Call histories of a trie

`step` runs one call of the public interface on the model; `Inv` is the invariant kept by all of
them. The property theorems are in `Verif.Trie.MapProps`.
-/

namespace Verif
namespace Trie

open TrieSpec

variable {κ τ ν : Type} [DecidableEq τ]

/-- One call on the model. An exception leaves the trie unchanged. -/
def step (tok : κ → List τ) (detok : List τ → κ) (t : Trie τ ν) : Call κ ν → Ret κ ν × Trie τ ν
  | .set k v => (.done, setItem tok t k v)
  | .setdefault k v => (.val (setDefault tok t k v).2, (setDefault tok t k v).1)
  | .pop k =>
    match pop tok t k with
    | .ok (t', k', v) => (.pair k' v, t')
    | .error e => (.err e, t)
  | .popFirst =>
    match popFirst tok detok t with
    | .ok (t', k', v) => (.pair k' v, t')
    | .error e => (.err e, t)
  | .del k =>
    match delItem tok t k with
    | .ok t' => (.done, t')
    | .error e => (.err e, t)
  | .get k =>
    match getItem tok t k with
    | .ok v => (.val v, t)
    | .error e => (.err e, t)
  | .getD k => (.opt (getD tok t k), t)
  | .contains k => (.bool (contains tok t k), t)
  | .len =>
    match len t with
    | .ok n => (.num n, t)
    | .error e => (.err e, t)
  | .items => (.list (items detok t), t)
  | .update ps => (.done, update tok t ps)

/-- The answers to a list of calls. -/
def runCalls (tok : κ → List τ) (detok : List τ → κ) : Trie τ ν → List (Call κ ν) → List (Ret κ ν)
  | _, [] => []
  | t, c :: cs => (step tok detok t c).1 :: runCalls tok detok (step tok detok t c).2 cs

/-- The trie after a list of calls. -/
def afterCalls (tok : κ → List τ) (detok : List τ → κ) (t : Trie τ ν) (cs : List (Call κ ν)) :
    Trie τ ν :=
  cs.foldl (fun t c => (step tok detok t c).2) t

/-- Invariant of all call histories. The root may hold a value, that of the empty key, which
`items` does not see. -/
structure Inv (t : Trie τ ν) : Prop where
  wf : t.root.WF
  len : t.length = (t.root.items.length : Int) + if t.root.val.isSome then 1 else 0

omit [DecidableEq τ] in
theorem inv_new : Inv (new : Trie τ ν) := by
  refine ⟨Node.wf_empty, ?_⟩
  simp [new, Node.items_eq, frameItems]

/-- Number of items after an entry for a non-empty path has changed. -/
theorem items_length_aux {n n' : Node τ ν} (h : n.WF) (h' : n'.WF) {p : List τ} (hp : p ≠ [])
    (hg : ∀ q, q ≠ p → n'.get q = n.get q) (h0 : n.get p = none) {v : ν} (h1 : n'.get p = some v) :
    n'.items.length = n.items.length + 1 := by
  have hnd := (Node.nodup_items h).of_map
  have hnd' := (Node.nodup_items h').of_map
  have hnot : (p, v) ∉ n.items := by
    rw [Node.mem_items h]
    simp [h0]
  have hperm : n'.items.Perm ((p, v) :: n.items) := by
    rw [List.perm_ext_iff_of_nodup hnd' (List.nodup_cons.mpr ⟨hnot, hnd⟩)]
    rintro ⟨q, w⟩
    rw [List.mem_cons, Node.mem_items h', Node.mem_items h]
    by_cases hq : q = p
    · subst hq
      simp [h0, h1, hp, eq_comm]
    · simp [hq, hg q hq]
  simpa using hperm.length_eq

theorem items_length_same {n n' : Node τ ν} (h : n.WF) (h' : n'.WF)
    (hg : ∀ q, q ≠ [] → (n'.get q).isSome = (n.get q).isSome) :
    n'.items.length = n.items.length := by
  have hnd := Node.nodup_items h
  have hnd' := Node.nodup_items h'
  have hperm : (n'.items.map Prod.fst).Perm (n.items.map Prod.fst) := by
    rw [List.perm_ext_iff_of_nodup hnd' hnd]
    intro q
    have e : ∀ {m : Node τ ν}, m.WF → (q ∈ m.items.map Prod.fst ↔ q ≠ [] ∧ (m.get q).isSome) := by
      intro m hm
      rw [List.mem_map]
      constructor
      · rintro ⟨⟨q, v⟩, h, rfl⟩
        have := (Node.mem_items hm _ _).mp h
        exact ⟨this.1, by simp [this.2]⟩
      · rintro ⟨hq, hs⟩
        obtain ⟨v, hv⟩ := Option.isSome_iff_exists.mp hs
        exact ⟨(q, v), (Node.mem_items hm _ _).mpr ⟨hq, hv⟩, rfl⟩
    rw [e h', e h]
    by_cases hq : q = []
    · simp [hq]
    · rw [hg q hq]
  simpa using hperm.length_eq

theorem inv_put {t : Trie τ ν} (h : Inv t) (p : List τ) (v : ν) :
    Inv (⟨t.root.put v p, if (t.root.get p).isNone then t.length + 1 else t.length⟩ : Trie τ ν) := by
  have hwf := Node.put_wf v h.wf p
  refine ⟨hwf, ?_⟩
  simp only
  have hval : (t.root.put v p).val = if p = [] then some v else t.root.val := by
    have := Node.get_put v t.root p []
    rw [Node.get_nil, Node.get_nil] at this
    rw [this]
    simp [eq_comm]
  rw [hval, h.len]
  by_cases hp : p = []
  · subst hp
    have := items_length_same h.wf hwf (fun q hq => by rw [Node.get_put]; simp [hq])
    rw [this]
    cases hv : t.root.val <;> simp [hv]
  · cases hg : t.root.get p with
    | none =>
      have := items_length_aux h.wf hwf hp (fun q hq => by rw [Node.get_put]; simp [hq]) hg
        (v := v) (by rw [Node.get_put]; simp)
      rw [this]
      simp [hp]
      omega
    | some w =>
      have := items_length_same h.wf hwf (fun q hq => by
        rw [Node.get_put]
        by_cases hqp : q = p
        · simp [hqp, hg]
        · simp [hqp])
      rw [this]
      simp [hp]

theorem inv_setItem (tok : κ → List τ) {t : Trie τ ν} (h : Inv t) (k : κ) (v : ν) :
    Inv (setItem tok t k v) := inv_put h _ _

theorem inv_setDefault (tok : κ → List τ) {t : Trie τ ν} (h : Inv t) (k : κ) (v : ν) :
    Inv (setDefault tok t k v).1 := by
  unfold setDefault
  cases hg : t.root.get (tok k) with
  | some old => exact h
  | none =>
    have := inv_put h (tok k) v
    simpa [hg] using this

theorem pop_ok {tok : κ → List τ} {t t' : Trie τ ν} {k k' : κ} {v : ν}
    (hp : pop tok t k = .ok (t', k', v)) :
    ∃ b, t.root.remove (tok k) = some (v, t'.root, b) ∧ t'.length = t.length - 1 ∧ k' = k := by
  unfold pop at hp
  split at hp
  · simp at hp
  · cases hr : t.root.remove (tok k) with
    | none => simp [hr] at hp
    | some r =>
      obtain ⟨v', r', b⟩ := r
      simp only [hr, Except.ok.injEq, Prod.mk.injEq] at hp
      obtain ⟨rfl, rfl, rfl⟩ := hp
      exact ⟨b, rfl, rfl, rfl⟩

theorem inv_pop {tok : κ → List τ} {t t' : Trie τ ν} (h : Inv t) {k k' : κ} {v : ν}
    (hp : pop tok t k = .ok (t', k', v)) : Inv t' := by
  obtain ⟨b, hr, hl, -⟩ := pop_ok hp
  have hwf := Node.remove_wf h.wf hr
  refine ⟨hwf, ?_⟩
  have hgr := Node.get_remove hr
  have hval := hgr []
  rw [Node.get_nil, Node.get_nil] at hval
  rw [hl, h.len, hval]
  by_cases hpn : tok k = []
  · have := items_length_same h.wf hwf (fun q hq => by rw [hgr q]; simp [hq, hpn])
    rw [this]
    have hv := Node.remove_val hr
    rw [hpn, Node.get_nil] at hv
    simp [hpn, hv]
  · have := items_length_aux hwf h.wf hpn (fun q hq => by rw [hgr q]; simp [hq])
      (by rw [hgr]; simp) (Node.remove_val hr)
    rw [this]
    have : ¬ ([] = tok k) := fun h => hpn h.symm
    simp [this]
    omega

theorem inv_update (tok : κ → List τ) (ps : List (κ × ν)) {t : Trie τ ν} (h : Inv t) :
    Inv (update tok t ps) := by
  unfold update
  induction ps generalizing t with
  | nil => exact h
  | cons p ps ih => exact ih (inv_setItem tok h _ _)

theorem inv_step (tok : κ → List τ) (detok : List τ → κ) {t : Trie τ ν} (h : Inv t)
    (c : Call κ ν) : Inv (step tok detok t c).2 := by
  cases c with
  | set k v => exact inv_setItem tok h k v
  | setdefault k v => exact inv_setDefault tok h k v
  | pop k =>
    simp only [step]
    cases hp : pop tok t k with
    | error e => exact h
    | ok r => obtain ⟨t', k', v⟩ := r; exact inv_pop h hp
  | popFirst =>
    simp only [step]
    cases hp : popFirst tok detok t with
    | error e => exact h
    | ok r =>
      obtain ⟨t', k', v⟩ := r
      unfold popFirst at hp
      split at hp
      · simp at hp
      · split at hp
        · simp at hp
        · exact inv_pop h hp
  | del k =>
    simp only [step, delItem]
    cases hp : pop tok t k with
    | error e => exact h
    | ok r => obtain ⟨t', k', v⟩ := r; exact inv_pop h hp
  | get k => simp only [step]; cases getItem tok t k <;> exact h
  | getD k => exact h
  | contains k => exact h
  | len => simp only [step]; cases len t <;> exact h
  | items => exact h
  | update ps => exact inv_update tok ps h

theorem inv_afterCalls (tok : κ → List τ) (detok : List τ → κ) (cs : List (Call κ ν))
    {t : Trie τ ν} (h : Inv t) : Inv (afterCalls tok detok t cs) := by
  unfold afterCalls
  induction cs generalizing t with
  | nil => exact h
  | cons c cs ih => exact ih (inv_step tok detok h c)

/-! ### Answers in terms of `Node.get` -/

theorem contains_eq (tok : κ → List τ) (t : Trie τ ν) (k : κ) :
    contains tok t k = (t.root.get (tok k)).isSome := by
  unfold contains Node.get
  cases t.root.walk (tok k) <;> simp

theorem getItem_eq (tok : κ → List τ) (t : Trie τ ν) (k : κ) :
    getItem tok t k = match t.root.get (tok k) with
      | some v => .ok v
      | none => .error .keyError := by
  unfold getItem Node.get
  cases t.root.walk (tok k) with
  | none => simp
  | some n => cases hv : n.val <;> simp [hv]

theorem getD_eq (tok : κ → List τ) (t : Trie τ ν) (k : κ) :
    getD tok t k = t.root.get (tok k) := by
  unfold getD
  rw [getItem_eq]
  cases t.root.get (tok k) <;> rfl

theorem kids_ne_nil_of_get {n : Node τ ν} {p : List τ} (hp : p ≠ []) {v : ν}
    (h : n.get p = some v) : n.kids ≠ [] := by
  intro hk
  cases p with
  | nil => exact hp rfl
  | cons t ts => simp [Node.get_cons, hk] at h

/-- `pop` on a key whose token sequence is not empty. -/
theorem pop_cases (tok : κ → List τ) (t : Trie τ ν) (k : κ) (hk : tok k ≠ []) :
    (∃ t' v, pop tok t k = .ok (t', k, v) ∧ t.root.get (tok k) = some v ∧
      ∀ q, t'.root.get q = if q = tok k then none else t.root.get q) ∨
    (pop tok t k = .error .keyError ∧ t.root.get (tok k) = none) := by
  cases hr : t.root.remove (tok k) with
  | none =>
    right
    refine ⟨?_, (Node.remove_none_iff _ _).mp hr⟩
    unfold pop
    simp [hr]
  | some r =>
    obtain ⟨v, r', b⟩ := r
    left
    have hv := Node.remove_val hr
    refine ⟨⟨r', t.length - 1⟩, v, ?_, hv, Node.get_remove hr⟩
    unfold pop
    simp [hr, kids_ne_nil_of_get hk hv]

theorem popFirst_cases (tok : κ → List τ) (detok : List τ → κ) {t : Trie τ ν} (h : Inv t)
    (hrt : ∀ p v, t.root.get p = some v → tok (detok p) = p) :
    (∃ t' p v, popFirst tok detok t = .ok (t', detok p, v) ∧ p ≠ [] ∧ t.root.get p = some v ∧
      (∀ q, t'.root.get q = if q = p then none else t.root.get q) ∧
      t.root.items.head? = some (p, v)) ∨
    (popFirst tok detok t = .error .keyError ∧ ∀ p, p ≠ [] → t.root.get p = none) := by
  unfold popFirst
  by_cases hk : t.root.kids = []
  · right
    refine ⟨by simp [hk], ?_⟩
    intro p hp
    cases p with
    | nil => exact absurd rfl hp
    | cons x xs => simp [Node.get_cons, hk]
  · left
    have hne : t.root.items ≠ [] := by
      rw [Node.items_eq]
      exact Node.frameItems_ne_nil _ _ (fun k c hm => h.wf.child (List.mem_reverse.mp hm))
        (fun k c hm => h.wf.live (List.mem_reverse.mp hm)) (by simpa using hk)
    cases hi : t.root.items with
    | nil => exact absurd hi hne
    | cons x xs =>
      obtain ⟨p, v⟩ := x
      have hm : (p, v) ∈ t.root.items := by rw [hi]; simp
      obtain ⟨hp, hg⟩ := (Node.mem_items h.wf _ _).mp hm
      have hpk : tok (detok p) ≠ [] := by rw [hrt p v hg]; exact hp
      rcases pop_cases tok t (detok p) hpk with ⟨t', w, h1, h2, h3⟩ | ⟨_, h2⟩
      · rw [hrt p v hg] at h2 h3
        have : v = w := by rw [hg] at h2; simpa using h2
        subst this
        refine ⟨t', p, v, ?_, hp, hg, h3, by simp⟩
        simp [hk, items, hi, h1]
      · rw [hrt p v hg, hg] at h2
        simp at h2

end Trie
end Verif
