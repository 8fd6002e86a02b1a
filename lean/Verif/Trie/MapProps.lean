import Verif.Trie.State
import Mathlib.Data.Set.Card

/-!
# `Trie` as a mapping: properties C52–C56

The specification is in `Verif.Trie.Spec`.
-/

namespace Verif
namespace Trie

open TrieSpec

variable {κ τ ν : Type} [DecidableEq τ]

/-- Evaluates calls on concrete tries. -/
local macro "trie_eval" : tactic =>
  `(tactic| simp [runCalls, afterCalls, step, setItem, setDefault, pop, popFirst, delItem, getItem,
    getD, contains, len, update, items, Node.items, itemsLoop, Node.put, Node.remove, Node.get,
    Node.walk, Node.val, Node.kids, new, Node.empty, Dict.set, Dict.get?, Dict.erase])

/-- Number of items as the size of the support of the mapping. -/
theorem items_length_ncard {n : Node τ ν} (h : n.WF) (h0 : n.val = none) :
    n.items.length = {p | n.get p ≠ none}.ncard := by
  classical
  have hs : {p | n.get p ≠ none} = ((n.items.map Prod.fst).toFinset : Set (List τ)) := by
    ext p
    simp only [Set.mem_ofPred_eq, Finset.mem_coe, List.mem_toFinset, List.mem_map]
    constructor
    · intro hp
      obtain ⟨v, hv⟩ := Option.ne_none_iff_exists'.mp hp
      refine ⟨(p, v), (Node.mem_items h _ _).mpr ⟨?_, hv⟩, rfl⟩
      rintro rfl
      rw [Node.get_nil, h0] at hv
      simp at hv
    · rintro ⟨⟨q, v⟩, hm, rfl⟩
      rw [((Node.mem_items h _ _).mp hm).2]
      simp
  rw [hs, Set.ncard_coe_finset, List.toFinset_card_of_nodup (Node.nodup_items h)]
  simp

/-- Contents of the trie after `update`. -/
theorem get_update (tok : κ → List τ) (ps : List (κ × ν)) (t : Trie τ ν) :
    (update tok t ps).root.get = ps.foldl (fun m x => upd m (tok x.1) (some x.2)) t.root.get := by
  unfold update
  induction ps generalizing t with
  | nil => rfl
  | cons p ps ih =>
    rw [List.foldl_cons, List.foldl_cons, ih]
    congr 1
    funext q
    exact Node.get_put _ _ _ _

/-- Link between the trie and the mapping it stands for, as long as no key without tokens is
used. -/
structure Rel (tok : κ → List τ) (t : Trie τ ν) (m : Map τ ν) : Prop where
  inv : Inv t
  get : t.root.get = m
  keys : ∀ p v, m p = some v → p ≠ [] ∧ ∃ k, p = tok k

theorem keys_upd {tok : κ → List τ} {m : Map τ ν}
    (h : ∀ p v, m p = some v → p ≠ [] ∧ ∃ k, p = tok k) (k : κ) (hk : tok k ≠ []) (x : Option ν) :
    ∀ p v, upd m (tok k) x p = some v → p ≠ [] ∧ ∃ k, p = tok k := by
  intro p v hp
  unfold upd at hp
  split at hp
  · rename_i he; exact ⟨he ▸ hk, k, he⟩
  · exact h p v hp

theorem step_allowed (tok : κ → List τ) (detok : List τ → κ)
    (hrt : ∀ k, tok (detok (tok k)) = tok k) {t : Trie τ ν} {m : Map τ ν} (h : Rel tok t m)
    (c : Call κ ν) (hc : ∀ k ∈ c.keys, tok k ≠ []) :
    ∃ m', Allowed tok detok m c (step tok detok t c).1 m' ∧ Rel tok (step tok detok t c).2 m' := by
  have hinv := inv_step tok detok h.inv c
  have hroot : t.root.val = none := by
    cases hv : t.root.val with
    | none => rfl
    | some v =>
      have : m [] = some v := by rw [← h.get, Node.get_nil, hv]
      exact absurd rfl (h.keys _ _ this).1
  have hpop : ∀ k, tok k ≠ [] →
      (∃ t' v, pop tok t k = .ok (t', k, v) ∧ m (tok k) = some v ∧
        t'.root.get = upd m (tok k) none) ∨
      (pop tok t k = .error .keyError ∧ m (tok k) = none) := by
    intro k hk
    rcases pop_cases tok t k hk with ⟨t', v, h1, h2, h3⟩ | ⟨h1, h2⟩
    · left
      refine ⟨t', v, h1, by rw [← h.get, h2], ?_⟩
      funext q
      rw [h3 q, ← h.get]
      rfl
    · right
      exact ⟨h1, by rw [← h.get, h2]⟩
  cases c with
  | set k v =>
    refine ⟨upd m (tok k) (some v), ⟨rfl, rfl⟩, hinv, ?_, keys_upd h.keys k (hc k (by simp [Call.keys])) _⟩
    funext q
    rw [← h.get]
    exact Node.get_put _ _ _ _
  | setdefault k v =>
    cases hg : t.root.get (tok k) with
    | some old =>
      refine ⟨m, Or.inl ⟨old, by rw [← h.get, hg], ?_, rfl⟩, hinv, ?_, h.keys⟩ <;>
        simp [step, setDefault, hg, h.get]
    | none =>
      refine ⟨upd m (tok k) (some v), Or.inr ⟨by rw [← h.get, hg], ?_, rfl⟩, hinv, ?_,
        keys_upd h.keys k (hc k (by simp [Call.keys])) _⟩
      · simp [step, setDefault, hg]
      · funext q
        simp only [step, setDefault, hg]
        rw [← h.get]
        exact Node.get_put _ _ _ _
  | pop k =>
    rcases hpop k (hc k (by simp [Call.keys])) with ⟨t', v, h1, h2, h3⟩ | ⟨h1, h2⟩
    · refine ⟨upd m (tok k) none, Or.inl ⟨v, h2, ?_, rfl⟩, hinv, ?_,
        keys_upd h.keys k (hc k (by simp [Call.keys])) _⟩ <;> simp [step, h1, h3]
    · refine ⟨m, Or.inr ⟨h2, ?_, rfl⟩, hinv, ?_, h.keys⟩ <;> simp [step, h1, h.get]
  | popFirst =>
    have hrt' : ∀ p v, t.root.get p = some v → tok (detok p) = p := by
      intro p v hp
      rw [h.get] at hp
      obtain ⟨-, k, rfl⟩ := h.keys p v hp
      exact hrt k
    rcases popFirst_cases tok detok h.inv hrt' with ⟨t', p, v, h1, h2, h3, h4, -⟩ | ⟨h1, h2⟩
    · have hmp : m p = some v := by rw [← h.get, h3]
      refine ⟨upd m p none, Or.inl ⟨p, v, hmp, ?_, rfl⟩, hinv, ?_, ?_⟩
      · simp [step, h1]
      · simp only [step, h1]
        funext q
        rw [h4 q, ← h.get]
        rfl
      · obtain ⟨-, k, rfl⟩ := h.keys p v hmp
        exact keys_upd h.keys k h2 _
    · refine ⟨m, Or.inr ⟨?_, ?_, rfl⟩, hinv, ?_, h.keys⟩
      · intro p
        by_cases hp : p = []
        · rw [← h.get, hp, Node.get_nil, hroot]
        · rw [← h.get, h2 p hp]
      · simp [step, h1]
      · simp [step, h1, h.get]
  | del k =>
    rcases hpop k (hc k (by simp [Call.keys])) with ⟨t', v, h1, h2, h3⟩ | ⟨h1, h2⟩
    · refine ⟨upd m (tok k) none, Or.inl ⟨v, h2, ?_, rfl⟩, hinv, ?_,
        keys_upd h.keys k (hc k (by simp [Call.keys])) _⟩ <;> simp [step, delItem, h1, h3]
    · refine ⟨m, Or.inr ⟨h2, ?_, rfl⟩, hinv, ?_, h.keys⟩ <;> simp [step, delItem, h1, h.get]
  | get k =>
    refine ⟨m, ⟨rfl, ?_⟩, hinv, ?_, h.keys⟩
    · simp only [step, getItem_eq, h.get]
      cases m (tok k) <;> simp
    · simp only [step, getItem_eq, h.get]
      cases m (tok k) <;> exact h.get
  | getD k => exact ⟨m, ⟨rfl, by simp [step, getD_eq, h.get]⟩, hinv, h.get, h.keys⟩
  | contains k => exact ⟨m, ⟨rfl, by simp [step, contains_eq, h.get]⟩, hinv, h.get, h.keys⟩
  | len =>
    have hl : len t = .ok (({p | m p ≠ none}.ncard : Nat) : Int) := by
      have hlen := h.inv.len
      rw [hroot, items_length_ncard h.inv.wf hroot, h.get] at hlen
      unfold len
      rw [items_length_ncard h.inv.wf hroot, h.get, hlen]
      simp
    refine ⟨m, ⟨rfl, ?_⟩, hinv, ?_, h.keys⟩ <;> simp [step, hl, h.get]
  | items =>
    refine ⟨m, ⟨rfl, t.root.items, Node.nodup_items h.inv.wf, ?_, rfl⟩, hinv, h.get, h.keys⟩
    intro p v
    rw [Node.mem_items h.inv.wf, h.get]
    exact ⟨fun hp => hp.2, fun hp => ⟨(h.keys p v hp).1, hp⟩⟩
  | update ps =>
    refine ⟨_, ⟨rfl, rfl⟩, hinv, by simp only [step]; rw [get_update, h.get], ?_⟩
    clear hinv hpop
    have hc' : ∀ x ∈ ps, tok x.1 ≠ [] := fun x hx =>
      hc x.1 (List.mem_map.mpr ⟨x, hx, rfl⟩)
    have := h.keys
    clear h hc
    induction ps generalizing m with
    | nil => exact this
    | cons x ps ih =>
      exact ih (fun y hy => hc' y (by simp [hy])) (keys_upd this x.1 (hc' x (by simp)) _)

theorem runCalls_trace (tok : κ → List τ) (detok : List τ → κ)
    (hrt : ∀ k, tok (detok (tok k)) = tok k) (cs : List (Call κ ν))
    (hc : ∀ c ∈ cs, ∀ k ∈ c.keys, tok k ≠ []) {t : Trie τ ν} {m : Map τ ν} (h : Rel tok t m) :
    Trace tok detok m cs (runCalls tok detok t cs) := by
  induction cs generalizing t m with
  | nil => exact Trace.nil m
  | cons c cs ih =>
    obtain ⟨m', ha, hr⟩ := step_allowed tok detok hrt h c (hc c (by simp))
    exact Trace.cons ha (ih (fun c' hc' => hc c' (by simp [hc'])) hr)

/-- **C52.** Every sequence of calls on a fresh `Trie` is answered as a `dict` keyed by the token
sequences of the keys would answer it, provided that no key tokenizes to nothing and that
tokenizing a detokenized key gives its tokens back. -/
theorem C52_trie_refines_map (tok : κ → List τ) (detok : List τ → κ)
    (hrt : ∀ k, tok (detok (tok k)) = tok k) (cs : List (Call κ ν))
    (hc : ∀ c ∈ cs, ∀ k ∈ c.keys, tok k ≠ []) :
    Trace tok detok (fun _ => none) cs (runCalls tok detok new cs) := by
  refine runCalls_trace tok detok hrt cs hc ⟨inv_new, ?_, by simp⟩
  funext p
  exact Node.get_empty p

/-- A history with overwriting, a default, a failing and a succeeding removal. -/
example : runCalls (fun w : List Nat => w) id (new : Trie Nat String)
    [.set [1, 2] "a", .set [1] "b", .set [1, 2] "c", .setdefault [1] "d", .pop [1, 3], .pop [1],
     .contains [1], .contains [1, 2], .get [1, 2], .popFirst, .popFirst, .getD [1, 2]]
    = [.done, .done, .done, .val "b", .err .keyError, .pair [1] "b", .bool false, .bool true,
       .val "c", .pair [1, 2] "c", .err .keyError, .opt none] := by
  trie_eval

/-- The round-trip hypothesis of `C52_trie_refines_map` cannot be dropped: with a tokenizer that
lower-cases one token to something the detokenized text splits differently, `pop()` raises
`KeyError` on a non-empty trie. Here `detok` joins and token 7 is read back as the tokens 3, 4. -/
theorem C52_trie_roundtrip_needed :
    ∃ (tok : List Nat → List Nat) (detok : List Nat → List Nat),
      runCalls tok detok (new : Trie Nat String) [.set [0] "a", .contains [0], .popFirst]
        = [.done, .bool true, .err .keyError] :=
  ⟨fun w => if w = [0] then [7] else if w = [7] then [3, 4] else w, id, by trie_eval⟩

/-- **C53.** After any calls whatsoever, `len(trie)` is the number of keys unless the key without
tokens is stored, in which case it raises `AssertionError`. -/
theorem C53_trie_len (tok : κ → List τ) (detok : List τ → κ) (cs : List (Call κ ν)) (e : κ)
    (he : tok e = []) :
    (contains tok (afterCalls tok detok new cs) e = true →
      len (afterCalls tok detok new cs : Trie τ ν) = .error .assertionError) ∧
    (contains tok (afterCalls tok detok new cs) e = false →
      len (afterCalls tok detok new cs : Trie τ ν) =
        .ok ({p | (afterCalls tok detok new cs : Trie τ ν).root.get p ≠ none}.ncard : Nat)) := by
  have h := inv_afterCalls tok detok cs (inv_new (τ := τ) (ν := ν))
  have hl := h.len
  rw [contains_eq, he, Node.get_nil]
  unfold len
  constructor
  · intro hs
    rw [hs] at hl
    rw [hl]
    simp
  · intro hs
    have hn : (afterCalls tok detok new cs : Trie τ ν).root.val = none := by simpa using hs
    rw [hs] at hl
    rw [← items_length_ncard h.wf hn, hl]
    simp

example : runCalls (fun w : List Nat => w) id (new : Trie Nat String)
    [.set [1, 2] "a", .len, .set [] "b", .contains [], .len, .pop [], .len]
    = [.done, .num 1, .done, .bool true, .err .assertionError, .pair [] "b", .num 1] := by
  trie_eval

/-- **C54.** After any calls, a node exists for a token path exactly when the path is empty or a
prefix of a stored key: removals leave no dead branches behind. -/
theorem C54_trie_no_dead_nodes (tok : κ → List τ) (detok : List τ → κ) (cs : List (Call κ ν))
    (p : List τ) :
    ((afterCalls tok detok new cs : Trie τ ν).root.walk p).isSome = true ↔
      p = [] ∨ ∃ q v, (afterCalls tok detok new cs : Trie τ ν).root.get (p ++ q) = some v := by
  have h := inv_afterCalls tok detok cs (inv_new (τ := τ) (ν := ν))
  generalize (afterCalls tok detok new cs : Trie τ ν) = t at h
  constructor
  · intro hs
    by_cases hp : p = []
    · exact Or.inl hp
    · right
      obtain ⟨m, hm⟩ := Option.isSome_iff_exists.mp hs
      have hmw := Node.walk_wf h.wf hm
      -- the node is live
      have hlive : m.kids ≠ [] ∨ m.val ≠ none := by
        obtain ⟨q, x, rfl⟩ : ∃ q x, p = q ++ [x] :=
          ⟨p.dropLast, p.getLast hp, (List.dropLast_append_getLast hp).symm⟩
        rw [Node.walk_append] at hm
        cases hq : t.root.walk q with
        | none => simp [hq] at hm
        | some n =>
          simp only [hq, Option.bind_some, Node.walk_cons, Node.walk_nil, Option.bind_fun_some]
            at hm
          exact (Node.walk_wf h.wf hq).live (Dict.mem_of_get? hm)
      have hget : ∀ q, t.root.get (p ++ q) = m.get q := by
        intro q
        simp only [Node.get, Node.walk_append, hm, Option.bind_some]
      rcases hlive with hk | hv
      · have hne : m.items ≠ [] := by
          rw [Node.items_eq]
          exact Node.frameItems_ne_nil _ _ (fun k c hm => hmw.child (List.mem_reverse.mp hm))
            (fun k c hm => hmw.live (List.mem_reverse.mp hm)) (by simpa using hk)
        obtain ⟨⟨q, v⟩, hqv⟩ := List.exists_mem_of_ne_nil _ hne
        exact ⟨q, v, by rw [hget]; exact ((Node.mem_items hmw _ _).mp hqv).2⟩
      · obtain ⟨v, hv⟩ := Option.ne_none_iff_exists'.mp hv
        exact ⟨[], v, by rw [hget, Node.get_nil, hv]⟩
  · rintro (rfl | ⟨q, v, hq⟩)
    · simp
    · simp only [Node.get, Node.walk_append] at hq
      cases hw : t.root.walk p with
      | none => simp [hw] at hq
      | some m => rfl

example :
    let t := afterCalls (fun w : List Nat => w) id (new : Trie Nat String)
      [.set [1, 2, 3] "a", .set [1] "b", .del [1, 2, 3]]
    (t.root.walk [1]).isSome = true ∧ (t.root.walk [1, 2]).isSome = false := by
  trie_eval

theorem frameItems_order (path : List τ) (f : List (τ × Node τ ν))
    (hf : ∀ k c, (k, c) ∈ f → Node.WF c) (hn : (f.map Prod.fst).Nodup) :
    (frameItems path f).Pairwise (fun a b => ¬ b.1 <+: a.1) := by
  induction path, f using frameItems.induct with
  | case1 path => simp [frameItems]
  | case2 path k c rest ih1 ih2 =>
    have hc : Node.WF c := hf k c (by simp)
    have hr : ∀ k' c', (k', c') ∈ rest → Node.WF c' := fun k' c' hm => hf k' c' (by simp [hm])
    have hcr : ∀ k' c', (k', c') ∈ c.kids.reverse → Node.WF c' :=
      fun k' c' hm => hc.child (List.mem_reverse.mp hm)
    simp only [List.map_cons, List.nodup_cons] at hn
    have i1 := ih1 hcr (by rw [List.map_reverse, List.nodup_reverse]; exact hc.nodup)
    have i2 := ih2 hr hn.2
    have hd : ∀ a ∈ frameItems (path ++ [k]) c.kids.reverse, ∃ k' q, a.1 = path ++ k :: k' :: q := by
      rintro ⟨p, v⟩ hp
      obtain ⟨k', c', q, _, rfl, _⟩ := (mem_frameItems _ _ hcr _ _).mp hp
      exact ⟨k', q, by simp⟩
    have he : ∀ a ∈ frameItems path rest, ∃ k' q, k' ≠ k ∧ a.1 = path ++ k' :: q := by
      rintro ⟨p, v⟩ hp
      obtain ⟨k', c', q, hm, rfl, _⟩ := (mem_frameItems _ _ hr _ _).mp hp
      refine ⟨k', q, ?_, rfl⟩
      rintro rfl
      exact hn.1 (List.mem_map.mpr ⟨_, hm, rfl⟩)
    rw [frameItems, List.pairwise_append, List.pairwise_append]
    refine ⟨by cases c.val <;> simp, ⟨i1, i2, ?_⟩, ?_⟩
    · intro a ha b hb hpre
      obtain ⟨k', q, h1⟩ := hd a ha
      obtain ⟨k'', q', hne, h2⟩ := he b hb
      rw [h1, h2, List.prefix_append_right_inj, List.cons_prefix_cons] at hpre
      exact hne hpre.1
    · intro a ha b hb hpre
      have h1 : a.1 = path ++ [k] := by
        cases hv : c.val with
        | none => simp [hv] at ha
        | some w => simp only [hv, List.mem_singleton] at ha; rw [ha]
      rcases List.mem_append.mp hb with hb | hb
      · obtain ⟨k', q, h2⟩ := hd b hb
        rw [h1, h2, List.prefix_append_right_inj, List.cons_prefix_cons] at hpre
        simp at hpre
      · obtain ⟨k'', q', hne, h2⟩ := he b hb
        rw [h1, h2, List.prefix_append_right_inj, List.cons_prefix_cons] at hpre
        exact hne hpre.1

/-- **C55.** `items()` yields every key that has at least one token exactly once with its value,
and no key is yielded after one that extends it. -/
theorem C55_trie_items (tok : κ → List τ) (detok : List τ → κ) (cs : List (Call κ ν)) :
    ∃ l : List (List τ × ν),
      items detok (afterCalls tok detok new cs) = l.map (fun x => (detok x.1, x.2)) ∧
      (l.map Prod.fst).Nodup ∧
      (∀ p v, (p, v) ∈ l ↔
        p ≠ [] ∧ (afterCalls tok detok new cs : Trie τ ν).root.get p = some v) ∧
      l.Pairwise (fun a b => ¬ b.1 <+: a.1) := by
  have h := inv_afterCalls tok detok cs (inv_new (τ := τ) (ν := ν))
  refine ⟨_, rfl, Node.nodup_items h.wf, Node.mem_items h.wf, ?_⟩
  rw [Node.items_eq]
  refine frameItems_order _ _ (fun k c hm => h.wf.child (List.mem_reverse.mp hm)) ?_
  rw [List.map_reverse, List.nodup_reverse]
  exact h.wf.nodup

example : runCalls (fun w : List Nat => w) id (new : Trie Nat String)
    [.set [1, 2] "a", .set [5] "b", .set [1] "c", .items]
    = [.done, .done, .done, .list [([5], "b"), ([1], "c"), ([1, 2], "a")]] := by
  trie_eval

theorem rel_afterCalls (tok : κ → List τ) (detok : List τ → κ)
    (hrt : ∀ k, tok (detok (tok k)) = tok k) (cs : List (Call κ ν))
    (hc : ∀ c ∈ cs, ∀ k ∈ c.keys, tok k ≠ []) {t : Trie τ ν} {m : Map τ ν} (h : Rel tok t m) :
    ∃ m', Rel tok (afterCalls tok detok t cs) m' := by
  induction cs generalizing t m with
  | nil => exact ⟨m, h⟩
  | cons c cs ih =>
    obtain ⟨m', -, hr⟩ := step_allowed tok detok hrt h c (hc c (by simp))
    exact ih (fun c' hc' => hc c' (by simp [hc'])) hr

/-- **C55.** `keys()` and `values()` run in parallel: the `i`-th value is what `trie[key]` answers for
the `i`-th key. `keys()` yields each key once, every key that is in the trie (detokenized), and no key
after one that extends it. -/
theorem C55_trie_keys_values (tok : κ → List τ) (detok : List τ → κ)
    (hrt : ∀ k, tok (detok (tok k)) = tok k) (cs : List (Call κ ν))
    (hc : ∀ c ∈ cs, ∀ k ∈ c.keys, tok k ≠ []) :
    let t : Trie τ ν := afterCalls tok detok new cs
    (values detok t).map Except.ok = (keys detok t).map (getItem tok t) ∧
    (keys detok t).Nodup ∧
    (∀ k, contains tok t k = true ↔ tok k ∈ (keys detok t).map tok) ∧
    (∀ k, contains tok t k = true → detok (tok k) ∈ keys detok t) ∧
    (keys detok t).Pairwise (fun a b => ¬ tok b <+: tok a) := by
  intro t
  obtain ⟨m, hr⟩ := rel_afterCalls tok detok hrt cs hc (t := (new : Trie τ ν)) (m := fun _ => none)
    ⟨inv_new, by funext p; exact Node.get_empty p, by simp⟩
  obtain ⟨l, h1, h2, h3, h4⟩ := C55_trie_items (ν := ν) tok detok cs
  change Rel tok t m at hr
  change items detok t = _ at h1
  have hl : ∀ x ∈ l, tok (detok x.1) = x.1 := by
    intro x hx
    have := ((h3 x.1 x.2).mp hx).2
    change t.root.get x.1 = some x.2 at this
    rw [hr.get] at this
    obtain ⟨-, k, e⟩ := hr.keys _ _ this
    rw [e]
    exact hrt k
  have hk : keys detok t = l.map (fun x => detok x.1) := by
    unfold keys; rw [h1, List.map_map]; rfl
  have hv : values detok t = l.map Prod.snd := by
    unfold values; rw [h1, List.map_map]; rfl
  have hkt : (keys detok t).map tok = l.map Prod.fst := by
    rw [hk, List.map_map]
    exact List.map_congr_left fun x hx => hl x hx
  have hcon : ∀ k, contains tok t k = true ↔ tok k ∈ (keys detok t).map tok := by
    intro k
    rw [hkt, contains_eq, Option.isSome_iff_exists, List.mem_map]
    constructor
    · rintro ⟨v, hv⟩
      refine ⟨(tok k, v), (h3 _ _).mpr ⟨?_, hv⟩, rfl⟩
      rw [hr.get] at hv
      exact (hr.keys _ _ hv).1
    · rintro ⟨x, hx, e⟩
      exact ⟨x.2, by rw [← e]; exact ((h3 x.1 x.2).mp hx).2⟩
  refine ⟨?_, ?_, hcon, ?_, ?_⟩
  · rw [hk, hv, List.map_map, List.map_map]
    refine List.map_congr_left fun x hx => ?_
    have hg := ((h3 x.1 x.2).mp hx).2
    change t.root.get x.1 = some x.2 at hg
    simp only [Function.comp_apply, getItem_eq, hl x hx, hg]
  · have : ((keys detok t).map tok).Nodup := hkt ▸ h2
    exact List.Nodup.of_map _ this
  · intro k hk'
    obtain ⟨a, ha, e⟩ := List.mem_map.mp ((hcon k).mp hk')
    rw [hk] at ha ⊢
    obtain ⟨x, hx, rfl⟩ := List.mem_map.mp ha
    rw [hl x hx] at e
    exact List.mem_map.mpr ⟨x, hx, by rw [e]⟩
  · rw [hk, List.pairwise_map]
    refine h4.imp_of_mem ?_
    intro a b ha hb hab
    rw [hl a ha, hl b hb]
    exact hab

example :
    let t : Trie Nat String := afterCalls (fun w : List Nat => w) id new
      [.set [1, 2] "a", .set [5] "b", .set [1] "c", .pop [5], .set [7] "d"]
    keys id t = [[7], [1], [1, 2]] ∧ values id t = ["d", "c", "a"] := by
  unfold keys values
  trie_eval

/-- **C56.** A trie that holds nothing but the key without tokens answers `True` to `in` for it,
but neither `pop` nor `del` can remove it: both raise `KeyError`. -/
theorem C56_trie_empty_key_stuck (tok : κ → List τ) (detok : List τ → κ) (cs : List (Call κ ν))
    (e : κ) (he : tok e = [])
    (hin : (afterCalls tok detok new cs : Trie τ ν).root.get [] ≠ none)
    (honly : ∀ p v, (afterCalls tok detok new cs : Trie τ ν).root.get p = some v → p = []) :
    contains tok (afterCalls tok detok new cs : Trie τ ν) e = true ∧
    pop tok (afterCalls tok detok new cs : Trie τ ν) e = .error .keyError ∧
    delItem tok (afterCalls tok detok new cs : Trie τ ν) e = .error .keyError := by
  have h := inv_afterCalls tok detok cs (inv_new (τ := τ) (ν := ν))
  generalize (afterCalls tok detok new cs : Trie τ ν) = t at h honly hin
  have hk : t.root.kids = [] := by
    by_contra hk
    have hne : t.root.items ≠ [] := by
      rw [Node.items_eq]
      exact Node.frameItems_ne_nil _ _ (fun k c hm => h.wf.child (List.mem_reverse.mp hm))
        (fun k c hm => h.wf.live (List.mem_reverse.mp hm)) (by simpa using hk)
    obtain ⟨⟨q, v⟩, hqv⟩ := List.exists_mem_of_ne_nil _ hne
    have := (Node.mem_items h.wf _ _).mp hqv
    exact this.1 (honly q v this.2)
  have : pop tok t e = .error .keyError := by simp [pop, hk]
  refine ⟨?_, this, by simp [delItem, this]⟩
  rw [contains_eq, he]
  exact Option.isSome_iff_ne_none.mpr hin

example : runCalls (fun w : List Nat => w) id (new : Trie Nat String)
    [.set [] "b", .contains [], .pop [], .contains [], .set [1] "x", .pop [], .contains []]
    = [.done, .bool true, .err .keyError, .bool true, .done, .pair [] "b", .bool false] := by
  trie_eval

end Trie
end Verif
