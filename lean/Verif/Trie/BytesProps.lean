import Verif.Trie.KeysModel

/-!
# `Trie.nbytes`: property C155
-/

namespace Verif
namespace Trie

/-- `n.Has o`: the object `o` belongs to the node `n` or to a node below it, as the node itself, as
its value or as one of its keys. -/
inductive ObjNode.Has : ObjNode → PyObj → Prop where
  | self {s r ks} : Has (.mk s r ks) s
  | repl {s r ks} : Has (.mk s r ks) r
  | key {s r ks k c} : (k, c) ∈ ks → Has (.mk s r ks) k
  | under {s r ks k c o} : (k, c) ∈ ks → Has c o → Has (.mk s r ks) o

theorem ObjNode.has_iff (n : ObjNode) (o : PyObj) :
    n.Has o ↔ o ∈ n.objs ∨ ∃ c ∈ n.kids.map Prod.snd, c.Has o := by
  obtain ⟨s, r, ks⟩ := n
  simp only [ObjNode.objs, ObjNode.kids, List.mem_cons, List.mem_map]
  constructor
  · intro h
    cases h with
    | self => simp
    | repl => simp
    | key h => exact Or.inl (Or.inr (Or.inr ⟨_, h, rfl⟩))
    | under h h' => exact Or.inr ⟨_, ⟨_, h, rfl⟩, h'⟩
  · rintro ((rfl | rfl | ⟨⟨k, c⟩, h, rfl⟩) | ⟨c, ⟨⟨k, c'⟩, h, rfl⟩, h'⟩)
    · exact .self
    · exact .repl
    · exact .key h
    · exact .under h h'

/-- A list of objects that stands for the state of the loops. -/
def Counted (L : List PyObj) (s : Nat × List Nat) : Prop :=
  s.1 = (L.map PyObj.size).sum ∧ s.2 = L.map PyObj.id ∧ (L.map PyObj.id).Nodup

theorem countOnce_all (os : List PyObj) : ∀ (L : List PyObj) (s : Nat × List Nat), Counted L s →
    ∃ L', Counted L' (os.foldl countOnce s) ∧ L ⊆ L' ∧ (∀ o ∈ L', o ∈ L ∨ o ∈ os) ∧
      ∀ o ∈ os, ∃ o' ∈ L', o'.id = o.id := by
  induction os with
  | nil => intro L s h; exact ⟨L, h, by simp, by simp, by simp⟩
  | cons a os ih =>
    intro L s h
    rw [List.foldl_cons]
    unfold countOnce
    split_ifs with hm
    · obtain ⟨L', h1, h2, h3, h4⟩ := ih L s h
      refine ⟨L', h1, h2, fun o ho => (h3 o ho).imp_right (by simp +contextual), ?_⟩
      intro o ho
      rcases List.mem_cons.mp ho with rfl | ho
      · rw [h.2.1] at hm
        obtain ⟨o', ho', he⟩ := List.mem_map.mp hm
        exact ⟨o', h2 ho', he⟩
      · exact h4 o ho
    · have h' : Counted (L ++ [a]) (s.1 + a.size, s.2 ++ [a.id]) := by
        refine ⟨by simp [h.1], by simp [h.2.1], ?_⟩
        rw [List.map_append, List.nodup_append]
        refine ⟨h.2.2, by simp, ?_⟩
        intro x hx y hy
        rw [h.2.1] at hm
        simp only [List.map_cons, List.map_nil, List.mem_singleton] at hy
        rintro rfl
        exact hm (hy ▸ hx)
      obtain ⟨L', h1, h2, h3, h4⟩ := ih _ _ h'
      refine ⟨L', h1, fun o ho => h2 (by simp [ho]), ?_, ?_⟩
      · intro o ho
        rcases h3 o ho with h | h
        · simp only [List.mem_append, List.mem_singleton] at h
          rcases h with h | rfl
          · exact Or.inl h
          · simp
        · simp [h]
      · intro o ho
        rcases List.mem_cons.mp ho with rfl | ho
        · exact ⟨o, h2 (by simp), rfl⟩
        · exact h4 o ho

theorem countNodes_all (stack : List ObjNode) (s : Nat × List Nat) : ∀ L, Counted L s →
    ∃ L', Counted L' (countNodes stack s) ∧ L ⊆ L' ∧
      (∀ o ∈ L', o ∈ L ∨ ∃ n ∈ stack, n.Has o) ∧
      ∀ n ∈ stack, ∀ o, n.Has o → ∃ o' ∈ L', o'.id = o.id := by
  induction stack, s using countNodes.induct with
  | case1 s => intro L h; rw [countNodes]; exact ⟨L, h, by simp, by simp, by simp⟩
  | case2 n stack s ih =>
    intro L h
    rw [countNodes]
    obtain ⟨L1, a1, a2, a3, a4⟩ := countOnce_all n.objs L s h
    obtain ⟨L2, b1, b2, b3, b4⟩ := ih L1 a1
    refine ⟨L2, b1, fun o ho => b2 (a2 ho), ?_, ?_⟩
    · intro o ho
      rcases b3 o ho with ho | ⟨c, hc, ho⟩
      · rcases a3 o ho with ho | ho
        · exact Or.inl ho
        · exact Or.inr ⟨n, by simp, (n.has_iff o).mpr (Or.inl ho)⟩
      · rcases List.mem_append.mp hc with hc | hc
        · exact Or.inr ⟨n, by simp, (n.has_iff o).mpr (Or.inr ⟨c, List.mem_reverse.mp hc, ho⟩)⟩
        · exact Or.inr ⟨c, by simp [hc], ho⟩
    · intro m hm o ho
      rcases List.mem_cons.mp hm with rfl | hm
      · rcases (m.has_iff o).mp ho with ho | ⟨c, hc, ho⟩
        · obtain ⟨o', h1, h2⟩ := a4 o ho
          exact ⟨o', b2 h1, h2⟩
        · exact b4 c (List.mem_append_left _ (List.mem_reverse.mpr hc)) o ho
      · exact b4 m (List.mem_append_right _ hm) o ho

theorem countHead_all (os : List PyObj) : ∀ (L : List PyObj) (s : Nat × List Nat), Counted L s →
    (((L ++ os).map PyObj.id).Nodup → ∃ s', countHead os s = .ok s' ∧ Counted (L ++ os) s') ∧
    (¬ ((L ++ os).map PyObj.id).Nodup → countHead os s = .error .assertionError) := by
  induction os with
  | nil =>
    intro L s h
    simp only [List.append_nil]
    exact ⟨fun _ => ⟨s, rfl, h⟩, fun hn => absurd h.2.2 hn⟩
  | cons a os ih =>
    intro L s h
    unfold countHead
    have happ : L ++ a :: os = (L ++ [a]) ++ os := by simp
    rw [happ]
    split_ifs with hm
    · refine ⟨?_, fun _ => rfl⟩
      intro hn
      exfalso
      rw [h.2.1] at hm
      rw [List.map_append, List.nodup_append] at hn
      have := hn.1
      rw [List.map_append, List.nodup_append] at this
      exact this.2.2 _ hm a.id (by simp) rfl
    · refine ih (L ++ [a]) _ ⟨by simp [h.1], by simp [h.2.1], ?_⟩
      rw [List.map_append, List.nodup_append]
      refine ⟨h.2.2, by simp, ?_⟩
      intro x hx y hy
      rw [h.2.1] at hm
      simp only [List.map_cons, List.map_nil, List.mem_singleton] at hy
      rintro rfl
      exact hm (hy ▸ hx)

/-- The objects that make up a trie. -/
def Owns (self length tokenizer detokenizer : PyObj) (root : ObjNode) (o : PyObj) : Prop :=
  o ∈ [self, length, tokenizer, detokenizer] ∨ root.Has o

/-- **C155.** `nbytes` is the sum of the sizes of the objects that make up the trie, each counted
once however often it is used, if the four objects of the trie itself are different. -/
theorem C155_nbytes_sum (self length tokenizer detokenizer : PyObj) (root : ObjNode)
    (hd : ([self, length, tokenizer, detokenizer].map PyObj.id).Nodup) :
    ∃ L : List PyObj,
      nbytes self length tokenizer detokenizer root = .ok (L.map PyObj.size).sum ∧
      (L.map PyObj.id).Nodup ∧ (∀ o ∈ L, Owns self length tokenizer detokenizer root o) ∧
      ∀ o, Owns self length tokenizer detokenizer root o → ∃ o' ∈ L, o'.id = o.id := by
  obtain ⟨s, h1, h2⟩ := (countHead_all [self, length, tokenizer, detokenizer] [] (0, [])
    ⟨rfl, rfl, by simp⟩).1 hd
  obtain ⟨L, a1, a2, a3, a4⟩ := countNodes_all [root] s _ h2
  refine ⟨L, ?_, a1.2.2, ?_, ?_⟩
  · unfold nbytes
    rw [h1]
    simp only
    rw [a1.1]
  · intro o ho
    rcases a3 o ho with h | ⟨n, hn, h⟩
    · exact Or.inl h
    · rw [List.mem_singleton] at hn
      exact Or.inr (hn ▸ h)
  · rintro o (h | h)
    · exact ⟨o, a2 h, rfl⟩
    · exact a4 root (by simp) o h

/-- **C155.** A trie whose tokenizer and detokenizer are the same object has no size: `nbytes` raises
`AssertionError`. -/
theorem C155_nbytes_same_callable (self length tokenizer detokenizer : PyObj) (root : ObjNode)
    (h : tokenizer.id = detokenizer.id) :
    nbytes self length tokenizer detokenizer root = .error .assertionError := by
  have := (countHead_all [self, length, tokenizer, detokenizer] [] (0, [])
    ⟨rfl, rfl, by simp⟩).2 (by simp [h])
  unfold nbytes
  rw [this]

/-- **C155.** Two tries made of the same objects have the same size, in whatever order the keys are
stored. -/
theorem C155_nbytes_order (self length tokenizer detokenizer : PyObj) (root root' : ObjNode)
    (hid : ∀ o o', Owns self length tokenizer detokenizer root o →
      Owns self length tokenizer detokenizer root o' → o.id = o'.id → o = o')
    (h : ∀ o, root.Has o ↔ root'.Has o) :
    nbytes self length tokenizer detokenizer root =
      nbytes self length tokenizer detokenizer root' := by
  by_cases hd : ([self, length, tokenizer, detokenizer].map PyObj.id).Nodup
  · obtain ⟨L, a1, a2, a3, a4⟩ := C155_nbytes_sum self length tokenizer detokenizer root hd
    obtain ⟨L', b1, b2, b3, b4⟩ := C155_nbytes_sum self length tokenizer detokenizer root' hd
    have ho : ∀ o, Owns self length tokenizer detokenizer root o ↔
        Owns self length tokenizer detokenizer root' o := fun o => by unfold Owns; rw [h]
    rw [a1, b1]
    have hp : L.Perm L' := by
      rw [List.perm_ext_iff_of_nodup a2.of_map b2.of_map]
      intro o
      constructor
      · intro hm
        obtain ⟨o', h1, h2⟩ := b4 o ((ho o).mp (a3 o hm))
        rwa [hid o o' (a3 o hm) ((ho o').mpr (b3 o' h1)) h2.symm]
      · intro hm
        obtain ⟨o', h1, h2⟩ := a4 o ((ho o).mpr (b3 o hm))
        rwa [hid o o' ((ho o).mpr (b3 o hm)) (a3 o' h1) h2.symm]
    rw [(hp.map _).sum_eq]
  · have h0 := (countHead_all [self, length, tokenizer, detokenizer] [] (0, [])
      ⟨rfl, rfl, by simp⟩).2 hd
    unfold nbytes
    rw [h0]

/-- A trie with the keys "a" and "ba" that share the object of the token "a" and the value. -/
example : nbytes ⟨1, 64⟩ ⟨2, 28⟩ ⟨3, 144⟩ ⟨4, 144⟩
    (.mk ⟨5, 240⟩ ⟨6, 16⟩ [(⟨7, 50⟩, .mk ⟨8, 64⟩ ⟨9, 49⟩ []),
      (⟨10, 50⟩, .mk ⟨11, 232⟩ ⟨6, 16⟩ [(⟨7, 50⟩, .mk ⟨12, 64⟩ ⟨9, 49⟩ [])])])
    = .ok (64 + 28 + 144 + 144 + 240 + 16 + 50 + 50 + 232 + 64 + 49 + 64) := by
  simp [nbytes, countHead, countNodes, ObjNode.kids, ObjNode.objs, countOnce]

end Trie
end Verif
