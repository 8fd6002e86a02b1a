import Verif.Dawg.ReadLemmas

/-!
# The finalized graph is minimal
-/

namespace Verif
namespace Dawg

open DawgSpec

variable {α δ : Type} [LinearOrder α]

/-- Registered nodes with the same words are the same node. -/
theorem Core.min_inj {g : Graph α δ} (hg : Core g) (f : ℕ) : ∀ {m m' : ℕ}, g.Min m → g.Min m' →
    Depth g.heap m f → (∀ w, g.heap.acc m w ↔ g.heap.acc m' w) → m = m' := by
  induction f with
  | zero => intro m m' _ _ hd; obtain ⟨f', hf⟩ := hd.pos; omega
  | succ f ih =>
    intro m m' hm hm' hd hacc
    have hterm : (g.heap m).terminal = (g.heap m').terminal := by
      have := hacc []
      rw [acc_nil, acc_nil] at this
      rcases h1 : (g.heap m).terminal <;> rcases h2 : (g.heap m').terminal <;> simp_all
    have hedge : ∀ c, Dict.get? (g.heap m).edges c = Dict.get? (g.heap m').edges c := by
      intro c
      change g.heap.edge m c = g.heap.edge m' c
      have hsub : ∀ v, (∃ y, g.heap.edge m c = some y ∧ g.heap.acc y v) ↔
          (∃ y, g.heap.edge m' c = some y ∧ g.heap.acc y v) := by
        intro v
        rw [← acc_cons, ← acc_cons]
        exact hacc (c :: v)
      cases h1 : g.heap.edge m c with
      | none =>
        cases h2 : g.heap.edge m' c with
        | none => rfl
        | some y' =>
          obtain ⟨v, hv⟩ := hg.live y' (hg.minEdge m' c y' hm' h2)
          obtain ⟨y, hy, -⟩ := (hsub v).mpr ⟨y', h2, hv⟩
          rw [h1] at hy; cases hy
      | some y =>
        obtain ⟨v, hv⟩ := hg.live y (hg.minEdge m c y hm h1)
        obtain ⟨y', hy', -⟩ := (hsub v).mp ⟨y, h1, hv⟩
        rw [hy']
        congr 1
        refine ih (hg.minEdge m c y hm h1) (hg.minEdge m' c y' hm' hy') (hd.child h1) ?_
        intro w
        constructor
        · intro hw
          obtain ⟨z, hz, hzw⟩ := (hsub w).mp ⟨y, h1, hw⟩
          rw [hy'] at hz; cases hz; exact hzw
        · intro hw
          obtain ⟨z, hz, hzw⟩ := (hsub w).mpr ⟨y', hy', hw⟩
          rw [h1] at hz; cases hz; exact hzw
    have hkey : (g.heap m).key = (g.heap m').key := by
      unfold Node.key
      rw [hterm, sortEdges_eq_of_get? (hg.keysNodup m) (hg.keysNodup m') hedge]
    obtain ⟨k, hk⟩ := hm
    obtain ⟨k', hk'⟩ := hm'
    have h1 := hg.minKey k m hk
    have h2 := hg.minKey k' m' hk'
    rw [← h1, hkey, h2, hk'] at hk
    cases hk
    rfl

theorem Core.mem_min {g : Graph α δ} (hg : Core g) {m : ℕ} : m ∈ Dict.values g.minimized ↔ g.Min m := by
  constructor
  · intro h
    obtain ⟨⟨k, m'⟩, hp, rfl⟩ := List.mem_map.mp h
    exact ⟨k, Dict.get?_of_mem hg.minNodup hp⟩
  · rintro ⟨k, hk⟩
    exact List.mem_map.mpr ⟨(k, m), Dict.mem_of_get? hk, rfl⟩

theorem Core.values_nodup {g : Graph α δ} (hg : Core g) : (Dict.values g.minimized).Nodup := by
  unfold Dict.values
  refine List.Nodup.map_on ?_ hg.minNodup.of_map
  rintro ⟨k, m⟩ h1 ⟨k', m'⟩ h2 e
  simp only at e
  subst e
  have e1 := hg.minKey k m (Dict.get?_of_mem hg.minNodup h1)
  have e2 := hg.minKey k' m (Dict.get?_of_mem hg.minNodup h2)
  rw [← e1, ← e2]

/-- The words from a node. -/
def Heap.lang (h : Heap α) (x : ℕ) : Set (List α) := {w | h.acc x w}

theorem Ready'.lang_residual {limit : ℕ} {g0 g : Graph α δ} {ps : List (List α × δ)}
    (hR : Ready' limit g0 g ps) {p : List α} {m : ℕ} (hp : g0.heap.run g0.root p = some m) :
    g0.heap.lang m = residual (ps.map Prod.fst) p := by
  ext v
  change g0.heap.acc m v ↔ p ++ v ∈ ps.map Prod.fst
  rw [← hR.lang, acc_append _ hp]

theorem Ready'.depth_of {limit : ℕ} {g0 g : Graph α δ} {ps : List (List α × δ)}
    (hR : Ready' limit g0 g ps) {p : List α} {m : ℕ} (hp : g0.heap.run g0.root p = some m) :
    Depth g0.heap m limit := by
  intro w y hw
  have := hR.depth (p ++ w) y (by rw [run_append, hp]; exact hw)
  simp at this
  omega

theorem Ready'.path_min {limit : ℕ} {g0 g : Graph α δ} {ps : List (List α × δ)}
    (hR : Ready' limit g0 g ps) {p : List α} {m : ℕ} (hp : g0.heap.run g0.root p = some m) (hne : p ≠ []) :
    g0.Min m := by
  rcases hR.core.run_used hp with h | h
  · rw [hR.unch] at h
    simp only [pathNodes, List.map_nil, List.mem_singleton] at h
    have := hR.core.unique [] List.nil_suffix p (by rw [hp, h]; rfl)
    exact absurd (by simpa [lettersOf] using this) hne
  · exact h

theorem Ready'.min_path {limit : ℕ} {g0 g : Graph α δ} {ps : List (List α × δ)}
    (hR : Ready' limit g0 g ps) {m : ℕ} (hm : g0.Min m) :
    ∃ p, p ≠ [] ∧ g0.heap.run g0.root p = some m := by
  obtain ⟨p, hp⟩ := hR.core.reach m hm
  refine ⟨p, ?_, hp⟩
  rintro rfl
  simp only [Heap.run, Option.some.injEq] at hp
  exact hR.core.disj m hm (by rw [← hp]; simp [pathNodes])

theorem Ready'.lang_inj {limit : ℕ} {g0 g : Graph α δ} {ps : List (List α × δ)}
    (hR : Ready' limit g0 g ps) {m m' : ℕ} (hm : g0.Min m) (hm' : g0.Min m')
    (h : g0.heap.lang m = g0.heap.lang m') : m = m' := by
  obtain ⟨p, -, hp⟩ := hR.min_path hm
  refine hR.core.min_inj limit hm hm' (hR.depth_of hp) ?_
  intro w
  have := congrArg (w ∈ ·) h
  exact iff_of_eq this

theorem residual_nonempty_run {h : Heap α} {root : ℕ} {ws : List (List α)}
    (hl : ∀ w, h.acc root w ↔ w ∈ ws) {p : List α} (hn : (residual ws p).Nonempty) :
    ∃ m, h.run root p = some m := by
  obtain ⟨v, hv⟩ := hn
  obtain ⟨y, hy, -⟩ := (hl (p ++ v)).mpr hv
  rw [run_append] at hy
  obtain ⟨m, hm, -⟩ := Option.bind_eq_some_iff.mp hy
  exact ⟨m, hm⟩

/-- The languages of the registered nodes. -/
theorem Ready'.languages {limit : ℕ} {g0 g : Graph α δ} {ps : List (List α × δ)}
    (hR : Ready' limit g0 g ps) :
    ((Dict.values g0.minimized).map g0.heap.lang).Nodup ∧
    ∀ R, R ∈ (Dict.values g0.minimized).map g0.heap.lang ↔
      ∃ p, p ≠ [] ∧ R = residual (ps.map Prod.fst) p ∧ R.Nonempty := by
  refine ⟨?_, ?_⟩
  · refine List.Nodup.map_on ?_ hR.core.values_nodup
    intro m hm m' hm' e
    exact hR.lang_inj (hR.core.mem_min.mp hm) (hR.core.mem_min.mp hm') e
  · intro R
    rw [List.mem_map]
    constructor
    · rintro ⟨m, hm, rfl⟩
      have hm := hR.core.mem_min.mp hm
      obtain ⟨p, hne, hp⟩ := hR.min_path hm
      exact ⟨p, hne, hR.lang_residual hp, hR.core.live m hm⟩
    · rintro ⟨p, hne, rfl, hn⟩
      obtain ⟨m, hm⟩ := residual_nonempty_run hR.lang hn
      exact ⟨m, hR.core.mem_min.mpr (hR.path_min hm hne), hR.lang_residual hm⟩

theorem run_reach {h : Heap α} {x y : ℕ} (hr : h.Reach x y) {c : α} {z : ℕ} (he : h.edge y c = some z) :
    h.Reach x z := hr.trans (Heap.Reach.edge he)

theorem Ready'.countEdges {limit : ℕ} {g0 g : Graph α δ} {ps : List (List α × δ)}
    (hR : Ready' limit g0 g ps) :
    g.countEdges = .ok ((Dict.values g0.minimized).map (fun m => (sortEdges (g0.heap m).edges).length)).sum := by
  unfold Graph.countEdges
  rw [hR.mini]
  have hfe : ∀ p ∈ g0.minimized, (g.heap p.2).finalEdges = some (sortEdges (g0.heap p.2).edges) := by
    intro p hp
    have hm : g0.Min p.2 := ⟨p.1, Dict.get?_of_mem hR.core.minNodup hp⟩
    obtain ⟨w, hw⟩ := hR.core.reach p.2 hm
    rw [hR.final.done p.2 ⟨w, hw⟩]
    rfl
  unfold Dict.values
  have : ∀ (d : Dict (Bool × List (α × ℕ)) ℕ), (∀ p ∈ d, (g.heap p.2).finalEdges = some (sortEdges (g0.heap p.2).edges)) →
      ∀ n, d.foldlM (fun n p =>
        match (g.heap p.2).finalEdges with
        | none => (.error .typeError : Except PyErr ℕ)
        | some es => .ok (n + es.length)) n =
      .ok (n + ((d.map Prod.snd).map (fun m => (sortEdges (g0.heap m).edges).length)).sum) := by
    intro d
    induction d with
    | nil => intro _ n; rfl
    | cons p d ih =>
      intro hd n
      rw [List.foldlM_cons, hd p (by simp)]
      change List.foldlM _ (n + (sortEdges (g0.heap p.2).edges).length) d = _
      rw [ih (fun q hq => hd q (by simp [hq]))]
      simp [Nat.add_assoc]
  have := this _ hfe 0
  rw [Nat.zero_add] at this
  exact this

/-- The edges between registered nodes, as pairs of a language and a letter. -/
theorem Ready'.edgePairs {limit : ℕ} {g0 g : Graph α δ} {ps : List (List α × δ)}
    (hR : Ready' limit g0 g ps) :
    ((Dict.values g0.minimized).flatMap (fun m => (sortEdges (g0.heap m).edges).map
      (fun e => (g0.heap.lang m, e.1)))).Nodup ∧
    ∀ R c, (R, c) ∈ (Dict.values g0.minimized).flatMap (fun m => (sortEdges (g0.heap m).edges).map
      (fun e => (g0.heap.lang m, e.1))) ↔
      ∃ p, p ≠ [] ∧ R = residual (ps.map Prod.fst) p ∧ ∃ v, c :: v ∈ R := by
  refine ⟨?_, ?_⟩
  · rw [List.nodup_flatMap]
    refine ⟨?_, ?_⟩
    · intro m _
      unfold List.Nodup
      rw [List.pairwise_map]
      refine (sortEdges_pairwise _ (hR.core.keysNodup m)).imp ?_
      intro e e' h he
      have := congrArg Prod.snd he
      exact ne_of_lt h this
    · refine List.Pairwise.imp_of_mem ?_ hR.core.values_nodup
      intro m m' hm hm' hne q hq hq'
      obtain ⟨e, -, rfl⟩ := List.mem_map.mp hq
      obtain ⟨e', -, he'⟩ := List.mem_map.mp hq'
      have := congrArg Prod.fst he'
      exact hne (hR.lang_inj (hR.core.mem_min.mp hm) (hR.core.mem_min.mp hm') this.symm)
  · intro R c
    rw [List.mem_flatMap]
    constructor
    · rintro ⟨m, hm, hmem⟩
      obtain ⟨⟨l, y⟩, he, heq⟩ := List.mem_map.mp hmem
      simp only [Prod.mk.injEq] at heq
      obtain ⟨rfl, rfl⟩ := heq
      have hm := hR.core.mem_min.mp hm
      have he := (mem_sortEdges_iff (hR.core.keysNodup m)).mp he
      obtain ⟨p, hne, hp⟩ := hR.min_path hm
      obtain ⟨v, hv⟩ := hR.core.live y (hR.core.minEdge m l y hm he)
      refine ⟨p, hne, hR.lang_residual hp, v, ?_⟩
      change g0.heap.acc m (l :: v)
      rw [acc_cons]
      exact ⟨y, he, hv⟩
    · rintro ⟨p, hne, rfl, v, hv⟩
      obtain ⟨m, hm⟩ := residual_nonempty_run (p := p) hR.lang ⟨_, hv⟩
      refine ⟨m, hR.core.mem_min.mpr (hR.path_min hm hne), ?_⟩
      have hl := hR.lang_residual hm
      rw [← hl] at hv
      obtain ⟨y, hy, -⟩ := (acc_cons _ m c v).mp hv
      refine List.mem_map.mpr ⟨(c, y), (mem_sortEdges_iff (hR.core.keysNodup m)).mpr hy, ?_⟩
      rw [← hl]

omit [LinearOrder α] in
/-- A residual at a non-empty prefix differs from the whole language. -/
theorem residual_ne {ws : List (List α)} {p : List α} (hne : p ≠ [])
    (hn : (residual ws p).Nonempty) : residual ws p ≠ residual ws [] := by
  intro h
  -- take a longest word
  have hws : ws ≠ [] := by
    obtain ⟨v, hv⟩ := hn
    exact List.ne_nil_of_mem (show p ++ v ∈ ws from hv)
  obtain ⟨w, hw, hmax⟩ : ∃ w ∈ ws, ∀ u ∈ ws, u.length ≤ w.length := by
    clear h hn
    induction ws with
    | nil => exact absurd rfl hws
    | cons a l ih =>
      by_cases hl : l = []
      · subst hl
        exact ⟨a, by simp, by simp⟩
      · obtain ⟨w, hw, hmax⟩ := ih hl
        by_cases hc : a.length ≤ w.length
        · refine ⟨w, by simp [hw], ?_⟩
          intro u hu
          rcases List.mem_cons.mp hu with rfl | hu
          · exact hc
          · exact hmax u hu
        · refine ⟨a, by simp, ?_⟩
          intro u hu
          rcases List.mem_cons.mp hu with rfl | hu
          · exact le_refl _
          · have := hmax u hu; omega
  have h1 : w ∈ residual ws [] := hw
  rw [← h] at h1
  have := hmax _ (show p ++ w ∈ ws from h1)
  rw [List.length_append] at this
  have : 0 < p.length := List.length_pos_iff.mpr hne
  omega

omit [LinearOrder α] in
theorem read_append {Q : Type} (step : Q → α → Option Q) (q : Q) (u v : List α) :
    read step q (u ++ v) = (read step q u).bind (fun q' => read step q' v) := by
  induction u generalizing q with
  | nil => rfl
  | cons c u ih =>
    simp only [List.cons_append, DawgSpec.read]
    cases step q c with
    | none => rfl
    | some q' => exact ih q'

/-- Any automaton for the words has at least as many states. -/
theorem Ready'.minimal {limit : ℕ} {g0 g : Graph α δ} {ps : List (List α × δ)}
    (hR : Ready' limit g0 g ps) {Q : Type} (step : Q → α → Option Q) (q0 : Q) (final : Q → Prop)
    (hacc : ∀ w, w ∈ ps.map Prod.fst ↔ ∃ q, read step q0 w = some q ∧ final q)
    (qs : List Q) (hqs : ∀ w q, read step q0 w = some q → q ∈ qs) :
    g0.minimized.length + 1 ≤ qs.length := by
  classical
  have hstate : ∀ m ∈ Dict.values g0.minimized, ∃ q, ∃ p, p ≠ [] ∧ g0.heap.run g0.root p = some m ∧
      read step q0 p = some q := by
    intro m hm
    have hm := hR.core.mem_min.mp hm
    obtain ⟨p, hne, hp⟩ := hR.min_path hm
    obtain ⟨v, hv⟩ := hR.core.live m hm
    have hw : p ++ v ∈ ps.map Prod.fst := (hR.lang _).mp ((acc_append _ hp v).mpr hv)
    obtain ⟨q, hq, -⟩ := (hacc _).mp hw
    rw [read_append] at hq
    obtain ⟨q', hq', -⟩ := Option.bind_eq_some_iff.mp hq
    exact ⟨q', p, hne, hp, hq'⟩
  have hres : ∀ p p' q, read step q0 p = some q → read step q0 p' = some q →
      residual (ps.map Prod.fst) p = residual (ps.map Prod.fst) p' := by
    intro p p' q hp hp'
    ext v
    change p ++ v ∈ ps.map Prod.fst ↔ p' ++ v ∈ ps.map Prod.fst
    rw [hacc, hacc, read_append, read_append, hp, hp']
  have : Inhabited Q := ⟨q0⟩
  choose! st hst using hstate
  have hnd : (q0 :: (Dict.values g0.minimized).map st).Nodup := by
    rw [List.nodup_cons]
    refine ⟨?_, ?_⟩
    · intro h
      obtain ⟨m, hm, hq⟩ := List.mem_map.mp h
      obtain ⟨p, hne, hp, hr⟩ := hst m hm
      rw [hq] at hr
      refine residual_ne hne ?_ (hres p [] q0 hr rfl)
      rw [← hR.lang_residual hp]
      exact hR.core.live m (hR.core.mem_min.mp hm)
    · refine List.Nodup.map_on ?_ hR.core.values_nodup
      intro m hm m' hm' e
      obtain ⟨p, -, hp, hr⟩ := hst m hm
      obtain ⟨p', -, hp', hr'⟩ := hst m' hm'
      rw [← e] at hr'
      refine hR.lang_inj (hR.core.mem_min.mp hm) (hR.core.mem_min.mp hm') ?_
      rw [hR.lang_residual hp, hR.lang_residual hp']
      exact hres p p' _ hr hr'
  have hsub : q0 :: (Dict.values g0.minimized).map st ⊆ qs := by
    intro q hq
    rcases List.mem_cons.mp hq with rfl | hq
    · exact hqs [] q rfl
    · obtain ⟨m, hm, rfl⟩ := List.mem_map.mp hq
      obtain ⟨p, -, -, hr⟩ := hst m hm
      exact hqs p _ hr
  have := (List.subperm_of_subset hnd hsub).length_le
  simpa [Dict.values] using this

/-- `__getitem__` below `-1`. -/
theorem getNode_neg {N : ℕ} {h0 h : Heap α} {r : ℕ} (hk : KeysOk h0) (hF : Final N h0 h r) (f : ℕ) :
    ∀ (x : ℕ), Depth h0 x f → h0.Reach r x → ∀ (i : ℤ), i < -1 →
    getNode f h x i = if (h0 x).edges = [] then .ok none else .error .typeError := by
  induction f with
  | zero => intro x hd; obtain ⟨f', hf⟩ := hd.pos; omega
  | succ f ih =>
    intro x hd hr i hi
    have hfe : (h x).finalEdges = some (sortEdges (h0 x).edges) := by rw [hF.done x hr]; rfl
    have hmem : ∀ e ∈ sortEdges (h0 x).edges, h0.edge x e.1 = some e.2 := by
      rintro ⟨c, y⟩ he
      exact (mem_sortEdges_iff (hk x)).mp he
    simp only [getNode, hfe]
    have hi' : i - (if (h x).terminal = true then 1 else 0) < -1 := by split <;> omega
    generalize i - (if (h x).terminal = true then 1 else 0) = j at hi'
    rw [if_neg (by omega)]
    have hperm := sortEdges_perm (h0 x).edges
    cases hs : sortEdges (h0 x).edges with
    | nil =>
      rw [hs] at hperm
      rw [if_pos (List.nil_perm.mp hperm)]
      rfl
    | cons e es =>
      obtain ⟨l, y⟩ := e
      rw [hs] at hperm hmem
      rw [if_neg (by
        intro h
        rw [h] at hperm
        exact absurd (List.perm_nil.mp hperm) (by simp))]
      have hy := hmem (l, y) (by simp)
      have hry := hr.trans (Heap.Reach.edge hy)
      have hlc : (h y).leafCount = some (wordsOf N h0 y).length := by rw [hF.done y hry]; rfl
      simp only [getEdges, hlc]
      rw [if_pos (by omega), ih y (hd.child hy) hry j hi']
      split
      · rename_i e he; split at he <;> simp_all
      · rfl
      · rename_i w he; split at he <;> simp_all

end Dawg
end Verif
