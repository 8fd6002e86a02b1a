import Verif.Conc.WriteSystem
import Verif.Conc.Props

/-!
# `WordSet` used by several threads that add and discard words: property C186
-/

namespace Verif
namespace Conc

open GramSpec WordSetSpec

variable {cf : List Char → List Char} {un : Normalizer}

/-- Calls of `add` and `discard` that do not overlap one another behave as one after another, whatever
other threads do in `find_similar` meanwhile: each returns (or raises) what it would in that order, and as
soon as none is in progress, all further calls do. -/
theorem C186_writers_in_order {st : WS} (h : WSReachable cf un st) {C : ℕ → Call}
    (hfair : ∀ i, (C i).Fair) {sched : List ℕ} (hex : ExclusiveW cf un C (Sys.start C st) sched) :
    (∀ j r, (((Sys.start C st).run cf un C sched).pc j).outcome = some r →
      ∃ a b, wstarts cf un C (Sys.start C st) sched = a ++ j :: b ∧
        ((st.run cf un (a.map fun j => (C j).op)).step cf un (C j).op).2 = .unit r) ∧
    ((∀ j, (((Sys.start C st).run cf un C sched).pc j).writing = false) → ∀ ops,
      ((Sys.start C st).run cf un C sched).mem.view.outputs cf un ops =
        (st.run cf un ((wstarts cf un C (Sys.start C st) sched).map fun j =>
          (C j).op)).outputs cf un ops) := by
  obtain ⟨Es, hEs, hEm⟩ := h.rep
  obtain ⟨E, H, g⟩ := (WInv.start (C := C) hEs).run hfair hex
  rw [List.nil_append] at g
  have hrep : Rep cf un st (mems Es) := ⟨Es, hEs, rfl⟩
  constructor
  · intro j r hr
    obtain ⟨a, b, h1, h2⟩ := g.res j r hr
    refine ⟨a, b, h1, ?_⟩
    obtain ⟨h3, h4⟩ := hrep.run (a.map fun j => (C j).op)
    rw [(h3.step _).2.1, h4.key, h4.2.1]
    exact h2
  · intro hno ops
    obtain ⟨hi, _⟩ := g.idle (i := 0) (fun j _ => hno j) (hno 0)
    have hr : Rep cf un ((Sys.start C st).run cf un C sched).mem.view (mems E) :=
      ⟨_, hi.rep g.good, rfl⟩
    obtain ⟨h3, h4⟩ := hrep.run ((wstarts cf un C (Sys.start C st) sched).map fun j => (C j).op)
    have hl := hi.1.like
    rw [hr.outputs, h3.outputs, h4.key, h4.2.1, g.abs]
    rw [show ((Sys.start C st).run cf un C sched).mem.view.nList = st.nList from hl.2.1]
    unfold WS.key
    rw [show ((Sys.start C st).run cf un C sched).mem.view.caseSensitive = st.caseSensitive
      from hl.1]
    rfl

/-- A thread adds a word, one discards another, one adds that again, one discards something that is no
word; a fifth looks for similar words. -/
def writeCalls : ℕ → Call
  | 1 => .add id (.str ['a', 'x'])
  | 2 => .discard List.reverse (.str ['a', 'b'])
  | 3 => .add id (.str ['a', 'b'])
  | 4 => .discard id (.int 7)
  | _ => .find id (.str ['a', 'b', 'c']) (.int 5) .none

theorem writeCalls_fair : ∀ i, (writeCalls i).Fair := by
  intro i
  rcases i with _ | _ | _ | _ | _ | i
  · exact fun l => List.Perm.refl l
  · exact fun l => List.Perm.refl l
  · exact fun l => List.reverse_perm l
  · exact fun l => List.Perm.refl l
  · exact fun l => List.Perm.refl l
  · exact fun l => List.Perm.refl l

theorem writeCalls_isWriter : ∀ j, 5 ≤ j → (writeCalls j).isWriter = false := by
  intro j hj
  rcases j with _ | _ | _ | _ | _ | j
  · omega
  · omega
  · omega
  · omega
  · omega
  · rfl

/-- The writers one after another, with steps of the reader in between. -/
def writeSched : List ℕ :=
  [1, 1, 1, 0, 1, 1, 0] ++ List.replicate 15 1 ++ [2, 0, 2, 2, 0, 2] ++ List.replicate 20 2 ++
    List.replicate 25 3 ++ [0, 4, 4]

theorem write_exclusive : ExclusiveW (List.map Char.toLower) none writeCalls
    (Sys.start writeCalls demoState) writeSched :=
  exclusiveW_of_test writeCalls_isWriter (typed_start _ _) (by decide +kernel)

theorem write_starts : wstarts (List.map Char.toLower) none writeCalls
    (Sys.start writeCalls demoState) writeSched = [1, 2, 3, 4] := by decide +kernel

example : (((Sys.start writeCalls demoState).run (List.map Char.toLower) none writeCalls
    writeSched).pc 4).outcome = some (.error .typeError) ∧
    (((Sys.start writeCalls demoState).run (List.map Char.toLower) none writeCalls
      writeSched).pc 2).outcome = some (.ok ()) := by decide +kernel

theorem write_typed (j : ℕ) : Typed (writeCalls j) (((Sys.start writeCalls demoState).run
    (List.map Char.toLower) none writeCalls writeSched).pc j) := by
  generalize writeSched = l
  have : ∀ (s : Sys), (∀ j, Typed (writeCalls j) (s.pc j)) →
      Typed (writeCalls j) ((s.run (List.map Char.toLower) none writeCalls l).pc j) := by
    induction l with
    | nil => intro s hs; exact hs j
    | cons i l ih => intro s hs; exact ih _ (typed_step hs i)
  exact this _ (typed_start _ _)

example (ops : List WSOp) :
    ((Sys.start writeCalls demoState).run (List.map Char.toLower) none writeCalls
      writeSched).mem.view.outputs (List.map Char.toLower) none ops =
    (demoState.run (List.map Char.toLower) none [.add (.str ['a', 'x']), .discard (.str ['a', 'b']),
      .add (.str ['a', 'b']), .discard (.int 7)]).outputs (List.map Char.toLower) none ops := by
  have h := (C186_writers_in_order demoState_reach writeCalls_fair write_exclusive).2
    (fun j => by
      by_cases hj : j < 5
      · have : ∀ j < 5, ((((Sys.start writeCalls demoState).run (List.map Char.toLower) none writeCalls
          writeSched).pc j)).writing = false := by decide +kernel
        exact this j hj
      · have ht := write_typed j
        have hc : writeCalls j = .find id (.str ['a', 'b', 'c']) (.int 5) .none := by
          rcases j with _ | _ | _ | _ | _ | j
          · omega
          · omega
          · omega
          · omega
          · omega
          · rfl
        rw [hc] at ht
        revert ht
        cases ((Sys.start writeCalls demoState).run (List.map Char.toLower) none writeCalls
          writeSched).pc j with
        | find p => intro _; rfl
        | add p => intro ht; exact ht.elim
        | discard p => intro ht; exact ht.elim) ops
  rw [write_starts] at h
  exact h

/-- The order of the words shows that thread 2 has removed the word before thread 3 adds it again. -/
example : ((Sys.start writeCalls demoState).run (List.map Char.toLower) none writeCalls
    writeSched).mem.view.iter = [['a', 'x'], ['a', 'b']] := by decide +kernel

end Conc
end Verif
