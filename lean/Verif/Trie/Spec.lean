import Verif.Py.Basic
import Mathlib.Data.Set.Card

/-!
# Specification of a trie as a mapping

Nothing here refers to nodes or to the model: a mapping is a function from token sequences to
optional values, and `Allowed` says which answers and which new mappings a `dict` may give.
-/

namespace Verif
namespace TrieSpec

/-- A mapping from token sequences to values. -/
abbrev Map (τ ν : Type) := List τ → Option ν

/-- Calls on the public interface of `Trie`. -/
inductive Call (κ ν : Type) where
  | set (k : κ) (v : ν)          -- `trie[k] = v`
  | setdefault (k : κ) (v : ν)   -- `trie.setdefault(k, v)`
  | pop (k : κ)                  -- `trie.pop(k)`
  | popFirst                     -- `trie.pop()`
  | del (k : κ)                  -- `del trie[k]`
  | get (k : κ)                  -- `trie[k]`
  | getD (k : κ)                 -- `trie.get(k)`
  | contains (k : κ)             -- `k in trie`
  | len                          -- `len(trie)`
  | items                        -- `list(trie.items())`
  | update (ps : List (κ × ν))   -- `trie.update(ps)`

/-- The keys mentioned by a call. -/
def Call.keys {κ ν : Type} : Call κ ν → List κ
  | .set k _ => [k]
  | .setdefault k _ => [k]
  | .pop k => [k]
  | .popFirst => []
  | .del k => [k]
  | .get k => [k]
  | .getD k => [k]
  | .contains k => [k]
  | .len => []
  | .items => []
  | .update ps => ps.map Prod.fst

/-- Answers of the calls. -/
inductive Ret (κ ν : Type) where
  | done
  | val (v : ν)
  | opt (v : Option ν)
  | pair (k : κ) (v : ν)
  | bool (b : Bool)
  | num (n : Int)
  | list (l : List (κ × ν))
  | err (e : PyErr)
deriving DecidableEq

section
variable {κ τ ν : Type} [DecidableEq τ]

/-- The mapping with one entry replaced. -/
def upd (m : Map τ ν) (p : List τ) (v : Option ν) : Map τ ν := fun q => if q = p then v else m q

/-- What a `dict` keyed by the token sequences of the keys may answer to a call, and the mapping
afterwards. The order of the items and the entry taken by `pop()` are left open. -/
def Allowed (tok : κ → List τ) (detok : List τ → κ) (m : Map τ ν) :
    Call κ ν → Ret κ ν → Map τ ν → Prop
  | .set k v, r, m' => r = .done ∧ m' = upd m (tok k) (some v)
  | .setdefault k v, r, m' =>
    (∃ old, m (tok k) = some old ∧ r = .val old ∧ m' = m) ∨
    (m (tok k) = none ∧ r = .val v ∧ m' = upd m (tok k) (some v))
  | .pop k, r, m' =>
    (∃ v, m (tok k) = some v ∧ r = .pair k v ∧ m' = upd m (tok k) none) ∨
    (m (tok k) = none ∧ r = .err .keyError ∧ m' = m)
  | .popFirst, r, m' =>
    (∃ p v, m p = some v ∧ r = .pair (detok p) v ∧ m' = upd m p none) ∨
    ((∀ p, m p = none) ∧ r = .err .keyError ∧ m' = m)
  | .del k, r, m' =>
    (∃ v, m (tok k) = some v ∧ r = .done ∧ m' = upd m (tok k) none) ∨
    (m (tok k) = none ∧ r = .err .keyError ∧ m' = m)
  | .get k, r, m' =>
    m' = m ∧ ((∃ v, m (tok k) = some v ∧ r = .val v) ∨ (m (tok k) = none ∧ r = .err .keyError))
  | .getD k, r, m' => m' = m ∧ r = .opt (m (tok k))
  | .contains k, r, m' => m' = m ∧ r = .bool (m (tok k)).isSome
  | .len, r, m' => m' = m ∧ r = .num ({p | m p ≠ none}.ncard : Nat)
  | .items, r, m' =>
    m' = m ∧ ∃ l : List (List τ × ν), (l.map Prod.fst).Nodup ∧
      (∀ p v, (p, v) ∈ l ↔ m p = some v) ∧ r = .list (l.map (fun x => (detok x.1, x.2)))
  | .update ps, r, m' =>
    r = .done ∧ m' = ps.foldl (fun m x => upd m (tok x.1) (some x.2)) m

/-- A list of answers that a `dict` may give to a list of calls, starting from mapping `m`. -/
inductive Trace (tok : κ → List τ) (detok : List τ → κ) :
    Map τ ν → List (Call κ ν) → List (Ret κ ν) → Prop where
  | nil (m) : Trace tok detok m [] []
  | cons {m m' c cs r rs} : Allowed tok detok m c r m' → Trace tok detok m' cs rs →
      Trace tok detok m (c :: cs) (r :: rs)

end

end TrieSpec
end Verif
