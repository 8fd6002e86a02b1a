import Verif.Sizeof.Model
import Mathlib.Logic.Relation

/-!
# Specification of `deep_sizeof`: what an object refers to
-/

namespace Verif
namespace SizeofSpec

open Sizeof

/-- The size counted for an object itself. -/
def size (o : Obj) : ℕ := (o.nbytes <|> o.memory).getD o.own

/-- The objects looked into. -/
def Opened (o : Obj) : Prop := o.nbytes = none ∧ o.memory = none ∧ o.atom = false

/-- The attributes looked at: not provided by a property, class or function of the type, and with a
name neither beginning nor ending with two underscores. -/
def Seen (a : Attr) : Prop :=
  a.skipped = false ∧ ¬ ['_', '_'] <+: a.name ∧ ¬ ['_', '_'] <:+ a.name

/-- The object directly refers to `y`. -/
inductive Refers (W : World) (o : Obj) (y : ℕ) : Prop
  | key (ks vs : List ℕ) (h : o.mapping = some (ks, vs)) (hy : y ∈ ks)
  | value (ks vs : List ℕ) (h : o.mapping = some (ks, vs)) (hy : y ∈ vs)
  | element (es : List ℕ) (h : o.elements = some es) (hy : y ∈ es)
  | dictKey (hy : y ∈ o.dict.1)
  | dictValue (hy : y ∈ o.dict.2)
  | slot (hy : some y ∈ o.slots)
  | unset (h : none ∈ o.slots) (hy : y = W.noneId)
  | attr (a : Attr) (ha : a ∈ o.attrs) (hs : Seen a) (hy : a.value = some y)

/-- Everything reached from an object, itself included. -/
def Reach (W : World) : ℕ → ℕ → Prop :=
  Relation.ReflTransGen fun x y => Opened (W.obj x) ∧ Refers W (W.obj x) y

/-- Asking for some attribute of the object raises. -/
def Broken (o : Obj) : Prop := Opened o ∧ ∃ a ∈ o.attrs, Seen a ∧ a.value = none

end SizeofSpec
end Verif
