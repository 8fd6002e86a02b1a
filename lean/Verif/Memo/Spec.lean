import Verif.Memo.Model

/-!
# What the memoised functions are supposed to be

A process in which nothing is remembered: every call computes its result anew, and every object
behaves as in `Verif.Index.Model`, `Verif.Index.V3Model` and `Verif.Index.V5bModel`.
-/

namespace Verif.MemoSpec

open Verif.Memo

/-- The objects of a process without caches. -/
structure Objs where
  wls : List WL
  v3s : List V3

/-- One action without caches. A list returned by `get_n_grams` belongs to the caller alone;
it has no name, and changing it has no effect. Only used for `n` an int. -/
def Objs.step {S : Type} [Ring S] [LinearOrder S] (agg : List ℚ → S)
    (cf : List Char → List Char) (o : Objs) : Op → Objs × Out S
  | .grams w (.int z) => (o, .list (.ok (0, getNGrams w z)))
  | .nums l (.int z) => (o, .num (.int (numGrams l z)))
  | .grams _ (.float _) => (o, .noObject)
  | .nums _ (.float _) => (o, .noObject)
  | .write _ _ => (o, .unit (.ok ()))
  | .clearGrams => (o, .unit (.ok ()))
  | .clearNums => (o, .unit (.ok ()))
  | .newList n cs f =>
    match WL.new n cs f with
    | .ok st => ({ o with wls := o.wls ++ [st] }, .unit (.ok ()))
    | .error e => (o, .unit (.error e))
  | .add i word =>
    match o.wls[i]? with
    | none => (o, .noObject)
    | some st => ({ o with wls := o.wls.set i (st.addWord cf word).1 },
        .unit (st.addWord cf word).2)
  | .lookup i word topK normalize =>
    match o.wls[i]? with
    | none => (o, .noObject)
    | some st => (o, .found (st.lookup agg cf word topK normalize))
  | .lookupV5 i word topK invert normalize =>
    match o.wls[i]? with
    | none => (o, .noObject)
    | some st => (o, .foundV5 (st.lookupV5 agg cf word topK invert normalize))
  | .newV5b n cs f =>
    match WL.v5bNew n cs f with
    | .ok st => ({ o with wls := o.wls ++ [st] }, .unit (.ok ()))
    | .error e => (o, .unit (.error e))
  | .addV5b i word =>
    match o.wls[i]? with
    | none => (o, .noObject)
    | some st => ({ o with wls := o.wls.set i (st.v5bAddWord cf word).1 },
        .unit (st.v5bAddWord cf word).2)
  | .lookupV5b i word topK normalize =>
    match o.wls[i]? with
    | none => (o, .noObject)
    | some st => (o, .foundV5 (st.v5bLookup agg cf word topK normalize))
  | .newV3 ns cs => ({ o with v3s := o.v3s ++ [v3New ns cs] }, .unit (.ok ()))
  | .addV3 i word =>
    match o.v3s[i]? with
    | none => (o, .noObject)
    | some st => ({ o with v3s := o.v3s.set i (st.addWord cf word).1 },
        .unit (st.addWord cf word).2)
  | .lookupV3 i word topK =>
    match o.v3s[i]? with
    | none => (o, .noObject)
    | some st => (o, .foundV3 (st.lookup agg cf word topK))

/-- A run without caches. -/
def Objs.run {S : Type} [Ring S] [LinearOrder S] (agg : List ℚ → S)
    (cf : List Char → List Char) : Objs → List Op → Objs × List (Out S)
  | o, [] => (o, [])
  | o, op :: ops =>
    let r := o.step agg cf op
    let rs := Objs.run agg cf r.1 ops
    (rs.1, r.2 :: rs.2)

/-- The action changes no list that `get_n_grams` returned. -/
def NoWrite : Op → Prop
  | .write _ _ => False
  | _ => True

/-- The action is a call of `ApproxWordListV6`, `ApproxWordListV5` or `ApproxWordListV5b`. -/
def OnList : Op → Prop
  | .newList _ _ _ => True
  | .add _ _ => True
  | .lookup _ _ _ _ => True
  | .lookupV5 _ _ _ _ _ => True
  | .newV5b _ _ _ => True
  | .addV5b _ _ => True
  | .lookupV5b _ _ _ _ => True
  | _ => False

/-- `n` is an int wherever the action passes one. -/
def IntsOnly : Op → Prop
  | .grams _ n => ∃ z, n = .int z
  | .nums _ n => ∃ z, n = .int z
  | .newV3 ns _ => ∃ zs : List ℤ, ns = zs.map .int
  | _ => True

/-- A result without the name of the list object. -/
def contents {S : Type} : Out S → Out S
  | .list (.ok (_, l)) => .list (.ok (0, l))
  | o => o

end Verif.MemoSpec
