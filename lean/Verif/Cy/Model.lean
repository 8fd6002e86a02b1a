import Verif.Fp.Emd

/-!
# Model of experiments/emd_1d_cython.pyx

The C side of the code is modelled with an explicit heap: blocks of cells that may be uninitialised,
null pointers, blocks that have been freed. Reading or writing outside a block, through a null
pointer, through a freed block, reading an uninitialised cell and freeing twice are undefined
behaviour and stop the run with `ub`. Whether an allocation succeeds is decided by an oracle
(including `malloc(0)`, which may return `NULL`). C doubles are rounded numbers as in `Verif.Fp`.
-/

namespace Verif
namespace Cy

open Fp

/-- The exceptions of this code. -/
inductive CExc where
  | typeError
  | memoryError
deriving DecidableEq

/-- Undefined behaviour. -/
inductive UB where
  | nullPointer
  | freed
  | outOfBounds
  | uninitialised
  | doubleFree
deriving DecidableEq

/-- Why a run stops. -/
inductive Stop where
  | exc (e : CExc)
  | ub (u : UB)
deriving DecidableEq

/-- A block of memory: cells, `none` if not yet written. -/
abbrev Block := List (Option ℚ)

/-- The heap: one entry per block ever allocated, `none` once freed; and the number of calls of
`malloc` so far. -/
structure Heap where
  blocks : List (Option Block)
  calls : ℕ
deriving DecidableEq

/-- A pointer to the start of a block; `none` is `NULL`. -/
abbrev Ptr := Option ℕ

/-- A computation on the heap; the heap survives an exception. -/
structure M (α : Type) where
  run : Heap → Except Stop α × Heap

/-- Sequencing. -/
def M.bind {α β : Type} (c : M α) (f : α → M β) : M β := ⟨fun h =>
  match c.run h with
  | (.ok a, h') => (f a).run h'
  | (.error e, h') => (.error e, h')⟩

instance : Monad M where
  pure a := ⟨fun h => (.ok a, h)⟩
  bind := M.bind

/-- What the environment decides: whether the `k`-th call of `malloc`, for `size` cells, succeeds,
and whether there is memory for the two Python lists. -/
structure Env where
  mallocOk : ℕ → ℕ → Bool
  listOk : Bool → Bool

/-- `raise`. -/
def raise {α : Type} (e : CExc) : M α := ⟨fun h => (.error (.exc e), h)⟩

/-- `malloc(size * sizeof(double))` (experiments/emd_1d_cython.pyx:52, 69, 95, 96). -/
def malloc (env : Env) (size : ℕ) : M Ptr := ⟨fun h =>
  if env.mallocOk h.calls size then
    (.ok (some h.blocks.length), ⟨h.blocks ++ [some (List.replicate size none)], h.calls + 1⟩)
  else (.ok none, ⟨h.blocks, h.calls + 1⟩)⟩

/-- `if p != NULL: free(p)` (e.g. experiments/emd_1d_cython.pyx:64). -/
def freeIf (p : Ptr) : M Unit := ⟨fun h =>
  match p with
  | none => (.ok (), h)
  | some k =>
    match h.blocks[k]? with
    | some (some _) => (.ok (), ⟨h.blocks.set k none, h.calls⟩)
    | _ => (.error (.ub .doubleFree), h)⟩

/-- `p[i]` (experiments/emd_1d_cython.pyx:59, 77, 124-126, 142), no bounds check. -/
def load (p : Ptr) (i : ℤ) : M ℚ := ⟨fun h =>
  match p with
  | none => (.error (.ub .nullPointer), h)
  | some k =>
    match h.blocks[k]? with
    | some (some b) =>
      if i < 0 then (.error (.ub .outOfBounds), h)
      else
        match b[i.toNat]? with
        | none => (.error (.ub .outOfBounds), h)
        | some none => (.error (.ub .uninitialised), h)
        | some (some v) => (.ok v, h)
    | _ => (.error (.ub .freed), h)⟩

/-- `p[i] = v` (experiments/emd_1d_cython.pyx:57, 62, 75, 80, 112, 117, 131-135). -/
def store (p : Ptr) (i : ℤ) (v : ℚ) : M Unit := ⟨fun h =>
  match p with
  | none => (.error (.ub .nullPointer), h)
  | some k =>
    match h.blocks[k]? with
    | some (some b) =>
      if i < 0 ∨ b.length ≤ i.toNat then (.error (.ub .outOfBounds), h)
      else (.ok (), ⟨h.blocks.set k (some (b.set i.toNat (some v))), h.calls⟩)
    | _ => (.error (.ub .freed), h)⟩

/-- `for i in …: body`, carrying the variables that the body assigns. -/
def foldM {σ : Type} (body : σ → ℕ → M σ) : σ → List ℕ → M σ
  | s, [] => pure s
  | s, i :: is => do
    let s ← body s i
    foldM body s is

/-- `try: body` `except: handler; raise` (experiments/emd_1d_cython.pyx:55-65, 73-84). -/
def tryExcept (body handler : M Unit) : M Unit := ⟨fun h =>
  match body.run h with
  | (.error (.exc e), h') =>
    match handler.run h' with
    | (.ok _, h'') => (.error (.exc e), h'')
    | r => r
  | r => r⟩

/-- A Python object given as a sequence of numbers: `none` has no `len()`, an element `none` cannot
be converted to a C double. -/
abbrev PySeq := Option (List (Option ℚ))

/-- `len(positions)`; the items are returned with it (experiments/emd_1d_cython.pyx:51, 68). -/
def lenOf (p : PySeq) : M (List (Option ℚ)) :=
  match p with
  | none => raise .typeError
  | some l => pure l

/-- The Python list and its `sort()` (experiments/emd_1d_cython.pyx:59-60, 77-78). -/
def sortedList (listOk : Bool) (l : List ℚ) : M (List ℚ) :=
  if listOk then pure (pySorted l) else raise .memoryError

/-- `x_ptr[i] = positions_x[i]` (experiments/emd_1d_cython.pyx:57, 75). -/
def putItem (R : Rounding) (p : Ptr) (items : List (Option ℚ)) (_ : Unit) (i : ℕ) : M Unit :=
  match items[i]? with
  | some (some q) => store p i (R.fl q)
  | _ => raise .typeError

/-- One element of the list comprehension (experiments/emd_1d_cython.pyx:59, 77). -/
def getItem (p : Ptr) (l : List ℚ) (i : ℕ) : M (List ℚ) := do
  let v ← load p i
  return l ++ [v]

/-- `x_ptr[i] = x_list[i]` (experiments/emd_1d_cython.pyx:62, 80). -/
def putBack (p : Ptr) (l : List ℚ) (_ : Unit) (i : ℕ) : M Unit :=
  match l[i]? with
  | some q => store p i q
  | none => raise .typeError

/-- The bodies of the two `try` blocks (experiments/emd_1d_cython.pyx:56-62, 74-80): convert, copy
into a Python list, sort it, copy it back. -/
def convert (R : Rounding) (listOk : Bool) (p : Ptr) (items : List (Option ℚ)) : M Unit := do
  foldM (putItem R p items) () (List.range items.length)
  let l ← foldM (getItem p) [] (List.range items.length)
  let l ← sortedList listOk l
  foldM (putBack p l) () (List.range items.length)

/-- The comparison chain, experiments/emd_1d_cython.pyx:130-135. -/
def pick (matchCost leaveX leaveY : ℚ) : ℚ :=
  if matchCost ≤ leaveX ∧ matchCost ≤ leaveY then matchCost
  else if leaveX ≤ matchCost ∧ leaveX ≤ leaveY then leaveX
  else leaveY

/-- Body of the inner loop, experiments/emd_1d_cython.pyx:124-135. -/
def cell (R : Rounding) (x y prev curr : Ptr) (i j : ℕ) : M Unit := do
  let a ← load x ((i : ℤ) - 1)
  let b ← load y ((j : ℤ) - 1)
  let p ← load prev ((j : ℤ) - 1)
  let matchCost := R.fl (|R.fl (a - b)| + p)
  let q ← load prev j
  let leaveX := R.fl (1 + q)
  let r ← load curr ((j : ℤ) - 1)
  let leaveY := R.fl (1 + r)
  store curr j (pick matchCost leaveX leaveY)

/-- Body of the outer loop, experiments/emd_1d_cython.pyx:115-139. -/
def row (R : Rounding) (x y : Ptr) (m : ℕ) (rows : Ptr × Ptr) (i : ℕ) : M (Ptr × Ptr) := do
  store rows.2 0 (R.fl (i : ℚ))
  foldM (fun _ j => cell R x y rows.1 rows.2 i j) () (List.range' 1 m)
  return (rows.2, rows.1)

/-- Freeing `x_ptr` and `y_ptr`, experiments/emd_1d_cython.pyx:102-107 and 148-153. -/
def freeXY (swapped : Bool) (x y : Ptr) : M Unit :=
  if swapped then do
    freeIf y
    freeIf x
  else do
    freeIf x
    freeIf y

/-- experiments/emd_1d_cython.pyx:94-155: from the allocation of the rows to the result. -/
def dp (R : Rounding) (env : Env) (swapped : Bool) (x y : Ptr) (n m : ℕ) : M ℚ := do
  let prev ← malloc env (m + 1)
  let curr ← malloc env (m + 1)
  if prev.isNone || curr.isNone then do
    freeIf prev
    freeIf curr
    freeXY swapped x y
    raise .memoryError
  else do
    foldM (fun _ j => store prev j (R.fl (j : ℚ))) () (List.range (m + 1))
    let rows ← foldM (row R x y m) (prev, curr) (List.range' 1 n)
    let final ← load rows.1 m
    freeIf rows.1
    freeIf rows.2
    freeXY swapped x y
    return final

/-- experiments/emd_1d_cython.pyx:67-155: from the second argument on. -/
def second (R : Rounding) (env : Env) (x : Ptr) (n : ℕ) (py : PySeq) : M ℚ := do
  let ys ← lenOf py
  let y ← malloc env ys.length
  if y.isNone then do
    freeIf x
    raise .memoryError
  else do
    tryExcept (convert R (env.listOk true) y ys) (do freeIf x; freeIf y)
    if n > ys.length then dp R env true y x ys.length n
    else dp R env false x y n ys.length

/-- `emd_1d_dp_cython(positions_x, positions_y)`, experiments/emd_1d_cython.pyx:19-155. -/
def emdCython (R : Rounding) (env : Env) (px py : PySeq) : M ℚ := do
  let xs ← lenOf px
  let x ← malloc env xs.length
  if x.isNone then raise .memoryError
  else do
    tryExcept (convert R (env.listOk false) x xs) (freeIf x)
    second R env x xs.length py

end Cy
end Verif
