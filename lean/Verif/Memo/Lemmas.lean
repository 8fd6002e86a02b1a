import Verif.Memo.Model

/-!
# Helper lemmas: code that calls memoised functions
-/

namespace Verif.Memo

variable {α β γ : Type}

theorem bind_ret (p : Prog α) : p.bind Prog.ret = p := by
  induction p with
  | ret a => rfl
  | grams w n k ih => simp only [Prog.bind]; congr 1; funext r; exact ih r
  | nums l n k ih => simp only [Prog.bind]; congr 1; funext r; exact ih r

theorem bind_bind (p : Prog α) (f : α → Prog β) (g : β → Prog γ) :
    (p.bind f).bind g = p.bind (fun a => (f a).bind g) := by
  induction p with
  | ret a => rfl
  | grams w n k ih => simp only [Prog.bind]; congr 1; funext r; exact ih r
  | nums l n k ih => simp only [Prog.bind]; congr 1; funext r; exact ih r

instance : LawfulMonad Prog :=
  LawfulMonad.mk' (m := Prog) (id_map := fun x => bind_ret x) (pure_bind := fun _ _ => rfl)
    (bind_assoc := fun x f g => bind_bind x f g)

/-- Executing code without caches. -/
def runU : Prog α → α
  | .ret a => a
  | .grams w n k => runU (k (gramsBody w n))
  | .nums l n k => runU (k (numsBody l n))

theorem runU_bind (p : Prog α) (f : α → Prog β) : runU (p >>= f) = runU (f (runU p)) := by
  change runU (p.bind f) = _
  induction p with
  | ret a => rfl
  | grams w n k ih => exact ih _
  | nums l n k ih => exact ih _

@[simp] theorem runU_pure (a : α) : runU (pure a : Prog α) = a := rfl

@[simp] theorem runU_ret (a : α) : runU (Prog.ret a) = a := rfl

/-- Executing code that may raise without caches. -/
def U (p : P α) : Except PyErr α := runU p.run

theorem U_bind (p : P α) (f : α → P β) : U (p >>= f) = (U p >>= fun a => U (f a)) := by
  unfold U
  rw [ExceptT.run_bind, runU_bind]
  cases runU p.run <;> rfl

@[simp] theorem U_pure (a : α) : U (pure a : P α) = .ok a := rfl

@[simp] theorem U_liftE (r : Except PyErr α) : U (liftE r) = r := rfl

@[simp] theorem U_tryGrams (w : List Char) (n : ℤ) : U (tryGrams w n) = .ok (getNGrams w n) := rfl

@[simp] theorem U_tryNums (l : ℕ) (n : ℤ) : U (tryNums l n) = .ok (numGrams l n) := rfl

theorem U_foldlM (f : β → α → P β) (l : List α) (b : β) :
    U (l.foldlM f b) = l.foldlM (fun b a => U (f b a)) b := by
  induction l generalizing b with
  | nil => rfl
  | cons a l ih =>
    rw [List.foldlM_cons, List.foldlM_cons, U_bind]
    congr 1; funext b'; exact ih b'

theorem U_mapM (f : α → P β) (l : List α) : U (l.mapM f) = l.mapM (fun a => U (f a)) := by
  induction l with
  | nil => rfl
  | cons a l ih =>
    rw [List.mapM_cons, List.mapM_cons, U_bind]
    congr 1; funext b
    rw [U_bind, ih]
    rfl

theorem U_ite (c : Prop) [Decidable c] (p q : P α) :
    U (if c then p else q) = if c then U p else U q := by
  split <;> rfl

/-! ## Code that cannot tell a number from an equal one -/

/-- The code calls the two functions with ints only and uses what `num_grams` returns as a number
only. -/
inductive Insens : Prog α → Prop where
  | ret (a : α) : Insens (.ret a)
  | grams (w : List Char) (z : ℤ) (k) : (∀ r, Insens (k r)) → Insens (.grams w (.int z) k)
  | nums (l : ℕ) (z : ℤ) (k) : (∀ v, Insens (k v)) →
      (∀ v v' : Num, v.toInt = v'.toInt → k v = k v') → Insens (.nums l (.int z) k)

theorem Insens.bind {p : Prog α} {f : α → Prog β} (hp : Insens p) (hf : ∀ a, Insens (f a)) :
    Insens (p >>= f) := by
  change Insens (p.bind f)
  induction hp with
  | ret a => exact hf a
  | grams w z k _ ih => exact .grams w z _ ih
  | nums l z k _ he ih => exact .nums l z _ ih (fun v v' h => by rw [he v v' h])

theorem Insens.pure (a : α) : Insens (Pure.pure a : Prog α) := .ret a

/-- `Insens` for code that may raise. -/
def InsensP (p : P α) : Prop := Insens p.run

theorem InsensP.bind {p : P α} {f : α → P β} (hp : InsensP p) (hf : ∀ a, InsensP (f a)) :
    InsensP (p >>= f) := by
  unfold InsensP
  rw [ExceptT.run_bind]
  refine Insens.bind hp fun r => ?_
  cases r with
  | error e => exact .ret _
  | ok a => exact hf a

theorem InsensP.pure (a : α) : InsensP (Pure.pure a : P α) := .ret _

theorem InsensP.liftE (r : Except PyErr α) : InsensP (liftE r) := .ret _

theorem InsensP.tryGrams (w : List Char) (n : ℤ) : InsensP (tryGrams w n) :=
  .grams _ _ _ (fun _ => .ret _)

theorem InsensP.tryNums (l : ℕ) (n : ℤ) : InsensP (tryNums l n) :=
  .nums _ _ _ (fun _ => .ret _) (fun v v' h => by rw [h])

theorem InsensP.foldlM {f : β → α → P β} (hf : ∀ b a, InsensP (f b a)) (l : List α) (b : β) :
    InsensP (l.foldlM f b) := by
  induction l generalizing b with
  | nil => exact InsensP.pure b
  | cons a l ih => rw [List.foldlM_cons]; exact InsensP.bind (hf b a) ih

theorem InsensP.mapM {f : α → P β} (hf : ∀ a, InsensP (f a)) (l : List α) :
    InsensP (l.mapM f) := by
  induction l with
  | nil => exact InsensP.pure []
  | cons a l ih =>
    rw [List.mapM_cons]
    exact InsensP.bind (hf a) fun b => InsensP.bind ih fun _ => InsensP.pure _

theorem InsensP.ite {c : Prop} [Decidable c] {p q : P α} (hp : InsensP p) (hq : InsensP q) :
    InsensP (if c then p else q) := by
  split
  · exact hp
  · exact hq

/-! ## Code that is given ints only -/

/-- The code calls the two functions with ints only. -/
inductive Whole : Prog α → Prop where
  | ret (a : α) : Whole (.ret a)
  | grams (w : List Char) (z : ℤ) (k) : (∀ r, Whole (k r)) → Whole (.grams w (.int z) k)
  | nums (l : ℕ) (z : ℤ) (k) : (∀ v, Whole (k v)) → Whole (.nums l (.int z) k)

theorem Whole.bind {p : Prog α} {f : α → Prog β} (hp : Whole p) (hf : ∀ a, Whole (f a)) :
    Whole (p >>= f) := by
  change Whole (p.bind f)
  induction hp with
  | ret a => exact hf a
  | grams w z k _ ih => exact .grams w z _ ih
  | nums l z k _ ih => exact .nums l z _ ih

theorem Insens.whole {p : Prog α} (h : Insens p) : Whole p := by
  induction h with
  | ret a => exact .ret a
  | grams w z k _ ih => exact .grams w z _ ih
  | nums l z k _ _ ih => exact .nums l z _ ih

/-- `Whole` for code that may raise. -/
def WholeP (p : P α) : Prop := Whole p.run

theorem WholeP.bind {p : P α} {f : α → P β} (hp : WholeP p) (hf : ∀ a, WholeP (f a)) :
    WholeP (p >>= f) := by
  unfold WholeP
  rw [ExceptT.run_bind]
  refine Whole.bind hp fun r => ?_
  cases r with
  | error e => exact .ret _
  | ok a => exact hf a

theorem WholeP.pure (a : α) : WholeP (Pure.pure a : P α) := .ret _

theorem WholeP.liftE (r : Except PyErr α) : WholeP (liftE r) := .ret _

theorem WholeP.nums (l : ℕ) (z : ℤ) (f : Num → Except PyErr α) :
    WholeP (ExceptT.mk (.nums l (.int z) (fun v => .ret (f v))) : P α) :=
  Whole.nums _ _ _ (fun _ => .ret _)

theorem WholeP.foldlM {f : β → α → P β} (l : List α) (hf : ∀ b, ∀ a ∈ l, WholeP (f b a)) (b : β) :
    WholeP (l.foldlM f b) := by
  induction l generalizing b with
  | nil => exact WholeP.pure b
  | cons a l ih =>
    rw [List.foldlM_cons]
    exact WholeP.bind (hf b a (by simp)) fun b' =>
      ih (fun b a h => hf b a (List.mem_cons_of_mem _ h)) b'

theorem WholeP.mapM {f : α → P β} (l : List α) (hf : ∀ a ∈ l, WholeP (f a)) :
    WholeP (l.mapM f) := by
  induction l with
  | nil => exact WholeP.pure []
  | cons a l ih =>
    rw [List.mapM_cons]
    exact WholeP.bind (hf a (by simp)) fun b =>
      WholeP.bind (ih (fun a h => hf a (List.mem_cons_of_mem _ h))) fun _ => WholeP.pure _

theorem WholeP.ite {c : Prop} [Decidable c] {p q : P α} (hp : WholeP p) (hq : WholeP q) :
    WholeP (if c then p else q) := by
  split
  · exact hp
  · exact hq

/-! ## The caches -/

/-- An entry of the cache of `get_n_grams` says what the function would return. -/
def GramOk (heap : List (List (List Char))) (e : (List Char × ℚ) × ℕ) : Prop :=
  e.2 < heap.length ∧ (∀ z : ℤ, e.1.2 = z → heap[e.2]? = some (getNGrams e.1.1 z)) ∧
    (e.1.2 ≤ 1 → heap[e.2]? = some (e.1.1.map (fun c => [c])))

/-- An entry of the cache of `num_grams` has the value that the function would return. -/
def NumOk (e : (ℕ × ℚ) × Num) : Prop := ∀ z : ℤ, e.1.2 = z → e.2.toInt = numGrams e.1.1 z

/-- An entry of the cache of `num_grams` that an int may find is an int. -/
def NumInt (e : (ℕ × ℚ) × Num) : Prop := ∀ z : ℤ, e.1.2 = z → e.2 = .int (numGrams e.1.1 z)

theorem NumInt.numOk {e : (ℕ × ℚ) × Num} (h : NumInt e) : NumOk e := fun z hz => by
  rw [h z hz]; rfl

/-- No cached list has been changed. -/
structure Valid (c : Caches) : Prop where
  grams : ∀ e ∈ c.grams, GramOk c.heap e
  nums : ∀ e ∈ c.nums, NumOk e

/-- The cache of `num_grams` has not seen floats. -/
def Ints (c : Caches) : Prop := ∀ e ∈ c.nums, NumInt e

theorem Valid.empty : Valid .empty := ⟨by simp [Caches.empty], by simp [Caches.empty]⟩

theorem Ints.empty : Ints .empty := by simp [Ints, Caches.empty]

theorem GramOk.mono {h : List (List (List Char))} {e : (List Char × ℚ) × ℕ} (l : List (List Char))
    (he : GramOk h e) : GramOk (h ++ [l]) e :=
  ⟨by have := he.1; simp; omega,
   fun z hz => by rw [List.getElem?_append_left he.1]; exact he.2.1 z hz,
   fun hq => by rw [List.getElem?_append_left he.1]; exact he.2.2 hq⟩

theorem mem_remember {κ ν : Type} {M : ℕ} {c : List (κ × ν)} {k : κ} {v : ν} {e : κ × ν}
    (h : e ∈ remember M c k v) : e = (k, v) ∨ e ∈ c := by
  rcases List.mem_cons.1 h with h | h
  · exact .inl h
  · exact .inr (List.mem_of_mem_take h)

theorem mem_refresh {κ ν : Type} [DecidableEq κ] {c : List (κ × ν)} {k : κ} {v : ν} {e : κ × ν}
    (hk : (k, v) ∈ c) (h : e ∈ refresh c k v) : e ∈ c := by
  rcases List.mem_cons.1 h with h | h
  · exact h ▸ hk
  · exact List.mem_of_mem_filter h

theorem getNGrams_low (w : List Char) {z : ℤ} (h : z ≤ 1) :
    getNGrams w z = w.map (fun c => [c]) := by
  unfold getNGrams
  rw [if_neg (by omega)]

/-- A new list is what the function returns. -/
theorem body_ok {w : List Char} {n : Num} {l : List (List Char)} (h : gramsBody w n = .ok l) :
    (∀ z : ℤ, n.val = z → l = getNGrams w z) ∧ (n.val ≤ 1 → l = w.map (fun c => [c])) := by
  cases n with
  | int z =>
    simp only [gramsBody, Except.ok.injEq] at h
    simp only [Num.val]
    refine ⟨fun z' hz => ?_, fun hz => ?_⟩
    · rw [← h, Int.cast_inj.1 hz]
    · rw [← h, getNGrams_low w (by exact_mod_cast hz)]
  | float q =>
    simp only [gramsBody] at h
    split at h
    · cases h
    next hq =>
      simp only [Num.val]
      obtain rfl := Except.ok.inj h
      refine ⟨fun z hz => ?_, fun _ => rfl⟩
      rw [getNGrams_low w (by rw [hz] at hq; exact_mod_cast not_lt.1 hq)]

theorem callGrams_valid {c : Caches} (hc : Valid c) (M : ℕ) (w : List Char) (n : Num) :
    Valid (callGrams M c w n).2 := by
  unfold callGrams
  split
  next a ha =>
    exact ⟨fun e he => hc.grams e (mem_refresh (Dict.mem_of_get? ha) he), hc.nums⟩
  · split
    · exact hc
    next l hl =>
      refine ⟨fun e he => ?_, hc.nums⟩
      rcases mem_remember he with rfl | he
      · refine ⟨by simp, fun z hz => ?_, fun hq => ?_⟩
        · simp only [List.getElem?_concat_length, (body_ok hl).1 z hz]
        · simp only [List.getElem?_concat_length, (body_ok hl).2 hq]
      · exact (hc.grams e he).mono l

theorem callGrams_int {c : Caches} (hc : Valid c) (M : ℕ) (w : List Char) (z : ℤ) :
    ∃ a, (callGrams M c w (.int z)).1 = .ok a ∧
      (callGrams M c w (.int z)).2.heap.getD a [] = getNGrams w z := by
  unfold callGrams
  split
  next a ha =>
    have := (hc.grams _ (Dict.mem_of_get? ha)).2.1 z rfl
    exact ⟨a, rfl, by simp only [List.getD_eq_getElem?_getD, this, Option.getD_some]⟩
  · refine ⟨c.heap.length, rfl, ?_⟩
    simp only [gramsBody, List.getD_eq_getElem?_getD, List.getElem?_concat_length,
      Option.getD_some]

theorem numsBody_ok (l : ℕ) (n : Num) : NumOk ((l, n.val), numsBody l n) := by
  intro z hz
  cases n with
  | int y =>
    simp only [Num.val] at hz
    rw [Int.cast_inj.1 hz]; rfl
  | float q =>
    simp only [Num.val] at hz
    subst hz
    simp only [numsBody]
    unfold numGrams
    split
    next h =>
      rw [if_pos (by exact_mod_cast h)]
      simp only [Num.toInt]
      rw [Int.floor_eq_iff]
      push_cast
      constructor <;> linarith
    next h => rw [if_neg (by exact_mod_cast h)]; rfl

theorem callNums_valid {c : Caches} (hc : Valid c) (M : ℕ) (l : ℕ) (n : Num) :
    Valid (callNums M c l n).2 := by
  unfold callNums
  split
  next v hv => exact ⟨hc.grams, fun e he => hc.nums e (mem_refresh (Dict.mem_of_get? hv) he)⟩
  · refine ⟨hc.grams, fun e he => ?_⟩
    rcases mem_remember he with rfl | he
    · exact numsBody_ok l n
    · exact hc.nums e he

theorem callNums_toInt {c : Caches} (hc : Valid c) (M : ℕ) (l : ℕ) (z : ℤ) :
    (callNums M c l (.int z)).1.toInt = numGrams l z := by
  unfold callNums
  split
  next v hv => exact hc.nums _ (Dict.mem_of_get? hv) z rfl
  · rfl

theorem callNums_ints {c : Caches} (hc : Ints c) (M : ℕ) (l : ℕ) (z : ℤ) :
    Ints (callNums M c l (.int z)).2 := by
  unfold callNums
  split
  next v hv => exact fun e he => hc e (mem_refresh (Dict.mem_of_get? hv) he)
  · intro e he
    rcases mem_remember he with rfl | he
    · intro z' hz'
      have : z = z' := by simpa [Num.val] using hz'
      rw [← this]; rfl
    · exact hc e he

theorem callNums_int {c : Caches} (hc : Ints c) (M : ℕ) (l : ℕ) (z : ℤ) :
    (callNums M c l (.int z)).1 = .int (numGrams l z) := by
  unfold callNums
  split
  next v hv => exact hc _ (Dict.mem_of_get? hv) z rfl
  · rfl

theorem callGrams_nums (M : ℕ) (c : Caches) (w : List Char) (n : Num) :
    (callGrams M c w n).2.nums = c.nums := by
  unfold callGrams
  split
  · rfl
  · split <;> rfl

/-! ## Execution -/

theorem exec_bind (M : ℕ) (p : Prog α) (f : α → Prog β) (c : Caches) :
    (p >>= f).exec M c = (f (p.exec M c).1).exec M (p.exec M c).2 := by
  change (p.bind f).exec M c = _
  induction p generalizing c with
  | ret a => rfl
  | grams w n k ih =>
    simp only [Prog.bind, Prog.exec]
    rcases h : callGrams M c w n with ⟨r, c'⟩
    cases r <;> exact ih _ _
  | nums l n k ih =>
    simp only [Prog.bind, Prog.exec]
    exact ih _ _

theorem exec_valid (M : ℕ) (p : Prog α) {c : Caches} (hc : Valid c) : Valid (p.exec M c).2 := by
  induction p generalizing c with
  | ret a => exact hc
  | grams w n k ih =>
    simp only [Prog.exec]
    have := callGrams_valid hc M w n
    rcases h : callGrams M c w n with ⟨r, c'⟩
    rw [h] at this
    cases r <;> exact ih _ this
  | nums l n k ih => exact ih _ (callNums_valid hc M l n)

theorem exec_insens (M : ℕ) {p : Prog α} (hp : Insens p) {c : Caches} (hc : Valid c) :
    (p.exec M c).1 = runU p := by
  induction hp generalizing c with
  | ret a => rfl
  | grams w z k _ ih =>
    simp only [Prog.exec]
    have h1 := callGrams_valid hc M w (.int z)
    obtain ⟨a, ha, hl⟩ := callGrams_int hc M w z
    rcases h : callGrams M c w (.int z) with ⟨r, c'⟩
    rw [h] at h1 ha hl
    simp only at ha hl h1
    subst ha
    simp only [hl]
    exact ih _ h1
  | nums l z k _ he ih =>
    simp only [Prog.exec]
    rw [ih _ (callNums_valid hc M l (.int z)),
      he _ (numsBody l (.int z)) (callNums_toInt hc M l z)]
    rfl

theorem exec_whole (M : ℕ) {p : Prog α} (hp : Whole p) {c : Caches} (hc : Valid c)
    (hi : Ints c) : (p.exec M c).1 = runU p ∧ Ints (p.exec M c).2 := by
  induction hp generalizing c with
  | ret a => exact ⟨rfl, hi⟩
  | grams w z k _ ih =>
    simp only [Prog.exec]
    have h1 := callGrams_valid hc M w (.int z)
    have h2 : Ints (callGrams M c w (.int z)).2 := by
      unfold Ints; rw [callGrams_nums]; exact hi
    obtain ⟨a, ha, hl⟩ := callGrams_int hc M w z
    rcases h : callGrams M c w (.int z) with ⟨r, c'⟩
    rw [h] at h1 ha hl h2
    simp only at ha hl h1 h2
    subst ha
    simp only [hl]
    exact ih _ h1 h2
  | nums l z k _ ih =>
    simp only [Prog.exec]
    have := ih (callNums M c l (.int z)).1 (callNums_valid hc M l (.int z))
      (callNums_ints hi M l z)
    rw [callNums_int hi] at this ⊢
    exact this

end Verif.Memo
